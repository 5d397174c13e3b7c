import Verif.Spec.StdLines
import Verif.Props.Resume
/-!
# C114: the LF meter and `str::lines`
-/
namespace Parcom
open Spec


theorem splitInclusive_flatten (cs : List Char) : (splitInclusive cs).flatten = cs := by
  induction cs with
  | nil => rfl
  | cons c cs ih =>
    unfold splitInclusive
    split
    · simp [ih]
    · split
      · next h => rw [h] at ih; simp at ih; simp [ih]
      · next p ps h => rw [h] at ih; simp at ih; simp [ih]

theorem splitInclusive_ne_nil {c : Char} {cs : List Char} : splitInclusive (c :: cs) ≠ [] := by
  unfold splitInclusive
  split
  · simp
  · split <;> simp

/-- Where a text has been read from the beginning of a line on, or from within one. -/
theorem lf_pieces (cs : List Char) (m : LineColumnMeter LF) :
    let r := cs.foldl LineColumnMeter.step m
    (splitInclusive cs = [] → r = m) ∧
    (m.nextIsNewLine = true → r.location.line = m.location.line + (splitInclusive cs).length ∧
      (∀ p, (splitInclusive cs).getLast? = some p → r.location.column = p.length)) ∧
    (m.nextIsNewLine = false → r.location.line + 1 = m.location.line + max 1 (splitInclusive cs).length ∧
      (∀ p, (splitInclusive cs).getLast? = some p →
        r.location.column = p.length + (if (splitInclusive cs).length = 1 then m.location.column else 0))) := by
  induction cs generalizing m with
  | nil => simp [splitInclusive]
  | cons c cs ih =>
    have hm := meter_step_line m c
    have hnext : (m.step c).nextIsNewLine = decide (c = '\n') := by
      rw [Bool.eq_iff_iff, hm.2]
      by_cases hc : c = '\n' <;> simp [EndOfLine.next, hc]
    simp only [List.foldl_cons]
    have := ih (m.step c)
    dsimp only at this
    generalize List.foldl LineColumnMeter.step (m.step c) cs = r at *
    refine ⟨fun h => absurd h splitInclusive_ne_nil, ?_⟩
    rw [hnext] at this
    by_cases hc : c = '\n'
    · subst hc
      have h0 := this.1
      have h1 := this.2.1 (by simp)
      rw [hm.1] at h1
      simp only [splitInclusive, if_true, List.length_cons]
      generalize splitInclusive cs = l at *
      cases l with
      | nil =>
        have := h0 rfl
        subst this
        rw [hm.1]
        refine ⟨fun hn => ?_, fun hn => ?_⟩ <;> simp [hn] <;> omega
      | cons p ps =>
        refine ⟨fun hn => ?_, fun hn => ?_⟩ <;> simp only [hn, if_true, if_false, Bool.false_eq_true, Nat.add_zero] at h1 <;>
          refine ⟨by simp at h1 ⊢; omega, fun q hq => ?_⟩ <;> rw [List.getLast?_cons_cons] at hq <;> rw [h1.2 q hq]
        simp
    · have h0 := this.1
      have h1 := this.2.2 (by simp [hc])
      rw [hm.1] at h1
      simp only [splitInclusive, if_neg hc]
      generalize splitInclusive cs = l at *
      cases l with
      | nil =>
        have := h0 rfl
        subst this
        rw [hm.1]
        refine ⟨fun hn => ?_, fun hn => ?_⟩ <;> simp [hn] <;> omega
      | cons p ps =>
        cases ps with
        | nil =>
          refine ⟨fun hn => ?_, fun hn => ?_⟩ <;> simp [hn] at h1 ⊢ <;> omega
        | cons q qs =>
          simp only [List.getLast?_cons_cons] at h1 ⊢
          refine ⟨fun hn => ?_, fun hn => ?_⟩ <;> simp [hn] at h1 ⊢ <;> exact ⟨by omega, h1.2⟩

theorem endsLF_snoc (p : List Char) (d : Char) : endsLF (p ++ [d]) ↔ d = '\n' := by
  unfold endsLF
  constructor
  · rintro ⟨q, h⟩
    exact (List.append_inj' h rfl).2 |> fun h => by simpa using h.symm
  · rintro rfl; exact List.suffix_append _ _

theorem trailingCR_iff (p : List Char) : trailingCR p ≠ 0 ↔ p.getLast? = some '\r' := by
  rcases List.eq_nil_or_concat p with rfl | ⟨q, d, rfl⟩
  · simp [trailingCR]
  · rw [List.concat_eq_append, trailingCR_snoc]
    by_cases hd : d = '\r' <;> simp [hd]

theorem stripLine_length (l : List Char) : l.length = (stripLine l).length + endLength l := by
  unfold stripLine endLength
  rcases List.eq_nil_or_concat l with rfl | ⟨p, d, rfl⟩
  · decide
  simp only [List.concat_eq_append, endsLF_snoc, endsCRLF_snoc, trailingCR_iff]
  by_cases hd : d = '\n'
  · by_cases hp : p.getLast? = some '\r'
    · have : p ≠ [] := by rintro rfl; simp at hp
      have := List.length_pos_iff.mpr this
      simp [hd, hp]
      omega
    · simp [hd, hp]
  · simp [hd]

theorem endLength_cons {c : Char} {cs : List Char} (h : cs ≠ []) (hr : c ≠ '\r' ∨ cs ≠ ['\n']) :
    endLength (c :: cs) = endLength cs := by
  rcases List.eq_nil_or_concat cs with rfl | ⟨p, d, rfl⟩
  · exact absurd rfl h
  rw [List.concat_eq_append] at *
  unfold endLength
  rw [← List.cons_append]
  simp only [endsLF_snoc, endsCRLF_snoc, trailingCR_iff]
  rcases List.eq_nil_or_concat p with rfl | ⟨q, e, rfl⟩
  · by_cases hd : d = '\n'
    · subst hd; simp at hr; simp [hr]
    · simp [hd]
  · rw [List.concat_eq_append, ← List.cons_append, List.getLast?_concat, List.getLast?_concat]

/-- What ends a text is what ends its last line. -/
theorem endLength_last (cs : List Char) : ∀ p, (splitInclusive cs).getLast? = some p → endLength p = endLength cs := by
  induction cs with
  | nil => simp [splitInclusive]
  | cons c cs ih =>
    have hfl := splitInclusive_flatten cs
    have h0 : cs = [] → splitInclusive cs = [] := by rintro rfl; rfl
    have h1 : cs = ['\n'] → splitInclusive cs = [['\n']] := by rintro rfl; rfl
    simp only [splitInclusive]
    by_cases hc : c = '\n'
    · rw [if_pos hc]
      generalize splitInclusive cs = l at *
      cases l with
      | nil => simp at hfl; subst hfl; simp
      | cons q qs =>
        intro p hp
        rw [List.getLast?_cons_cons] at hp
        rw [ih p hp, endLength_cons]
        · intro h; exact absurd (h0 h) (by simp)
        · left; rw [hc]; decide
    · rw [if_neg hc]
      generalize splitInclusive cs = l at *
      cases l with
      | nil => simp at hfl; subst hfl; simp
      | cons q qs =>
        cases qs with
        | nil => simp at hfl ⊢; rw [hfl]
        | cons q' qs =>
          intro p hp
          simp only [List.getLast?_cons_cons] at hp ih
          rw [ih p hp, endLength_cons]
          · intro h; exact absurd (h0 h) (by simp)
          · right; intro h; exact absurd (h1 h) (by simp)

/-- C114: with LF, what the meter counts on any text in any chunks is what `str::lines` says, as the unit tests of `LineColumn`
(line_colmn.rs:115-176) expect of their examples: as many lines, and on the last one as many chars, plus what ends it. -/
theorem C114_lines (chunks : List (List Char)) :
    (metricsAfter LF chunks).totalCount = chunks.flatten.length ∧
    (metricsAfter LF chunks).line = (stdLines chunks.flatten).length ∧
    (metricsAfter LF chunks).column =
      ((stdLines chunks.flatten).getLast?.map fun l => l.length + endLength chunks.flatten).getD 0 := by
  have h := lf_pieces chunks.flatten LineColumnMeter.default
  refine ⟨total_count LF chunks, ?_⟩
  simp only [metricsAfter, feed_chunks]
  generalize chunks.flatten = cs at *
  dsimp only at h
  have h1 := h.2.1 rfl
  refine ⟨?_, ?_⟩
  · rw [show ∀ x : LineColumnMeter LF, (Meter.metrics Str x).line = x.location.line from fun _ => rfl, h1.1, stdLines, List.length_map]
    exact Nat.zero_add _
  · rw [show ∀ x : LineColumnMeter LF, (Meter.metrics Str x).column = x.location.column from fun _ => rfl, stdLines,
      List.getLast?_map]
    cases hl : (splitInclusive cs).getLast? with
    | none =>
      rw [List.getLast?_eq_none_iff] at hl
      rw [h.1 hl]
      rfl
    | some p =>
      rw [h1.2 p hl]
      simp only [Option.map_some, Option.getD_some]
      rw [← endLength_last cs p hl, ← stripLine_length]

theorem byteLen_eq_length (text : List Char) : byteLen text = text.length ↔ ∀ c ∈ text, c.utf8Size = 1 := by
  induction text with
  | nil => simp [byteLen]
  | cons c cs ih =>
    have hle : ∀ l : List Char, l.length ≤ byteLen l := by
      intro l
      induction l with
      | nil => simp [byteLen]
      | cons c cs ih => have := c.utf8Size_pos; simp [byteLen]; omega
    have := hle cs
    have hc := c.utf8Size_pos
    simp only [byteLen, List.length_cons, List.mem_cons, forall_eq_or_imp, ← ih]
    omega

theorem mem_splitInclusive {cs p : List Char} {c : Char} (hp : p ∈ splitInclusive cs) (hc : c ∈ p) : c ∈ cs := by
  rw [← splitInclusive_flatten cs]
  exact List.mem_flatten.mpr ⟨p, hp, hc⟩

theorem stripLine_prefix (l : List Char) : stripLine l <+: l := by
  unfold stripLine
  repeat' split
  · exact (List.dropLast_prefix _).trans (List.dropLast_prefix _)
  · exact List.dropLast_prefix _
  · exact List.prefix_refl _

/-- C114: the equation that the unit tests of `LineColumn` (line_colmn.rs:115-176) check on their examples, with `str::len` in
bytes, holds exactly on the texts whose chars all take one byte. -/
theorem C114_tests (text : List Char) :
    metricsAfter LF [text] =
      { totalCount := byteLen text
        line := (stdLines text).length
        column := ((stdLines text).getLast?.map fun l => byteLen l + endLength text).getD 0 } ↔
      ∀ c ∈ text, c.utf8Size = 1 := by
  obtain ⟨h1, h2, h3⟩ := C114_lines [text]
  simp only [List.flatten_cons, List.flatten_nil, List.append_nil] at h1 h2 h3
  constructor
  · intro h
    rw [← byteLen_eq_length, ← h1, h]
  · intro h
    have e : ∀ l : LineColumn, l = ⟨l.totalCount, l.line, l.column⟩ := fun _ => rfl
    rw [e (metricsAfter LF [text]), h1, h2, h3, (byteLen_eq_length text).mpr h]
    congr 1
    cases hl : (stdLines text).getLast? with
    | none => rfl
    | some l =>
      have hm := List.mem_of_getLast? hl
      simp only [stdLines, List.mem_map] at hm
      obtain ⟨p, hp, rfl⟩ := hm
      simp only [Option.map_some, Option.getD_some]
      rw [(byteLen_eq_length (stripLine p)).mpr fun c hc => h c (mem_splitInclusive hp ((stripLine_prefix p).subset hc))]

/-- The examples of the unit tests, and what `lines` makes of one of them. -/
example : stdLines "line0\n\r\rline3\r\nline4".toList = ["line0".toList, "\r\rline3".toList, "line4".toList] := by decide
example : endLength "line0\n\r\rline3\nline4\r\n".toList = 2 ∧ endLength "oneline\n".toList = 1 ∧ endLength "\r\r".toList = 0 := by
  decide
example : metricsAfter LF ["line0\n\r\rline3\r\nline4".toList] = ⟨20, 3, 5⟩ := by decide
example : metricsAfter LF ["line0\n\r\rline3\nline4\r\n".toList] = ⟨21, 3, 7⟩ := by decide
/-- A text for which the tests would fail. -/
example : ¬ ∀ c ∈ "あ".toList, c.utf8Size = 1 := by decide

end Parcom
