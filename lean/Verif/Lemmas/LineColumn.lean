import Verif.Model.LineColumn
import Verif.Spec.Lines
/-!
# The line/column meter follows the line starts of the text
-/
namespace Parcom
open Spec

theorem lineStarts_snoc (T : List Char → Prop) [DecidablePred T] (cs : List Char) (c : Char) :
    lineStarts T (cs ++ [c]) = lineStarts T cs ++ (if cs = [] ∨ T cs then [cs.length] else []) := by
  simp only [lineStarts, List.length_append, List.length_singleton, List.range_succ, List.filter_append]
  congr 1
  · apply List.filter_congr
    intro i hi
    simp at hi
    rw [List.take_append_of_le_length (by omega)]
  · by_cases h : cs = []
    · subst h; simp
    · have : cs.length ≠ 0 := by simpa using h
      simp only [h, false_or]
      by_cases hT : T cs
      · simp [hT]
      · simp [hT, this]

theorem lineStarts_ne_nil (T : List Char → Prop) [DecidablePred T] (cs : List Char) (h : cs ≠ []) :
    lineStarts T cs ≠ [] := by
  cases cs with
  | nil => exact absurd rfl h
  | cons c cs =>
    intro h
    have h2 : 0 ∈ lineStarts T (c :: cs) := by simp [lineStarts]
    rw [h] at h2; simp at h2

theorem meter_step_state {ε : Type} [EndOfLine ε] (m : LineColumnMeter ε) (c : Char) :
    (m.step c).state = (EndOfLine.next m.state c).2 := by
  unfold LineColumnMeter.step
  by_cases hn : m.nextIsNewLine = true <;> by_cases hm : (EndOfLine.next m.state c).1 = .match <;> simp [hn, hm]

/-- What the meter state says about the text consumed so far. -/
structure MeterFollows {ε : Type} (T : List Char → Prop) [DecidablePred T] (cs : List Char)
    (m : LineColumnMeter ε) : Prop where
  total : m.location.totalCount = cs.length
  line : m.location.line = lineCount T cs
  column : m.location.column = columnCount T cs
  fresh : m.nextIsNewLine = true ↔ (cs = [] ∨ T cs)

theorem meterFollows_nil {ε : Type} [EndOfLine ε] (T : List Char → Prop) [DecidablePred T] :
    MeterFollows T [] (LineColumnMeter.default : LineColumnMeter ε) := by
  constructor <;> simp [LineColumnMeter.default, LineColumn.default, lineCount, lineStarts, columnCount]

theorem meterFollows_step {ε : Type} [EndOfLine ε] (T : List Char → Prop) [DecidablePred T] (cs : List Char) (c : Char)
    (m : LineColumnMeter ε) (h : MeterFollows T cs m)
    (hT : (EndOfLine.next m.state c).1 = .match ↔ T (cs ++ [c])) : MeterFollows T (cs ++ [c]) (m.step c) := by
  have hs : (m.step c).nextIsNewLine = true ↔ T (cs ++ [c]) := by
    rw [← hT]
    unfold LineColumnMeter.step
    by_cases hn : m.nextIsNewLine = true <;> by_cases hm : (EndOfLine.next m.state c).1 = .match <;> simp [hn, hm]
  have htot : (m.step c).location.totalCount = m.location.totalCount + 1 := by
    unfold LineColumnMeter.step
    by_cases hn : m.nextIsNewLine = true <;> by_cases hm : (EndOfLine.next m.state c).1 = .match <;> simp [hn, hm]
  have hline : (m.step c).location.line = m.location.line + (if m.nextIsNewLine then 1 else 0) := by
    unfold LineColumnMeter.step
    by_cases hn : m.nextIsNewLine = true <;> by_cases hm : (EndOfLine.next m.state c).1 = .match <;> simp [hn, hm]
  have hcol : (m.step c).location.column = (if m.nextIsNewLine then 1 else m.location.column + 1) := by
    unfold LineColumnMeter.step
    by_cases hn : m.nextIsNewLine = true <;> by_cases hm : (EndOfLine.next m.state c).1 = .match <;> simp [hn, hm]
  constructor
  · rw [htot, h.total]; simp
  · rw [hline, h.line, lineCount, lineCount, lineStarts_snoc]
    by_cases hf : cs = [] ∨ T cs
    · rw [if_pos (h.fresh.mpr hf), if_pos hf]; simp
    · rw [if_neg (fun hh => hf (h.fresh.mp hh)), if_neg hf]; simp
  · rw [hcol, h.column, columnCount, columnCount, lineStarts_snoc]
    by_cases hf : cs = [] ∨ T cs
    · rw [if_pos (h.fresh.mpr hf), if_pos hf]; simp
    · rw [if_neg (fun hh => hf (h.fresh.mp hh)), if_neg hf]
      simp only [List.append_nil]
      have hne : cs ≠ [] := fun hh => hf (.inl hh)
      rcases hg : (lineStarts T cs).getLast? with _ | i
      · simp at hg; exact absurd hg (lineStarts_ne_nil T cs hne)
      · have hi : i < cs.length := by
          have := List.mem_of_getLast? hg
          simp [lineStarts] at this; exact this.1
        simp; omega
  · rw [hs]; simp

/-- The meter after a text, provided the automaton in state `st cs` recognises terminators. -/
theorem meterFollows_all {ε : Type} [EndOfLine ε] (T : List Char → Prop) [DecidablePred T] (st : List Char → ε)
    (P : List Char → Prop) (hP : ∀ cs c, P (cs ++ [c]) → P cs)
    (h0 : st [] = EndOfLine.default)
    (hstep : ∀ cs c, P (cs ++ [c]) → (EndOfLine.next (st cs) c).2 = st (cs ++ [c]) ∧
      ((EndOfLine.next (st cs) c).1 = .match ↔ T (cs ++ [c])))
    (cs : List Char) (hcs : P cs) :
    MeterFollows T cs (cs.foldl LineColumnMeter.step (LineColumnMeter.default : LineColumnMeter ε)) ∧
      (cs.foldl LineColumnMeter.step (LineColumnMeter.default : LineColumnMeter ε)).state = st cs := by
  suffices h : ∀ (rs : List Char), P rs.reverse →
      MeterFollows T rs.reverse (rs.reverse.foldl LineColumnMeter.step (LineColumnMeter.default : LineColumnMeter ε)) ∧
      (rs.reverse.foldl LineColumnMeter.step (LineColumnMeter.default : LineColumnMeter ε)).state = st rs.reverse by
    have := h cs.reverse (by simpa using hcs)
    simpa using this
  intro rs
  induction rs with
  | nil => exact fun _ => ⟨meterFollows_nil T, h0.symm⟩
  | cons c rs ih =>
    intro hp
    rw [List.reverse_cons] at hp ⊢
    obtain ⟨ih1, ih2⟩ := ih (hP _ _ hp)
    obtain ⟨h1, h2⟩ := hstep _ _ hp
    rw [List.foldl_append, List.foldl_cons, List.foldl_nil]
    refine ⟨meterFollows_step T _ c _ ih1 (by rw [ih2]; exact h2), ?_⟩
    rw [← h1, ← ih2]
    exact meter_step_state _ c

theorem feed_chunks {ε : Type} [EndOfLine ε] (m : LineColumnMeter ε) (chunks : List (List Char)) :
    chunks.foldl (fun m c => Meter.advance m (⟨c⟩ : Str)) m = chunks.flatten.foldl LineColumnMeter.step m := by
  induction chunks generalizing m with
  | nil => rfl
  | cons c cs ih => rw [List.foldl_cons, ih]; simp [Meter.advance, List.foldl_append]

@[simp] theorem trailingCR_snoc (cs : List Char) (c : Char) :
    trailingCR (cs ++ [c]) = if c = '\r' then trailingCR cs + 1 else 0 := by
  simp only [trailingCR, List.reverse_append, List.reverse_cons, List.reverse_nil, List.nil_append,
    List.singleton_append, List.takeWhile_cons]
  by_cases h : c = '\r' <;> simp [h]

theorem endsOddCRLF_snoc (cs : List Char) (c : Char) :
    endsOddCRLF (cs ++ [c]) ↔ c = '\n' ∧ trailingCR cs % 2 = 1 := by
  constructor
  · rintro ⟨p, h1, h2⟩
    have := List.append_inj' h1 rfl
    obtain ⟨rfl, h3⟩ := this
    simp at h3
    exact ⟨h3, h2⟩
  · rintro ⟨rfl, h⟩; exact ⟨cs, rfl, h⟩

theorem endsCRLF_snoc (cs : List Char) (c : Char) : endsCRLF (cs ++ [c]) ↔ c = '\n' ∧ trailingCR cs ≠ 0 := by
  constructor
  · rintro ⟨p, h1⟩
    have h2 : (p ++ ['\r']) ++ ['\n'] = cs ++ [c] := by simpa using h1
    obtain ⟨rfl, h3⟩ := List.append_inj' h2 rfl
    simp at h3
    exact ⟨h3.symm, by simp⟩
  · rintro ⟨rfl, h⟩
    rcases List.eq_nil_or_concat cs with rfl | ⟨p, d, rfl⟩
    · simp [trailingCR] at h
    · rw [List.concat_eq_append, trailingCR_snoc] at h
      by_cases hd : d = '\r'
      · subst hd; exact ⟨p, by simp⟩
      · simp [hd] at h

/-- A text without `\r\r\n` has at most one `\r` before each `\n`. -/
theorem trailingCR_le_one {cs : List Char} (h : ¬ ['\r', '\r', '\n'] <:+: (cs ++ ['\n'])) : trailingCR cs ≤ 1 := by
  rcases List.eq_nil_or_concat cs with rfl | ⟨p, d, rfl⟩
  · simp [trailingCR]
  · rw [List.concat_eq_append] at h ⊢
    rw [trailingCR_snoc]
    by_cases hd : d = '\r'
    · subst hd
      simp only [if_true]
      rcases List.eq_nil_or_concat p with rfl | ⟨q, e, rfl⟩
      · simp [trailingCR]
      · rw [List.concat_eq_append] at h ⊢
        rw [trailingCR_snoc]
        by_cases he : e = '\r'
        · subst he
          exact absurd ⟨q, [], by simp⟩ h
        · simp [he]
    · simp [hd]

end Parcom
