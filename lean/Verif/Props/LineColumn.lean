import Verif.Lemmas.LineColumn
/-!
# C06-C08: line and column counting
-/
namespace Parcom
open Spec

/-- The metrics after feeding a fresh meter with chunks of text. -/
def metricsAfter (ε : Type) [EndOfLine ε] (chunks : List (List Char)) : LineColumn :=
  Meter.metrics Str (chunks.foldl (fun m c => Meter.advance m (⟨c⟩ : Str)) (LineColumnMeter.default : LineColumnMeter ε))

theorem lf_follows (cs : List Char) :
    MeterFollows endsLF cs (cs.foldl LineColumnMeter.step (LineColumnMeter.default : LineColumnMeter LF)) :=
  (meterFollows_all (ε := LF) endsLF (fun _ => .mk) (fun _ => True) (fun _ _ _ => trivial) rfl
    (fun cs c _ => ⟨rfl, by
      simp only [EndOfLine.next]
      constructor
      · intro h
        by_cases hc : c = '\n'
        · subst hc; exact ⟨cs, rfl⟩
        · simp [hc] at h
      · rintro ⟨p, hp⟩
        have := (List.append_inj' hp rfl).2
        simp at this
        simp [← this]⟩) cs trivial).1

/-- C06 (LF): counts are those of the whole text, however it is cut into chunks. -/
theorem C06_lf_line_column (chunks : List (List Char)) :
    (metricsAfter LF chunks).totalCount = chunks.flatten.length ∧
    (metricsAfter LF chunks).line = lineCount endsLF chunks.flatten ∧
    (metricsAfter LF chunks).column = columnCount endsLF chunks.flatten := by
  have h := lf_follows chunks.flatten
  simp only [metricsAfter, feed_chunks]
  exact ⟨h.total, h.line, h.column⟩

theorem cr_follows (cs : List Char) :
    MeterFollows endsCR cs (cs.foldl LineColumnMeter.step (LineColumnMeter.default : LineColumnMeter CR)) :=
  (meterFollows_all (ε := CR) endsCR (fun _ => .mk) (fun _ => True) (fun _ _ _ => trivial) rfl
    (fun cs c _ => ⟨rfl, by
      simp only [EndOfLine.next]
      constructor
      · intro h
        by_cases hc : c = '\r'
        · subst hc; exact ⟨cs, rfl⟩
        · simp [hc] at h
      · rintro ⟨p, hp⟩
        have := (List.append_inj' hp rfl).2
        simp at this
        simp [← this]⟩) cs trivial).1

/-- C06 (CR). -/
theorem C06_cr_line_column (chunks : List (List Char)) :
    (metricsAfter CR chunks).totalCount = chunks.flatten.length ∧
    (metricsAfter CR chunks).line = lineCount endsCR chunks.flatten ∧
    (metricsAfter CR chunks).column = columnCount endsCR chunks.flatten := by
  have h := cr_follows chunks.flatten
  simp only [metricsAfter, feed_chunks]
  exact ⟨h.total, h.line, h.column⟩

/-- The specification on a text with two terminators and an unfinished third line. -/
example : lineCount endsLF ['a', '\n', '\n', 'b', 'c'] = 3 ∧ columnCount endsLF ['a', '\n', '\n', 'b', 'c'] = 2 := by
  decide
/-- A terminator counts as the last column of its line. -/
example : lineCount endsLF ['a', '\n'] = 1 ∧ columnCount endsLF ['a', '\n'] = 2 := by decide

/-- C07 in full: the CRLF meter cuts lines exactly after each `\r\n`. -/
def C07Statement : Prop :=
  ∀ chunks : List (List Char),
    (metricsAfter CRLF chunks).totalCount = chunks.flatten.length ∧
    (metricsAfter CRLF chunks).line = lineCount endsCRLF chunks.flatten ∧
    (metricsAfter CRLF chunks).column = columnCount endsCRLF chunks.flatten

/-- C07 is false: in `\r\r\nx` the terminator is missed. -/
theorem C07_false : ¬ C07Statement := by
  intro h
  have := (h [['\r', '\r', '\n', 'x']]).2.1
  revert this
  decide

theorem crlf_follows (cs : List Char) :
    MeterFollows endsOddCRLF cs (cs.foldl LineColumnMeter.step (LineColumnMeter.default : LineColumnMeter CRLF)) ∧
      (cs.foldl LineColumnMeter.step (LineColumnMeter.default : LineColumnMeter CRLF)).state =
        if trailingCR cs % 2 = 1 then .cr else .initial :=
  meterFollows_all (ε := CRLF) endsOddCRLF (fun cs => if trailingCR cs % 2 = 1 then .cr else .initial)
    (fun _ => True) (fun _ _ _ => trivial) rfl
    (fun cs c _ => by
      rw [endsOddCRLF_snoc, trailingCR_snoc]
      by_cases ho : trailingCR cs % 2 = 1
      · by_cases hc : c = '\r'
        · have : (trailingCR cs + 1) % 2 ≠ 1 := by omega
          simp [ho, hc, EndOfLine.next, this]
        · simp [ho, hc, EndOfLine.next]
      · by_cases hc : c = '\r'
        · have : (trailingCR cs + 1) % 2 = 1 := by omega
          simp [ho, hc, EndOfLine.next, this]
        · simp [ho, hc, EndOfLine.next]) cs trivial

/-- What the CRLF meter does on every text and chunking: a line ends exactly at a `\n` after an odd run of `\r`. -/
theorem C07_exact (chunks : List (List Char)) :
    (metricsAfter CRLF chunks).totalCount = chunks.flatten.length ∧
    (metricsAfter CRLF chunks).line = lineCount endsOddCRLF chunks.flatten ∧
    (metricsAfter CRLF chunks).column = columnCount endsOddCRLF chunks.flatten := by
  have h := (crlf_follows chunks.flatten).1
  simp only [metricsAfter, feed_chunks]
  exact ⟨h.total, h.line, h.column⟩

/-- C07, the part that holds: texts without `\r\r\n`, in any chunking.
Missing: texts containing `\r\r\n`, for which the claim is false (`C07_false`). -/
theorem C07_partial (chunks : List (List Char)) (h : ¬ ['\r', '\r', '\n'] <:+: chunks.flatten) :
    (metricsAfter CRLF chunks).totalCount = chunks.flatten.length ∧
    (metricsAfter CRLF chunks).line = lineCount endsCRLF chunks.flatten ∧
    (metricsAfter CRLF chunks).column = columnCount endsCRLF chunks.flatten := by
  have h := (meterFollows_all (ε := CRLF) endsCRLF (fun cs => if trailingCR cs % 2 = 1 then .cr else .initial)
    (fun cs => ¬ ['\r', '\r', '\n'] <:+: cs)
    (fun cs c hn hc => hn (hc.trans ⟨[], [c], by simp⟩)) rfl
    (fun cs c hp => by
      rw [endsCRLF_snoc, trailingCR_snoc]
      by_cases hn : c = '\n'
      · subst hn
        have := trailingCR_le_one hp
        have h2 : trailingCR cs = 0 ∨ trailingCR cs = 1 := by omega
        rcases h2 with h2 | h2 <;> simp [h2, EndOfLine.next]
      by_cases ho : trailingCR cs % 2 = 1
      · by_cases hc : c = '\r'
        · have : (trailingCR cs + 1) % 2 ≠ 1 := by omega
          simp [ho, hc, EndOfLine.next, this]
        · simp [ho, hc, hn, EndOfLine.next]
      · by_cases hc : c = '\r'
        · have : (trailingCR cs + 1) % 2 = 1 := by omega
          simp [ho, hc, EndOfLine.next, this]
        · simp [ho, hc, hn, EndOfLine.next]) chunks.flatten h).1
  simp only [metricsAfter, feed_chunks]
  exact ⟨h.total, h.line, h.column⟩

/-- Non-vacuity: a text whose only terminator is split between two chunks. -/
example : ¬ ['\r', '\r', '\n'] <:+: ([['a', '\r'], ['\n', 'b']] : List (List Char)).flatten ∧
    lineCount endsCRLF ([['a', '\r'], ['\n', 'b']] : List (List Char)).flatten = 2 := by decide

/-- The total count is the number of characters, for every line convention, user-defined ones included. -/
theorem total_count (ε : Type) [EndOfLine ε] (chunks : List (List Char)) :
    (metricsAfter ε chunks).totalCount = chunks.flatten.length := by
  suffices h : ∀ (cs : List Char) (m : LineColumnMeter ε),
      (cs.foldl LineColumnMeter.step m).location.totalCount = m.location.totalCount + cs.length by
    simp only [metricsAfter, feed_chunks]
    have := h chunks.flatten LineColumnMeter.default
    rw [show (LineColumnMeter.default : LineColumnMeter ε).location.totalCount = 0 from rfl, Nat.zero_add] at this
    exact this
  intro cs
  induction cs with
  | nil => simp
  | cons c cs ih =>
    intro m
    rw [List.foldl_cons, ih]
    have : (m.step c).location.totalCount = m.location.totalCount + 1 := by
      unfold LineColumnMeter.step
      by_cases hn : m.nextIsNewLine = true <;> by_cases hm : (EndOfLine.next m.state c).1 = .match <;> simp [hn, hm]
    rw [this]; simp; omega

/-- C08: along one text, comparing metrics compares positions: consuming something makes them strictly larger, and
metrics that compare equal are equal in every field. -/
theorem C08_metrics_order (ε : Type) [EndOfLine ε] (pre mid : List Char) :
    (mid ≠ [] → (metricsAfter ε [pre]).cmp (metricsAfter ε [pre, mid]) = pure .lt ∧
      (metricsAfter ε [pre, mid]).cmp (metricsAfter ε [pre]) = pure .gt) ∧
    ((metricsAfter ε [pre]).cmp (metricsAfter ε [pre, mid]) = pure .eq ↔
      (metricsAfter ε [pre]).eq (metricsAfter ε [pre, mid]) = true) := by
  have h1 := total_count ε [pre]
  have h2 := total_count ε [pre, mid]
  simp at h1 h2
  refine ⟨fun hm => ?_, ?_⟩
  · have : 0 < mid.length := List.length_pos_iff.mpr hm
    simp only [LineColumn.cmp, LineColumn.partialCmp, h1, h2, Run.pure_inj']
    exact ⟨Nat.compare_eq_lt.mpr (by omega), Nat.compare_eq_gt.mpr (by omega)⟩
  · simp only [LineColumn.cmp, LineColumn.partialCmp, h1, h2, Run.pure_inj', Nat.compare_eq_eq]
    constructor
    · intro h
      have : mid = [] := List.eq_nil_of_length_eq_zero (by omega)
      subst this
      have he : metricsAfter ε [pre, []] = metricsAfter ε [pre] := by
        simp only [metricsAfter, feed_chunks, List.flatten_cons, List.flatten_nil, List.append_nil]
      rw [he]; simp [LineColumn.eq]
    · intro h
      simp [LineColumn.eq, h1, h2] at h
      simp [h.1]

example : (['b', '\n'] : List Char) ≠ [] := by simp

end Parcom
