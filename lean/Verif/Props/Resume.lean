import Verif.Props.LineColumn
/-!
# C89, C90: going on from a location, and comparing locations of different texts
-/
namespace Parcom
open Spec

/-! ## C89 -/

/-- The metrics after feeding chunks of text to a meter that starts at a location. -/
def metricsFrom (ε : Type) [EndOfLine ε] (start : LineColumn) (chunks : List (List Char)) : LineColumn :=
  Meter.metrics Str (chunks.foldl (fun m c => Meter.advance m (⟨c⟩ : Str)) (LineColumnMeter.new start : LineColumnMeter ε))

/-- C89: a meter started where another one has stopped goes on counting as that one would have. -/
def C89Statement : Prop := ∀ pre post : List Char, metricsFrom LF (metricsAfter LF [pre]) [post] = metricsAfter LF [pre, post]

/-- C89 is false: after `a` a meter started there takes `b` to be on the second line. -/
theorem C89_false : ¬ C89Statement := by
  intro h
  have := h ['a'] ['b']
  revert this
  decide

theorem meter_step_line {ε : Type} [EndOfLine ε] (m : LineColumnMeter ε) (c : Char) :
    (m.step c).location = { totalCount := m.location.totalCount + 1, line := m.location.line + (if m.nextIsNewLine then 1 else 0),
                            column := if m.nextIsNewLine then 1 else m.location.column + 1 } ∧
    ((m.step c).nextIsNewLine = true ↔ (EndOfLine.next m.state c).1 = .match) := by
  unfold LineColumnMeter.step
  by_cases hn : m.nextIsNewLine = true <;> by_cases hm : (EndOfLine.next m.state c).1 = .match <;> simp [hn, hm]

/-- Two meters that differ in where they started. -/
theorem new_follows {ε : Type} [EndOfLine ε] (start : LineColumn) (cs : List Char) :
    let m := cs.foldl LineColumnMeter.step (LineColumnMeter.new start : LineColumnMeter ε)
    let d := cs.foldl LineColumnMeter.step (LineColumnMeter.default : LineColumnMeter ε)
    m.state = d.state ∧ m.nextIsNewLine = d.nextIsNewLine ∧ m.location.totalCount = start.totalCount + d.location.totalCount ∧
      m.location.line = start.line + d.location.line ∧ (m.location.column = if cs = [] then start.column else d.location.column) := by
  suffices h : ∀ rs : List Char,
      let m := rs.reverse.foldl LineColumnMeter.step (LineColumnMeter.new start : LineColumnMeter ε)
      let d := rs.reverse.foldl LineColumnMeter.step (LineColumnMeter.default : LineColumnMeter ε)
      m.state = d.state ∧ m.nextIsNewLine = d.nextIsNewLine ∧ m.location.totalCount = start.totalCount + d.location.totalCount ∧
        m.location.line = start.line + d.location.line ∧ (m.location.column = if rs = [] then start.column else d.location.column) by
    have := h cs.reverse
    simpa using this
  intro rs
  induction rs with
  | nil => simp [LineColumnMeter.new, LineColumnMeter.default, LineColumn.default]
  | cons c rs ih =>
    simp only [List.reverse_cons, List.foldl_append, List.foldl_cons, List.foldl_nil] at ih ⊢
    generalize rs.reverse.foldl LineColumnMeter.step (LineColumnMeter.new start : LineColumnMeter ε) = m at ih ⊢
    generalize hd : rs.reverse.foldl LineColumnMeter.step (LineColumnMeter.default : LineColumnMeter ε) = d at ih ⊢
    obtain ⟨h1, h2, h3, h4, h5⟩ := ih
    have hm := meter_step_line m c
    have hd' := meter_step_line d c
    refine ⟨by rw [meter_step_state, meter_step_state, h1], ?_, ?_, ?_, ?_⟩
    · rw [Bool.eq_iff_iff, hm.2, hd'.2, h1]
    · rw [hm.1, hd'.1]; show m.location.totalCount + 1 = _ + (d.location.totalCount + 1); omega
    · rw [hm.1, hd'.1, h2]; show m.location.line + _ = _ + (d.location.line + _); omega
    · rw [hm.1, hd'.1, if_neg (List.cons_ne_nil _ _), h2]
      show (if d.nextIsNewLine then 1 else m.location.column + 1) = if d.nextIsNewLine then 1 else d.location.column + 1
      by_cases hn : d.nextIsNewLine = true
      · rw [if_pos hn, if_pos hn]
      · rw [if_neg hn, if_neg hn, h5]
        rw [if_neg]
        rintro rfl
        rw [← hd] at hn
        exact hn rfl

/-- C89, exactly, for every line convention, user-defined ones included: a meter started at a location takes what follows
to begin a new line. -/
theorem C89_exact (ε : Type) [EndOfLine ε] (start : LineColumn) (chunks : List (List Char)) :
    metricsFrom ε start chunks =
      { totalCount := start.totalCount + chunks.flatten.length
        line := start.line + (metricsAfter ε chunks).line
        column := if chunks.flatten = [] then start.column else (metricsAfter ε chunks).column } := by
  have h := new_follows (ε := ε) start chunks.flatten
  have ht := total_count ε chunks
  simp only [metricsAfter, metricsFrom, feed_chunks] at ht ⊢
  obtain ⟨-, -, h3, h4, h5⟩ := h
  have e : ∀ l : LineColumn, l = ⟨l.totalCount, l.line, l.column⟩ := fun _ => rfl
  rw [← ht]
  refine (e _).trans ?_
  show LineColumn.mk (LineColumnMeter.location _).totalCount (LineColumnMeter.location _).line (LineColumnMeter.location _).column = _
  rw [h3, h4, h5]
  rfl

/-- Meters that only differ in the line they are on stay so. -/
theorem lines_apart {ε : Type} [EndOfLine ε] (k : Nat) (cs : List Char) (m d : LineColumnMeter ε) (h1 : m.state = d.state)
    (h2 : m.nextIsNewLine = d.nextIsNewLine) (h3 : m.location.line = d.location.line + k) :
    (cs.foldl LineColumnMeter.step m).location.line = (cs.foldl LineColumnMeter.step d).location.line + k := by
  induction cs generalizing m d with
  | nil => exact h3
  | cons c cs ih =>
    have hm := meter_step_line m c
    have hd := meter_step_line d c
    refine ih _ _ (by rw [meter_step_state, meter_step_state, h1]) (by rw [Bool.eq_iff_iff, hm.2, hd.2, h1]) ?_
    rw [hm.1, hd.1, h2, h3]
    show d.location.line + k + _ = d.location.line + _ + k
    omega

/-- For an automaton without memory, exactly when counting goes on. -/
theorem resume_iff {ε : Type} [EndOfLine ε] (hs : ∀ s : ε, s = EndOfLine.default) (pre post : List Char) :
    metricsFrom ε (metricsAfter ε [pre]) [post] = metricsAfter ε [pre, post] ↔
      post = [] ∨ (pre.foldl LineColumnMeter.step (LineColumnMeter.default : LineColumnMeter ε)).nextIsNewLine = true := by
  simp only [metricsFrom, metricsAfter, feed_chunks, List.flatten_cons, List.flatten_nil, List.append_nil, List.foldl_append]
  generalize pre.foldl LineColumnMeter.step (LineColumnMeter.default : LineColumnMeter ε) = m
  cases hn : m.nextIsNewLine with
  | true =>
    have : (LineColumnMeter.new (Meter.metrics Str m) : LineColumnMeter ε) = m := by
      obtain ⟨loc, n, st⟩ := m
      cases hn
      rw [hs st]
      rfl
    rw [this]
    simp
  | false =>
    cases post with
    | nil => simp; rfl
    | cons c cs =>
      simp only [reduceCtorEq, Bool.false_eq_true, or_self, iff_false]
      intro h
      have hm := meter_step_line m c
      have hd := meter_step_line (LineColumnMeter.new (Meter.metrics Str m) : LineColumnMeter ε) c
      have hst : (LineColumnMeter.new (Meter.metrics Str m) : LineColumnMeter ε).state = m.state := (hs _).trans (hs _).symm
      have h2 := lines_apart 1 cs ((LineColumnMeter.new (Meter.metrics Str m) : LineColumnMeter ε).step c) (m.step c)
        (by rw [meter_step_state, meter_step_state, hst]) (by rw [Bool.eq_iff_iff, hm.2, hd.2, hst])
        (by rw [hm.1, hd.1, hn]; rfl)
      have h3 := congrArg LineColumn.line h
      simp only [List.foldl_cons] at h3
      have h4 : (Meter.metrics Str (cs.foldl LineColumnMeter.step (m.step c))).line = (cs.foldl LineColumnMeter.step (m.step c)).location.line := rfl
      have h5 : (Meter.metrics Str (cs.foldl LineColumnMeter.step ((LineColumnMeter.new (Meter.metrics Str m) : LineColumnMeter ε).step c))).line =
        (cs.foldl LineColumnMeter.step ((LineColumnMeter.new (Meter.metrics Str m) : LineColumnMeter ε).step c)).location.line := rfl
      rw [h4, h5, h2] at h3
      omega

/-- C89, the part that holds (LF): counting goes on exactly from where a line has ended or nothing has begun. -/
theorem C89_partial_lf (pre post : List Char) : metricsFrom LF (metricsAfter LF [pre]) [post] = metricsAfter LF [pre, post] ↔
    post = [] ∨ pre = [] ∨ endsLF pre := by
  rw [resume_iff (fun _ => rfl), (lf_follows pre).fresh]

/-- C89, the part that holds (CR). -/
theorem C89_partial_cr (pre post : List Char) : metricsFrom CR (metricsAfter CR [pre]) [post] = metricsAfter CR [pre, post] ↔
    post = [] ∨ pre = [] ∨ endsCR pre := by
  rw [resume_iff (fun _ => rfl), (cr_follows pre).fresh]

/-- C89, the part that holds (CRLF): from where a line has ended or nothing has begun. -/
theorem C89_partial_crlf (pre post : List Char) (h : pre = [] ∨ endsOddCRLF pre) :
    metricsFrom CRLF (metricsAfter CRLF [pre]) [post] = metricsAfter CRLF [pre, post] := by
  obtain ⟨hf, hs⟩ := crlf_follows pre
  have hn := hf.fresh.mpr h
  have hst : (pre.foldl LineColumnMeter.step (LineColumnMeter.default : LineColumnMeter CRLF)).state = .initial := by
    rw [hs, if_neg]
    rcases h with rfl | ⟨p, rfl, -⟩
    · simp [trailingCR]
    · simp
  simp only [metricsFrom, metricsAfter, feed_chunks, List.flatten_cons, List.flatten_nil, List.append_nil, List.foldl_append]
  generalize pre.foldl LineColumnMeter.step (LineColumnMeter.default : LineColumnMeter CRLF) = m at hn hst
  have : (LineColumnMeter.new (Meter.metrics Str m) : LineColumnMeter CRLF) = m := by
    obtain ⟨loc, n, st⟩ := m
    cases hn
    cases hst
    rfl
  rw [this]

/-- C89 fails for CRLF where a line end is cut in two. -/
example : metricsFrom CRLF (metricsAfter CRLF [['a', '\r']]) [['\n', 'b']] ≠ metricsAfter CRLF [['a', '\r'], ['\n', 'b']] := by decide
/-- A text that ends a line. -/
example : endsLF ['a', '\n'] ∧ endsOddCRLF ['a', '\r', '\n'] := by decide

/-! ## C90 -/

/-- C90: the contract of `Ord` (std): locations compare as equal iff they are equal. -/
def C90Statement : Prop := ∀ a b : LineColumn, a.cmp b = pure .eq ↔ a.eq b = true

/-- C90 is false, also for locations that meters give: in `ab` and in `⏎b` the locations after two characters compare as equal
and are not. -/
theorem C90_false : ¬ C90Statement := by
  intro h
  have h1 := (h (metricsAfter LF [['a', 'b']]) (metricsAfter LF [['\n', 'b']])).mp rfl
  revert h1
  decide

/-- C90, exactly: `cmp` compares the total counts, and nothing else. -/
theorem C90_exact (a b : LineColumn) :
    (a.cmp b = pure .lt ↔ a.totalCount < b.totalCount) ∧ (a.cmp b = pure .eq ↔ a.totalCount = b.totalCount) ∧
    (a.cmp b = pure .gt ↔ b.totalCount < a.totalCount) ∧ a.partialCmp b ≠ none := by
  simp only [LineColumn.cmp, LineColumn.partialCmp, Run.pure_inj', Nat.compare_eq_lt, Nat.compare_eq_eq, Nat.compare_eq_gt]
  simp

/-- C90, the part that holds: locations that are equal compare as equal; and locations of one text that compare as equal
are equal. Missing: locations of different texts, for which it is false. -/
theorem C90_partial (ε : Type) [EndOfLine ε] (a b : LineColumn) (text : List Char) (i j : Nat) (hi : i ≤ text.length) (hj : j ≤ text.length) :
    (a.eq b = true → a.cmp b = pure .eq) ∧
    ((metricsAfter ε [text.take i]).cmp (metricsAfter ε [text.take j]) = pure .eq ↔
      (metricsAfter ε [text.take i]).eq (metricsAfter ε [text.take j]) = true) := by
  refine ⟨fun h => ?_, ?_⟩
  · rw [(C90_exact a b).2.1]
    simp [LineColumn.eq] at h
    exact h.1.1
  · have h1 := total_count ε [text.take i]
    have h2 := total_count ε [text.take j]
    simp at h1 h2
    rw [(C90_exact _ _).2.1]
    constructor
    · intro h
      have : i = j := by omega
      subst this
      simp [LineColumn.eq]
    · intro h
      simp [LineColumn.eq] at h
      exact h.1.1

end Parcom
