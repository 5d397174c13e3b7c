import Verif.Props.Resume
import Verif.Props.Sequence
import Verif.Model.Counters
/-!
# C112: the counters of a meter do not overflow on a text
-/
namespace Parcom
open Spec

/-- All counters are values of `usize`. -/
structure Fits (l : LineColumn) : Prop where
  total : l.totalCount ≤ usizeMax
  line : l.line ≤ usizeMax
  column : l.column ≤ usizeMax

/-- The counters modulo 2^64. -/
def LineColumn.wrapped (l : LineColumn) : LineColumn :=
  { totalCount := l.totalCount % (usizeMax + 1), line := l.line % (usizeMax + 1), column := l.column % (usizeMax + 1) }

theorem usizeAdd_fits (b : Build) {x y : Nat} (h : x + y ≤ usizeMax) : usizeAdd b x y = pure (x + y) := if_pos h

theorem usizeAdd_checked {x y : Nat} (h : ¬ x + y ≤ usizeMax) : usizeAdd .checked x y = Run.fault .overflow := if_neg h

theorem usizeAdd_wrapped (x y : Nat) :
    usizeAdd .wrapping (x % (usizeMax + 1)) y = pure ((x + y) % (usizeMax + 1)) := by
  unfold usizeAdd
  by_cases h : x % (usizeMax + 1) + y ≤ usizeMax
  · rw [if_pos h, ← Nat.mod_add_mod, Nat.mod_eq_of_lt (a := _ + y) (by omega)]
  · rw [if_neg h, Nat.mod_add_mod]

theorem stepIn_fits {ε : Type} [EndOfLine ε] (b : Build) (m : LineColumnMeter ε) (c : Char) (h : Fits (m.step c).location) :
    m.stepIn b c = pure (m.step c) := by
  have hl := (meter_step_line m c).1
  obtain ⟨h1, h2, h3⟩ := h
  rw [hl] at h1 h2 h3
  simp only at h1 h2 h3
  unfold LineColumnMeter.stepIn LineColumnMeter.step
  by_cases hn : m.nextIsNewLine = true
  · simp only [hn, if_true] at h2 h3 ⊢
    rw [usizeAdd_fits b h2]
    simp only [Run.pure_bind']
    rw [usizeAdd_fits b h1]
    simp only [Run.pure_bind']
    rw [usizeAdd_fits b (by omega)]
    rfl
  · simp only [hn] at h2 h3 ⊢
    simp only [Bool.false_eq_true, if_false, Run.pure_bind'] at h3 ⊢
    rw [usizeAdd_fits b h1]
    simp only [Run.pure_bind']
    rw [usizeAdd_fits b h3]
    rfl

theorem stepIn_checked {ε : Type} [EndOfLine ε] (m : LineColumnMeter ε) (c : Char) (hf : Fits m.location)
    (h : ¬ Fits (m.step c).location) : m.stepIn .checked c = Run.fault .overflow := by
  have hl := (meter_step_line m c).1
  unfold LineColumnMeter.stepIn
  by_cases hn : m.nextIsNewLine = true
  · simp only [hn, if_true] at hl ⊢
    by_cases h2 : m.location.line + 1 ≤ usizeMax
    · rw [usizeAdd_fits _ h2]
      simp only [Run.pure_bind']
      by_cases h1 : m.location.totalCount + 1 ≤ usizeMax
      · exact absurd ⟨by rw [hl]; exact h1, by rw [hl]; exact h2, by rw [hl]; show 1 ≤ _; omega⟩ h
      · rw [usizeAdd_checked h1]; rfl
    · rw [usizeAdd_checked h2]; rfl
  · simp only [hn, Bool.false_eq_true, if_false, Run.pure_bind'] at hl ⊢
    by_cases h1 : m.location.totalCount + 1 ≤ usizeMax
    · rw [usizeAdd_fits _ h1]
      simp only [Run.pure_bind']
      by_cases h3 : m.location.column + 1 ≤ usizeMax
      · exact absurd ⟨by rw [hl]; exact h1, by rw [hl]; exact hf.line, by rw [hl]; exact h3⟩ h
      · rw [usizeAdd_checked h3]; rfl
    · rw [usizeAdd_checked h1]; rfl

theorem stepIn_wrapped {ε : Type} [EndOfLine ε] (m : LineColumnMeter ε) (c : Char) :
    LineColumnMeter.stepIn .wrapping { m with location := m.location.wrapped } c =
      pure { m.step c with location := (m.step c).location.wrapped } := by
  unfold LineColumnMeter.stepIn LineColumnMeter.step
  by_cases hn : m.nextIsNewLine = true
  · simp only [hn, if_true, LineColumn.wrapped]
    rw [usizeAdd_wrapped]
    simp only [Run.pure_bind']
    rw [usizeAdd_wrapped]
    simp only [Run.pure_bind']
    rw [show (0 : Nat) = 0 % (usizeMax + 1) from rfl, usizeAdd_wrapped]
    simp only [Run.pure_bind', Nat.zero_mod]
    by_cases hm : (EndOfLine.next m.state c).1 = .match
    · simp only [hm, if_true]
    · simp only [hm, if_false]
  · simp only [hn, Bool.false_eq_true, if_false, Run.pure_bind', LineColumn.wrapped]
    rw [usizeAdd_wrapped]
    simp only [Run.pure_bind']
    rw [usizeAdd_wrapped]
    simp only [Run.pure_bind']
    by_cases hm : (EndOfLine.next m.state c).1 = .match
    · simp only [hm, if_true]
    · simp only [hm, if_false]

theorem advanceIn_wrapped {ε : Type} [EndOfLine ε] (cs : List Char) : ∀ m : LineColumnMeter ε,
    LineColumnMeter.advanceIn .wrapping { m with location := m.location.wrapped } cs =
      pure { cs.foldl LineColumnMeter.step m with location := (cs.foldl LineColumnMeter.step m).location.wrapped } := by
  induction cs with
  | nil => intro m; rfl
  | cons c cs ih =>
    intro m
    rw [LineColumnMeter.advanceIn, stepIn_wrapped]
    exact ih _

/-- Counters only grow, the column apart. -/
theorem meter_grows {ε : Type} [EndOfLine ε] (cs : List Char) : ∀ m : LineColumnMeter ε,
    (cs.foldl LineColumnMeter.step m).location.totalCount = m.location.totalCount + cs.length ∧
    m.location.line ≤ (cs.foldl LineColumnMeter.step m).location.line ∧
    (cs.foldl LineColumnMeter.step m).location.line ≤ m.location.line + cs.length ∧
    (cs.foldl LineColumnMeter.step m).location.column ≤ m.location.column + cs.length := by
  induction cs with
  | nil => intro m; simp
  | cons c cs ih =>
    intro m
    obtain ⟨h1, h2, h3, h4⟩ := ih (m.step c)
    rw [(meter_step_line m c).1] at h1 h2 h3 h4
    simp only [List.foldl_cons, List.length_cons] at h1 h2 h3 h4 ⊢
    refine ⟨by omega, ?_, ?_, ?_⟩ <;> split at h2 <;> simp_all <;> omega

theorem advanceIn_fits {ε : Type} [EndOfLine ε] (b : Build) (cs : List Char) : ∀ m : LineColumnMeter ε,
    (∀ pre, pre <+: cs → Fits (pre.foldl LineColumnMeter.step m).location) →
    m.advanceIn b cs = pure (cs.foldl LineColumnMeter.step m) := by
  induction cs with
  | nil => intro m _; rfl
  | cons c cs ih =>
    intro m h
    rw [LineColumnMeter.advanceIn, stepIn_fits b m c (h [c] ⟨cs, rfl⟩)]
    exact ih _ fun pre hp => h (c :: pre) (List.cons_prefix_cons.mpr ⟨rfl, hp⟩)

theorem advanceIn_checked {ε : Type} [EndOfLine ε] (cs : List Char) : ∀ m : LineColumnMeter ε, Fits m.location →
    (¬ ∀ pre, pre <+: cs → Fits (pre.foldl LineColumnMeter.step m).location) →
    m.advanceIn .checked cs = Run.fault .overflow := by
  induction cs with
  | nil => intro m hf h; exact absurd (fun pre hp => by rw [List.prefix_nil.mp hp]; exact hf) h
  | cons c cs ih =>
    intro m hf h
    rw [LineColumnMeter.advanceIn]
    by_cases hc : Fits (m.step c).location
    · rw [stepIn_fits _ m c hc]
      refine ih _ hc fun hp => h fun pre hpre => ?_
      cases pre with
      | nil => exact hf
      | cons d pre =>
        obtain ⟨rfl, hpre'⟩ := List.cons_prefix_cons.mp hpre
        exact hp pre hpre'
    · rw [stepIn_checked m c hf hc]; rfl

theorem feedIn_eq {ε : Type} [EndOfLine ε] (b : Build) (chunks : List (List Char)) : ∀ m : LineColumnMeter ε,
    m.feedIn b chunks = m.advanceIn b chunks.flatten := by
  have happ : ∀ (as bs : List Char) (m : LineColumnMeter ε),
      m.advanceIn b (as ++ bs) = (m.advanceIn b as).bind fun m => m.advanceIn b bs := by
    intro as
    induction as with
    | nil => intro bs m; rfl
    | cons a as ih =>
      intro bs m
      simp only [List.cons_append, LineColumnMeter.advanceIn]
      show (m.stepIn b a).bind _ = ((m.stepIn b a).bind _).bind _
      cases m.stepIn b a using Run.casesRun with
      | ret m => exact ih bs m
      | fault f => rfl
      | diverge => rfl
  induction chunks with
  | nil => intro m; rfl
  | cons cs rest ih =>
    intro m
    simp only [LineColumnMeter.feedIn, List.flatten_cons, happ]
    show (m.advanceIn b cs).bind _ = _
    congr 1
    funext m
    exact ih m

/-- When a meter that started at a location has room for all counts of a text. -/
theorem new_fits_iff {ε : Type} [EndOfLine ε] (start : LineColumn) (hs : Fits start) (cs : List Char) :
    (∀ pre, pre <+: cs → Fits (pre.foldl LineColumnMeter.step (LineColumnMeter.new start : LineColumnMeter ε)).location) ↔
      start.totalCount + cs.length ≤ usizeMax ∧ start.line + (metricsAfter ε [cs]).line ≤ usizeMax := by
  have hm : ∀ cs, (metricsAfter ε [cs]) = (cs.foldl LineColumnMeter.step (LineColumnMeter.default : LineColumnMeter ε)).location := by
    intro cs; rfl
  constructor
  · intro h
    obtain ⟨h1, h2, -⟩ := h cs (List.prefix_refl cs)
    obtain ⟨-, -, h3, h4, -⟩ := new_follows (ε := ε) start cs
    rw [(meter_grows cs _).1] at h1
    rw [h4] at h2
    exact ⟨h1, h2⟩
  · rintro ⟨h1, h2⟩ pre ⟨post, rfl⟩
    obtain ⟨-, -, h3, h4, h5⟩ := new_follows (ε := ε) start pre
    have g := meter_grows pre (LineColumnMeter.default : LineColumnMeter ε)
    have g2 := (meter_grows post (pre.foldl LineColumnMeter.step (LineColumnMeter.default : LineColumnMeter ε))).2.1
    rw [hm, List.foldl_append] at h2
    rw [List.length_append] at h1
    have z : (LineColumnMeter.default : LineColumnMeter ε).location = ⟨0, 0, 0⟩ := rfl
    rw [z] at g
    simp only at g
    refine ⟨by rw [h3]; omega, by rw [h4]; omega, ?_⟩
    rw [h5]
    split
    · exact hs.column
    · omega

theorem metricsFrom_eq (ε : Type) [EndOfLine ε] (start : LineColumn) (chunks : List (List Char)) :
    metricsFrom ε start chunks = (chunks.flatten.foldl LineColumnMeter.step (LineColumnMeter.new start : LineColumnMeter ε)).location := by
  simp only [metricsFrom, feed_chunks]
  rfl

theorem metricsAfter_flatten (ε : Type) [EndOfLine ε] (chunks : List (List Char)) :
    metricsAfter ε chunks = metricsAfter ε [chunks.flatten] := by
  simp only [metricsAfter, feed_chunks, List.flatten_cons, List.flatten_nil, List.append_nil]

/-- C112, exactly, with overflow checks: a meter started at a location counts as the natural numbers do (C89) as long as
neither the number of chars nor that of lines exceeds `usize::MAX`, and panics otherwise. -/
theorem C112_exact_checked (ε : Type) [EndOfLine ε] (start : LineColumn) (hs : Fits start) (chunks : List (List Char)) :
    (start.totalCount + chunks.flatten.length ≤ usizeMax ∧ start.line + (metricsAfter ε chunks).line ≤ usizeMax →
      ∃ m, (LineColumnMeter.new start : LineColumnMeter ε).feedIn .checked chunks = pure m ∧
        Meter.metrics Str m = metricsFrom ε start chunks) ∧
    (¬ (start.totalCount + chunks.flatten.length ≤ usizeMax ∧ start.line + (metricsAfter ε chunks).line ≤ usizeMax) →
      (LineColumnMeter.new start : LineColumnMeter ε).feedIn .checked chunks = Run.fault .overflow) := by
  rw [metricsAfter_flatten, ← new_fits_iff start hs, feedIn_eq, metricsFrom_eq]
  exact ⟨fun h => ⟨_, advanceIn_fits _ _ _ h, rfl⟩, advanceIn_checked _ _ hs⟩

/-- C112, exactly, without overflow checks: the counters are those of C89 modulo 2^64. -/
theorem C112_exact_wrapping (ε : Type) [EndOfLine ε] (start : LineColumn) (hs : Fits start) (chunks : List (List Char)) :
    ∃ m, (LineColumnMeter.new start : LineColumnMeter ε).feedIn .wrapping chunks = pure m ∧
      Meter.metrics Str m =
        { totalCount := (metricsFrom ε start chunks).totalCount % 2 ^ 64
          line := (metricsFrom ε start chunks).line % 2 ^ 64
          column := (metricsFrom ε start chunks).column % 2 ^ 64 } := by
  have hw : start.wrapped = start := by
    obtain ⟨t, l, c⟩ := start
    obtain ⟨h1, h2, h3⟩ := hs
    simp only at h1 h2 h3
    simp only [LineColumn.wrapped, Nat.mod_eq_of_lt (Nat.lt_succ_of_le h1), Nat.mod_eq_of_lt (Nat.lt_succ_of_le h2),
      Nat.mod_eq_of_lt (Nat.lt_succ_of_le h3)]
  have h := advanceIn_wrapped chunks.flatten (LineColumnMeter.new start : LineColumnMeter ε)
  rw [show ({ (LineColumnMeter.new start : LineColumnMeter ε) with
    location := (LineColumnMeter.new start : LineColumnMeter ε).location.wrapped } : LineColumnMeter ε) =
    LineColumnMeter.new start by simp only [LineColumnMeter.new, hw]] at h
  refine ⟨_, by rw [feedIn_eq]; exact h, ?_⟩
  rw [metricsFrom_eq]
  rfl

theorem length_le_bytes (cs : List Char) : cs.length ≤ byteLen cs := by
  induction cs with
  | nil => simp
  | cons c cs ih =>
    have := c.utf8Size_pos
    simp only [byteLen, List.length_cons]
    omega

/-- C112 for texts, with every line convention, user-defined ones included: at every point of every history of a measured
text, `advance` with counters of `usize` does what it does with natural numbers; it neither panics for an overflow nor wraps.
A text of Rust has at most `isize::MAX` bytes. -/
theorem C112_text (ε : Type) [EndOfLine ε] (b : Build) (s : StrRef) (hs : textBytes s.text.chars ≤ isizeMax)
    {h : Hist (MeasuredStr (LineColumnMeter ε))}
    (hr : HistReach (fun s : MeasuredStr (LineColumnMeter ε) => s.base.text.chars) (s.intoMeasured ε) h) (delta : Nat) :
    h.cur.advanceIn b delta = h.cur.advance delta := by
  obtain ⟨consumed, h1, h2⟩ := C05_measured_lockstep (C05_lineColumn_additive ε) (fun _ => rfl) _ _ hr
  have h2 : h.cur.meter.location = (consumed.foldl LineColumnMeter.step (LineColumnMeter.default : LineColumnMeter ε)).location := h2
  have h1 : s.text.chars = consumed ++ h.cur.base.text.chars := h1
  obtain ⟨g1, g2, g3, g4⟩ := meter_grows consumed (LineColumnMeter.default : LineColumnMeter ε)
  rw [← h2] at g1 g2 g3 g4
  have z : (LineColumnMeter.default : LineColumnMeter ε).location = ⟨0, 0, 0⟩ := rfl
  rw [z] at g1 g2 g3 g4
  simp only at g1 g2 g3 g4
  have hlen := length_le_bytes s.text.chars
  rw [textBytes_eq] at hs
  rw [h1, List.length_append] at hlen
  rw [h1] at hs
  have hmax : isizeMax ≤ usizeMax := by decide
  unfold MeasuredStr.advanceIn MeasuredStr.advance
  simp only [strPrefix]
  cases hc : cutBytes h.cur.base.text.chars (min (byteLen h.cur.base.text.chars) delta) with
  | none => rfl
  | some p =>
    obtain ⟨pre, post⟩ := p
    have happ : pre ++ post = h.cur.base.text.chars := (cutBytes_some hc).1.symm
    simp only [Run.pure_bind']
    rw [advanceIn_fits]
    · rfl
    · rintro q ⟨q', rfl⟩
      have hl : q.length ≤ h.cur.base.text.chars.length := by
        rw [← happ]; simp
      obtain ⟨k1, k2, k3, k4⟩ := meter_grows q h.cur.meter
      exact ⟨by omega, by omega, by omega⟩

/-- C112 for slices counted by a `usize`. A slice has at most `usize::MAX` elements. -/
theorem C112_slice {α : Type} (b : Build) (s : SliceRef α) (hs : s.items.length ≤ usizeMax) {h : Hist (MeasuredSlice α Nat)}
    (hr : HistReach (fun s : MeasuredSlice α Nat => s.base.items) (s.intoMeasuredWith 0) h) (delta : Nat) :
    h.cur.advanceIn b delta = h.cur.advance delta := by
  obtain ⟨consumed, h1, h2⟩ := C05_measured_count _ _ hr
  have h1 : s.items = consumed ++ h.cur.base.items := h1
  have h2 : h.cur.meter = 0 + consumed.length := h2
  unfold MeasuredSlice.advanceIn MeasuredSlice.advance
  simp only [slicePrefix]
  rw [if_pos (Nat.min_le_left _ _)]
  simp only [Run.pure_bind']
  rw [usizeAdd_fits]
  · rfl
  · rw [h1, List.length_append] at hs
    rw [h2, List.length_take]
    omega

/-- The hypotheses of C112_text on a text of two lines after the first has been consumed, with an anchor before it. -/
example : ∃ h : Hist (MeasuredStr (LineColumnMeter LF)),
    HistReach (fun s : MeasuredStr (LineColumnMeter LF) => s.base.text.chars)
      ((⟨1, 0, ⟨['a', '\n', 'あ']⟩⟩ : StrRef).intoMeasured LF) h ∧ textBytes ['a', '\n', 'あ'] ≤ isizeMax ∧
      h.trail.length = 1 ∧ h.cur.base.text.chars = ['あ'] ∧ h.cur.metrics = ⟨2, 1, 2⟩ :=
  ⟨_, .step (.step .start .mark) (.advance ['a', '\n'] ['あ'] rfl rfl), by decide, rfl, rfl, rfl⟩

/-- Counters that overflow: a location at the last line there is, and a text. -/
example : Fits ⟨5, usizeMax, 0⟩ ∧
    ¬ ((⟨5, usizeMax, 0⟩ : LineColumn).totalCount + [['a']].flatten.length ≤ usizeMax ∧
      (⟨5, usizeMax, 0⟩ : LineColumn).line + (metricsAfter LF [['a']]).line ≤ usizeMax) :=
  ⟨⟨by decide, Nat.le_refl _, Nat.zero_le _⟩, by decide⟩

end Parcom
