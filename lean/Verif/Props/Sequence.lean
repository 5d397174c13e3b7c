import Verif.Lemmas.Lawful
import Verif.Model.LineColumn
/-!
# C01-C05: advancing, anchoring and rewinding
-/
namespace Parcom
open Spec

/-! ## C01 -/

/-- The number of bytes of a text. -/
def textBytes (cs : List Char) : Nat := (cs.map Char.utf8Size).sum

theorem textBytes_eq (cs : List Char) : textBytes cs = byteLen cs := extent_str cs

/-- C01 (`&str`, at a char boundary): exactly the suffix is left, pointing right after the prefix. -/
theorem C01_str_advance (s : StrRef) (pre post : List Char) (h : s.text.chars = pre ++ post) :
    ∃ r, s.advance (textBytes pre) = pure r ∧ r.text.chars = post ∧ r.alloc = s.alloc ∧
      r.off = s.off + textBytes pre :=
  ⟨{ alloc := s.alloc, off := s.off + byteLen pre, text := ⟨post⟩ },
    by rw [textBytes_eq]; exact strRef_advance_prefix s pre post h, rfl, rfl, by rw [textBytes_eq]⟩

/-- C01 (`&str`, any other delta): the empty string is left, and nothing panics. -/
theorem C01_str_advance_off (s : StrRef) (delta : Nat)
    (h : ∀ pre post, s.text.chars = pre ++ post → textBytes pre ≠ delta) :
    ∃ r, s.advance delta = pure r ∧ r.text.chars = [] := by
  have h' : cutBytes s.text.chars delta = none :=
    cutBytes_eq_none.mpr fun a b hab => by rw [← textBytes_eq]; exact h a b hab
  exact ⟨StrRef.emptyLiteral, by simp [StrRef.advance, StrRef.getFrom, h'], rfl⟩

/-- C01 (`&str`): advancing twice is advancing by the sum, if the first delta is a char boundary. -/
theorem C01_str_advance_add (s : StrRef) (d₁ d₂ : Nat)
    (h : ∃ pre post, s.text.chars = pre ++ post ∧ textBytes pre = d₁) :
    (do let r ← s.advance d₁; r.advance d₂) = s.advance (d₁ + d₂) := by
  obtain ⟨pre, post, h1, rfl⟩ := h
  rw [textBytes_eq, strRef_advance_prefix s pre post h1, Run.pure_bind']
  simp only [StrRef.advance, StrRef.getFrom]
  congr 1
  rcases hc : cutBytes post d₂ with _ | ⟨a, b⟩
  · have : cutBytes s.text.chars (byteLen pre + d₂) = none := by
      rw [cutBytes_eq_none] at hc ⊢
      intro a b hab hl
      rw [h1] at hab
      obtain ⟨m, hm1, hm2⟩ := append_split_of_byteLen_le hab (by omega)
      subst hm1
      simp at hl
      exact hc m b hm2 hl
    simp [this]
  · obtain ⟨rfl, rfl⟩ := cutBytes_some hc
    have : cutBytes s.text.chars (byteLen pre + byteLen a) = some (pre ++ a, b) := by
      rw [cutBytes_eq_some]; simp [h1]
    simp [this, Nat.add_assoc]

/-- C01 (`&[T]`, within the slice): exactly the suffix is left. -/
theorem C01_slice_advance {α : Type} (s : SliceRef α) (pre post : List α) (h : s.items = pre ++ post) :
    ∃ r, s.advance pre.length = pure r ∧ r.items = post ∧ r.alloc = s.alloc ∧ r.off = s.off + pre.length :=
  ⟨_, sliceRef_advance_prefix s pre post h, rfl, rfl, rfl⟩

/-- C01 (`&[T]`, beyond the end): panics. -/
theorem C01_slice_advance_off {α : Type} (s : SliceRef α) (delta : Nat) (h : s.items.length < delta) :
    s.advance delta = Run.fault .bounds := by
  simp [SliceRef.advance, Nat.not_le.mpr h]

/-- C01 (`&[T]`): advancing twice is advancing by the sum, for all deltas (a panic of either is a panic of the sum). -/
theorem C01_slice_advance_add {α : Type} (s : SliceRef α) (d₁ d₂ : Nat) :
    (do let r ← s.advance d₁; r.advance d₂) = s.advance (d₁ + d₂) := by
  simp only [SliceRef.advance]
  by_cases h1 : d₁ ≤ s.items.length
  · rw [if_pos h1, Run.pure_bind']
    by_cases h2 : d₂ ≤ s.items.length - d₁
    · rw [if_pos (by simpa using h2), if_pos (by omega)]
      simp only [List.drop_drop, Nat.add_assoc]
    · rw [if_neg (by simpa using h2), if_neg (by omega)]
  · rw [if_neg h1, if_neg (by omega)]; simp

/-- Non-vacuity: "aあb" (5 bytes) after its first two characters, and a delta inside the second character. -/
example : (⟨1, 0, ⟨['a', 'あ', 'b']⟩⟩ : StrRef).text.chars = ['a', 'あ'] ++ ['b'] ∧ textBytes ['a', 'あ'] = 4 := by
  decide
example : ∀ pre post, (⟨1, 0, ⟨['a', 'あ']⟩⟩ : StrRef).text.chars = pre ++ post → textBytes pre ≠ 2 := by
  intro pre post h
  rw [textBytes_eq]
  exact cutBytes_eq_none.mp (by decide : cutBytes ['a', 'あ'] 2 = none) pre post h

/-! ## C02 -/

/-- C02 (`&str`): along every history, every anchor of the trail can be rewound to and gives back exactly the reference
it was taken from; and every advance over remaining text succeeds. -/
theorem C02_str_rewind (s : StrRef) (h : Hist StrRef) (hr : HistReach (fun s : StrRef => s.text.chars) s h) :
    (∀ (i : Nat) a t, h.trail[i]? = some (a, t) → rewind h.cur a = pure t) ∧
    (∀ pre post, h.cur.text.chars = pre ++ post → ∃ r, Sequence.advance h.cur (textBytes pre) = pure r ∧
      r.text.chars = post) := by
  refine ⟨fun i a t hi => ?_, fun pre post hp => ?_⟩
  · obtain ⟨h1, _, h3, _⟩ := (hist_invariant (S := StrRef) hr).2 i a t hi
    subst h1; exact LawfulRewind.rewind h3
  · obtain ⟨r, h1, h2, _⟩ := C01_str_advance h.cur pre post hp; exact ⟨r, h1, h2⟩

/-- C02 (`&[T]`, `T` not zero-sized). -/
theorem C02_slice_rewind {α : Type} [MemSize α] (hz : MemSize.sizeOf α ≠ 0) (s : SliceRef α) (h : Hist (SliceRef α))
    (hr : HistReach (fun s : SliceRef α => s.items) s h) :
    (∀ (i : Nat) a t, h.trail[i]? = some (a, t) → rewind h.cur a = pure t) ∧
    (∀ pre post, h.cur.items = pre ++ post → ∃ r, Sequence.advance h.cur pre.length = pure r ∧ r.items = post) := by
  have : NonZST α := ⟨hz⟩
  refine ⟨fun i a t hi => ?_, fun pre post hp => ?_⟩
  · obtain ⟨h1, _, h3, _⟩ := (hist_invariant (S := SliceRef α) hr).2 i a t hi
    subst h1; exact LawfulRewind.rewind h3
  · obtain ⟨r, h1, h2, _⟩ := C01_slice_advance h.cur pre post hp; exact ⟨r, h1, h2⟩

/-- C02 (`Measured` over `&str`): text and meter are both restored. -/
theorem C02_measured_str_rewind {μ M : Type} [Meter μ Str M] (s : MeasuredStr μ) (h : Hist (MeasuredStr μ))
    (hr : HistReach (fun s : MeasuredStr μ => s.base.text.chars) s h) :
    (∀ (i : Nat) a t, h.trail[i]? = some (a, t) → rewind h.cur a = pure t) ∧
    (∀ pre post, h.cur.base.text.chars = pre ++ post →
      ∃ r, Sequence.advance h.cur (textBytes pre) = pure r ∧ r.base.text.chars = post) := by
  refine ⟨fun i a t hi => ?_, fun pre post hp => ?_⟩
  · obtain ⟨h1, _, h3, _⟩ := (hist_invariant (S := MeasuredStr μ) hr).2 i a t hi
    subst h1; exact LawfulRewind.rewind h3
  · exact ⟨_, by rw [textBytes_eq]; exact measuredStr_advance_prefix h.cur pre post hp, rfl⟩

/-- C02 (`Measured` over `&[T]`), zero-sized elements included. -/
theorem C02_measured_slice_rewind {α μ M : Type} [Meter μ (List α) M] (s : MeasuredSlice α μ)
    (h : Hist (MeasuredSlice α μ)) (hr : HistReach (fun s : MeasuredSlice α μ => s.base.items) s h) :
    (∀ (i : Nat) a t, h.trail[i]? = some (a, t) → rewind h.cur a = pure t) ∧
    (∀ pre post, h.cur.base.items = pre ++ post →
      ∃ r, Sequence.advance h.cur pre.length = pure r ∧ r.base.items = post) := by
  refine ⟨fun i a t hi => ?_, fun pre post hp => ?_⟩
  · obtain ⟨h1, _, h3, _⟩ := (hist_invariant (S := MeasuredSlice α μ) hr).2 i a t hi
    subst h1; exact LawfulRewind.rewind h3
  · exact ⟨_, measuredSlice_advance_prefix h.cur pre post hp, rfl⟩

/-- For zero-sized `T` the claim of C02 fails: every rewind panics, even straight after taking the anchor. -/
theorem C02_slice_zst_counterexample {α : Type} [MemSize α] (hz : MemSize.sizeOf α = 0) (s r : SliceRef α) :
    rewind r (anchor s) = Run.fault .zeroSized := by
  show SliceRef.rewind r s = _
  simp [SliceRef.rewind, hz]

/-- Non-vacuity: mark, move over "aあ", mark, move over "b", rewind to the older anchor; one anchor is left. -/
example : ∃ h : Hist StrRef, HistReach (fun s : StrRef => s.text.chars) ⟨1, 0, ⟨['a', 'あ', 'b']⟩⟩ h ∧
    h.cur = ⟨1, 0, ⟨['a', 'あ', 'b']⟩⟩ ∧ h.trail.length = 1 := by
  have h0 : HistReach (fun s : StrRef => s.text.chars) ⟨1, 0, ⟨['a', 'あ', 'b']⟩⟩ _ := .start
  have h1 := HistReach.step h0 .mark
  have h2 := HistReach.step h1 (.advance (s' := ⟨1, 4, ⟨['b']⟩⟩) ['a', 'あ'] ['b'] rfl rfl)
  have h3 := HistReach.step h2 .mark
  have h4 := HistReach.step h3 (.advance (s' := ⟨1, 5, ⟨[]⟩⟩) ['b'] [] rfl rfl)
  exact ⟨_, HistReach.step h4 (.rewind (i := 1) (s' := ⟨1, 0, ⟨['a', 'あ', 'b']⟩⟩) rfl rfl), rfl, rfl⟩

/-! ## C03 -/

/-- The part of a text after `pre`, as a reference into the buffer `alloc` that holds the text from offset 0. -/
def strView (alloc : Nat) (pre post : List Char) : StrRef := { alloc, off := textBytes pre, text := ⟨post⟩ }

/-- C03 (`&str`): for two positions of one text, rewinding from the first to an anchor of the second panics if the second
is strictly later, and otherwise returns the anchored position; so the position never moves forward. -/
theorem C03_str_rewind_backward (alloc : Nat) (p₁ q₁ p₂ q₂ : List Char) (h : p₁ ++ q₁ = p₂ ++ q₂) :
    (textBytes p₁ < textBytes p₂ →
      rewind (strView alloc p₁ q₁) (anchor (strView alloc p₂ q₂)) = Run.fault .foreignAnchor) ∧
    (textBytes p₂ ≤ textBytes p₁ →
      rewind (strView alloc p₁ q₁) (anchor (strView alloc p₂ q₂)) = pure (strView alloc p₂ q₂)) := by
  have hb : byteLen p₁ + byteLen q₁ = byteLen p₂ + byteLen q₂ := by
    rw [← byteLen_append, ← byteLen_append, h]
  rw [textBytes_eq, textBytes_eq]
  constructor
  · exact fun hlt => StrRef.rewind_forward (s := strView alloc p₁ q₁) (a := strView alloc p₂ q₂) rfl
      (by simpa [strView, textBytes_eq] using hlt)
  · exact fun hle => StrRef.rewind_ok (s := strView alloc p₁ q₁) (a := strView alloc p₂ q₂) rfl
      (by simpa [strView, textBytes_eq] using hle) (by simp only [strView, textBytes_eq]; omega)

/-- The part of a slice after `pre`. -/
def sliceView {α : Type} (alloc : Nat) (pre post : List α) : SliceRef α := { alloc, off := pre.length, items := post }

/-- C03 (`&[T]`, `T` not zero-sized). -/
theorem C03_slice_rewind_backward {α : Type} [MemSize α] (hz : MemSize.sizeOf α ≠ 0) (alloc : Nat)
    (p₁ q₁ p₂ q₂ : List α) (h : p₁ ++ q₁ = p₂ ++ q₂) :
    (p₁.length < p₂.length →
      rewind (sliceView alloc p₁ q₁) (anchor (sliceView alloc p₂ q₂)) = Run.fault .foreignAnchor) ∧
    (p₂.length ≤ p₁.length →
      rewind (sliceView alloc p₁ q₁) (anchor (sliceView alloc p₂ q₂)) = pure (sliceView alloc p₂ q₂)) := by
  have hb : p₁.length + q₁.length = p₂.length + q₂.length := by
    rw [← List.length_append, ← List.length_append, h]
  constructor
  · exact fun hlt => SliceRef.rewind_forward hz (s := sliceView alloc p₁ q₁) (a := sliceView alloc p₂ q₂) rfl hlt
  · exact fun hle => SliceRef.rewind_ok hz (s := sliceView alloc p₁ q₁) (a := sliceView alloc p₂ q₂) rfl hle
      (by simp only [sliceView]; omega)

example : (['a'] ++ ['b', 'c'] = ['a', 'b'] ++ ['c']) ∧ textBytes ['a'] < textBytes ['a', 'b'] := by decide
example : ([1] ++ [2, 3] = [1, 2] ++ [3]) ∧ [1].length < [1, 2].length := by decide

/-! ## C119 -/

/-- C119 (`&str`): what `peek` returns can be advanced like the sequence itself, and rewound to where that is. -/
theorem C119_str (s : StrRef) (pre post : List Char) (h : s.text.chars = pre ++ post) :
    ∃ r, s.peek.advance (textBytes pre) = pure r ∧ r.text.chars = post ∧ rewind r (anchor s) = pure s := by
  have h' : s.peek.text.chars = pre ++ post := h
  refine ⟨_, by rw [textBytes_eq]; exact strRef_advance_prefix s.peek pre post h', rfl, ?_⟩
  exact StrRef.desc_rewind ⟨pre, h, rfl, rfl⟩

/-- C119 (`&[T]`). -/
theorem C119_slice {α : Type} [MemSize α] [NonZST α] (s : SliceRef α) (pre post : List α) (h : s.items = pre ++ post) :
    ∃ r, s.peek.advance pre.length = pure r ∧ r.items = post ∧ rewind r (anchor s) = pure s := by
  have h' : s.peek.items = pre ++ post := h
  exact ⟨_, sliceRef_advance_prefix s.peek pre post h', rfl, SliceRef.desc_rewind ⟨pre, h, rfl, rfl⟩⟩

/-! ## C04 -/

/-- C04 in full: after any advance of a `&str`, rewinding to the anchor it started from restores it. -/
def C04Statement : Prop :=
  ∀ (s : StrRef) (delta : Nat), (do let r ← s.advance delta; rewind r (anchor s)) = pure s

/-- C04 is false: over-advancing gives the literal `""`, whose pointer has nothing to do with the text. -/
theorem C04_false : ¬ C04Statement := by
  intro h
  have := h ⟨1, 0, ⟨['a']⟩⟩ 2
  have h2 : (do let r ← StrRef.advance ⟨1, 0, ⟨['a']⟩⟩ 2; rewind r (anchor (⟨1, 0, ⟨['a']⟩⟩ : StrRef))) =
      (Run.fault .ub : Run StrRef) := rfl
  rw [h2] at this
  exact absurd this (by simp)

/-- What over-advancing leads to, for every text that is not itself in the storage of the literal and every delta past the
end or off a char boundary: rewinding subtracts unrelated pointers. -/
theorem C04_over_advance_ub (s : StrRef) (delta : Nat) (ha : s.alloc ≠ StrRef.emptyLiteral.alloc)
    (h : ∀ pre post, s.text.chars = pre ++ post → textBytes pre ≠ delta) :
    (do let r ← s.advance delta; rewind r (anchor s)) = Run.fault .ub := by
  have h' : cutBytes s.text.chars delta = none :=
    cutBytes_eq_none.mpr fun a b hab => by rw [← textBytes_eq]; exact h a b hab
  simp only [StrRef.advance, StrRef.getFrom, h', Option.map_none, Option.getD_none, Run.pure_bind']
  show StrRef.rewind _ s = _
  simp only [StrRef.rewind]
  rw [if_pos (Ne.symm ha)]

/-- C04, the part that holds: deltas that are char boundaries, the end of the text included.
Missing: deltas past the end or off a boundary, for which the claim is false (`C04_over_advance_ub`). -/
theorem C04_partial (s : StrRef) (delta : Nat) (h : ∃ pre post, s.text.chars = pre ++ post ∧ textBytes pre = delta) :
    (do let r ← s.advance delta; rewind r (anchor s)) = pure s := by
  obtain ⟨pre, post, h1, rfl⟩ := h
  rw [textBytes_eq, strRef_advance_prefix s pre post h1, Run.pure_bind']
  exact StrRef.desc_rewind ⟨pre, h1, rfl, rfl⟩

/-- `Measured` over `&str` does not have the problem: whenever the advance returns at all, rewinding restores. -/
theorem C04_measured {μ M : Type} [Meter μ Str M] (s r : MeasuredStr μ) (delta : Nat)
    (_ : s.advance delta = pure r) : rewind r (anchor s) = pure s := rfl

/-- ... and for a delta past the end it does return, having consumed and measured the whole text. -/
theorem C04_measured_over {μ M : Type} [Meter μ Str M] (s : MeasuredStr μ) (delta : Nat)
    (h : textBytes s.base.text.chars < delta) :
    ∃ r, s.advance delta = pure r ∧ r.base.text.chars = [] ∧ r.meter = Meter.advance s.meter s.base.text := by
  rw [textBytes_eq] at h
  have h1 : min (byteLen s.base.text.chars) delta = byteLen s.base.text.chars := by omega
  have h2 : cutBytes s.base.text.chars (byteLen s.base.text.chars) = some (s.base.text.chars, []) := by
    rw [cutBytes_eq_some]; simp
  have h3 : cutBytes s.base.text.chars delta = none := by
    rw [cutBytes_eq_none]; intro a b hab hl; rw [hab] at h; simp at h; omega
  refine ⟨{ meter := Meter.advance s.meter s.base.text, base := StrRef.emptyLiteral }, ?_, rfl, rfl⟩
  simp [MeasuredStr.advance, h1, strPrefix, h2, StrRef.advance, StrRef.getFrom, h3]

/-- ... while for a delta inside a char it panics, where a `&str` becomes empty. -/
theorem C04_measured_inside {μ M : Type} [Meter μ Str M] (s : MeasuredStr μ) (delta : Nat) (hle : delta ≤ textBytes s.base.text.chars)
    (h : ∀ pre post, s.base.text.chars = pre ++ post → textBytes pre ≠ delta) : s.advance delta = Run.fault .charBoundary := by
  rw [textBytes_eq] at hle
  have h1 : min (byteLen s.base.text.chars) delta = delta := by omega
  have h2 : cutBytes s.base.text.chars delta = none :=
    cutBytes_eq_none.mpr fun a b hab => by rw [← textBytes_eq]; exact h a b hab
  simp [MeasuredStr.advance, h1, strPrefix, h2]

example : (1 ≠ StrRef.emptyLiteral.alloc) ∧
    ∀ pre post, (⟨1, 0, ⟨['あ']⟩⟩ : StrRef).text.chars = pre ++ post → textBytes pre ≠ 7 := by
  refine ⟨by decide, fun pre post h => ?_⟩
  rw [textBytes_eq]
  exact cutBytes_eq_none.mp (by decide : cutBytes ['あ'] 7 = none) pre post h
example : ∃ pre post, (⟨1, 0, ⟨['あ']⟩⟩ : StrRef).text.chars = pre ++ post ∧ textBytes pre = 3 :=
  ⟨['あ'], [], by decide, by decide⟩
example : textBytes (⟨1, 0, ⟨['あ']⟩⟩ : StrRef).text.chars < 7 := by decide

/-! ## C05 -/

/-- A meter for which feeding two segments is feeding their concatenation. -/
def Additive {μ M : Type} [Meter μ Str M] : Prop :=
  ∀ (m : μ) (a b : List Char), Meter.advance (Meter.advance m (⟨a⟩ : Str)) (⟨b⟩ : Str) = Meter.advance m (⟨a ++ b⟩ : Str)

/-- C05: at every point of every history the metrics are those of the start meter fed, in one go, with exactly the text
between the start and here. -/
theorem C05_measured_lockstep {μ M : Type} [Meter μ Str M] (hadd : Additive (μ := μ) (M := M))
    (hnil : ∀ m : μ, Meter.advance m (⟨[]⟩ : Str) = m) (s : MeasuredStr μ) (h : Hist (MeasuredStr μ))
    (hr : HistReach (fun s : MeasuredStr μ => s.base.text.chars) s h) :
    ∃ consumed, s.base.text.chars = consumed ++ h.cur.base.text.chars ∧
      h.cur.metrics = Meter.metrics Str (Meter.advance s.meter (⟨consumed⟩ : Str)) := by
  suffices hh : ∀ h, HistReach (fun s : MeasuredStr μ => s.base.text.chars) s h →
      (∃ consumed, s.base.text.chars = consumed ++ h.cur.base.text.chars ∧
        h.cur.meter = Meter.advance s.meter (⟨consumed⟩ : Str)) ∧
      ∀ (i : Nat) a t, h.trail[i]? = some (a, t) → a = t ∧ ∃ consumed,
        s.base.text.chars = consumed ++ t.base.text.chars ∧ t.meter = Meter.advance s.meter (⟨consumed⟩ : Str) by
    obtain ⟨⟨c, h1, h2⟩, _⟩ := hh h hr
    exact ⟨c, h1, by rw [MeasuredStr.metrics, h2]⟩
  clear hr h
  intro h hr
  induction hr with
  | start => exact ⟨⟨[], by simp, by simp [hnil]⟩, by simp⟩
  | @step h h' _ hs ih =>
    obtain ⟨⟨c, ih1, ih2⟩, ih⟩ := ih
    cases hs with
    | @advance s' pre post hc ha =>
      refine ⟨⟨c ++ pre, ?_, ?_⟩, ih⟩
      · rw [extent_str] at ha
        have := measuredStr_advance_prefix h.cur pre post hc
        have ha' : h.cur.advance (byteLen pre) = pure s' := ha
        rw [ha'] at this
        simp at this
        subst this
        simp [ih1, hc]
      · rw [extent_str] at ha
        have := measuredStr_advance_prefix h.cur pre post hc
        have ha' : h.cur.advance (byteLen pre) = pure s' := ha
        rw [ha'] at this
        simp at this
        subst this
        simp only [ih2]
        exact hadd s.meter c pre
    | mark =>
      refine ⟨⟨c, ih1, ih2⟩, ?_⟩
      intro i a t hi
      cases i with
      | zero => simp at hi; obtain ⟨rfl, rfl⟩ := hi; exact ⟨rfl, c, ih1, ih2⟩
      | succ i => simp at hi; exact ih i a t hi
    | @rewind s' i a t hi hw =>
      obtain ⟨rfl, c', h1, h2⟩ := ih i a t hi
      have hw' : (pure a : Run (MeasuredStr μ)) = pure s' := hw
      simp at hw'
      subst hw'
      refine ⟨⟨c', h1, h2⟩, ?_⟩
      intro j b u hj
      simp [List.getElem?_drop] at hj
      exact ih _ b u hj

/-- The same for slices and the `usize` meter: it counts the elements consumed. -/
theorem C05_measured_count {α : Type} (s : MeasuredSlice α Nat) (h : Hist (MeasuredSlice α Nat))
    (hr : HistReach (fun s : MeasuredSlice α Nat => s.base.items) s h) :
    ∃ consumed, s.base.items = consumed ++ h.cur.base.items ∧ h.cur.metrics = s.metrics + consumed.length := by
  suffices hh : ∀ h, HistReach (fun s : MeasuredSlice α Nat => s.base.items) s h →
      (∃ consumed, s.base.items = consumed ++ h.cur.base.items ∧ h.cur.meter = s.meter + consumed.length) ∧
      ∀ (i : Nat) a t, h.trail[i]? = some (a, t) → a = t ∧ ∃ consumed,
        s.base.items = consumed ++ t.base.items ∧ t.meter = s.meter + consumed.length from (hh h hr).1
  clear hr h
  intro h hr
  induction hr with
  | start => exact ⟨⟨[], by simp, by simp⟩, by simp⟩
  | @step h h' _ hs ih =>
    obtain ⟨⟨c, ih1, ih2⟩, ih⟩ := ih
    cases hs with
    | @advance s' pre post hc ha =>
      rw [extent_list] at ha
      have := measuredSlice_advance_prefix h.cur pre post hc
      have ha' : h.cur.advance pre.length = pure s' := ha
      rw [ha'] at this
      simp at this
      subst this
      refine ⟨⟨c ++ pre, by simp [ih1, hc], ?_⟩, ih⟩
      show Meter.advance h.cur.meter pre = _
      show h.cur.meter + pre.length = _
      rw [ih2]; simp; omega
    | mark =>
      refine ⟨⟨c, ih1, ih2⟩, ?_⟩
      intro i a t hi
      cases i with
      | zero => simp at hi; obtain ⟨rfl, rfl⟩ := hi; exact ⟨rfl, c, ih1, ih2⟩
      | succ i => simp at hi; exact ih i a t hi
    | @rewind s' i a t hi hw =>
      obtain ⟨rfl, c', h1, h2⟩ := ih i a t hi
      have hw' : (pure a : Run (MeasuredSlice α Nat)) = pure s' := hw
      simp at hw'
      subst hw'
      refine ⟨⟨c', h1, h2⟩, ?_⟩
      intro j b u hj
      simp [List.getElem?_drop] at hj
      exact ih _ b u hj

/-- The line/column meters satisfy the hypotheses of `C05_measured_lockstep`. -/
theorem C05_lineColumn_additive (ε : Type) [EndOfLine ε] : Additive (μ := LineColumnMeter ε) (M := LineColumn) := by
  intro m a b
  simp [Meter.advance]

example (m : LineColumnMeter LF) : Meter.advance m (⟨[]⟩ : Str) = m := rfl

end Parcom
