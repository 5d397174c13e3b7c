import Verif.Props.Sequence
/-!
# C122: anchors of something else
-/
namespace Parcom
open Spec

/-! ## The claim -/

/-- `s` is what is left of `a` after some of its characters. -/
def IsLeft (a s : StrRef) : Prop :=
  s.alloc = a.alloc ∧ ∃ pre, a.text.chars = pre ++ s.text.chars ∧ s.off = a.off + textBytes pre

/-- `s` is what is left of `a` after some of its items. -/
def IsLeftSlice {α : Type} (a s : SliceRef α) : Prop :=
  s.alloc = a.alloc ∧ ∃ pre, a.items = pre ++ s.items ∧ s.off = a.off + pre.length

/-- C122: rewinding to an anchor that is not an anchor of this sequence panics, and that is what the panic is for. -/
def C122Statement : Prop :=
  (∀ a s : StrRef, ¬ IsLeft a s → rewind s (anchor a) = Run.fault .foreignAnchor) ∧
  (∀ {α : Type} [MemSize α] (a s : SliceRef α), MemSize.sizeOf α ≠ 0 → ¬ IsLeftSlice a s →
    rewind s (anchor a) = Run.fault .foreignAnchor) ∧
  (∀ {μ M : Type} [Meter μ Str M] (a s : MeasuredStr μ), ¬ IsLeft a.base s.base → rewind s (anchor a) = Run.fault .foreignAnchor)

/-! ## What happens -/

/-- C122 (`&str`), exactly: with an anchor of another buffer it is undefined behaviour, from safe code; with one of the same
buffer, all that matters is whether the place where `s` begins is in what was anchored, or at its end. -/
theorem C122_str_exact (a s : StrRef) :
    (rewind s (anchor a) = Run.fault .ub ↔ s.alloc ≠ a.alloc) ∧
    (rewind s (anchor a) = Run.fault .foreignAnchor ↔
      s.alloc = a.alloc ∧ (s.off < a.off ∨ a.off + textBytes a.text.chars < s.off)) ∧
    (rewind s (anchor a) = pure a ↔ s.alloc = a.alloc ∧ a.off ≤ s.off ∧ s.off ≤ a.off + textBytes a.text.chars) := by
  rw [textBytes_eq]
  by_cases h : s.alloc = a.alloc
  · by_cases hin : a.off ≤ s.off ∧ s.off ≤ a.off + byteLen a.text.chars
    · have : rewind s (anchor a) = pure a := StrRef.rewind_ok h hin.1 hin.2
      rw [this]
      refine ⟨by simp [h], ?_, by simp [h, hin]⟩
      simp only [h, true_and, Run.pure_ne_fault, false_iff]
      omega
    · have : rewind s (anchor a) = Run.fault .foreignAnchor := by
        show StrRef.rewind s a = _
        simp only [StrRef.rewind]
        rw [if_neg (by simp [h]), if_neg (by omega)]
      rw [this]
      refine ⟨by simp [h], ?_, by simp [h, hin]⟩
      simp only [h, true_and, true_iff]
      omega
  · have : rewind s (anchor a) = Run.fault .ub := by
      show StrRef.rewind s a = _
      simp only [StrRef.rewind]
      rw [if_pos h]
    rw [this]
    simp [h]

/-- C122 (`&[T]`), exactly. -/
theorem C122_slice_exact {α : Type} [MemSize α] (hz : MemSize.sizeOf α ≠ 0) (a s : SliceRef α) :
    (rewind s (anchor a) = Run.fault .ub ↔ s.alloc ≠ a.alloc) ∧
    (rewind s (anchor a) = Run.fault .foreignAnchor ↔ s.alloc = a.alloc ∧ (s.off < a.off ∨ a.off + a.items.length < s.off)) ∧
    (rewind s (anchor a) = pure a ↔ s.alloc = a.alloc ∧ a.off ≤ s.off ∧ s.off ≤ a.off + a.items.length) := by
  by_cases h : s.alloc = a.alloc
  · by_cases hin : a.off ≤ s.off ∧ s.off ≤ a.off + a.items.length
    · have : rewind s (anchor a) = pure a := SliceRef.rewind_ok hz h hin.1 hin.2
      rw [this]
      refine ⟨by simp [h], ?_, by simp [h, hin]⟩
      simp only [h, true_and, Run.pure_ne_fault, false_iff]
      omega
    · have : rewind s (anchor a) = Run.fault .foreignAnchor := by
        show SliceRef.rewind s a = _
        simp only [SliceRef.rewind]
        rw [if_neg hz, if_neg (by simp [h]), if_neg (by omega)]
      rw [this]
      refine ⟨by simp [h], ?_, by simp [h, hin]⟩
      simp only [h, true_and, true_iff]
      omega
  · have : rewind s (anchor a) = Run.fault .ub := by
      show SliceRef.rewind s a = _
      simp only [SliceRef.rewind]
      rw [if_neg hz, if_pos h]
    rw [this]
    simp [h]

/-- C122 (`Measured`): no anchor is ever refused. -/
theorem C122_measured {μ M : Type} [Meter μ Str M] (a s : MeasuredStr μ) : rewind s (anchor a) = pure a := rfl
theorem C122_measured_slice {α μ M : Type} [Meter μ (List α) M] (a s : MeasuredSlice α μ) : rewind s (anchor a) = pure a := rfl

/-- C122 does not hold: "a" and "b" are in two buffers. -/
theorem C122_false : ¬ C122Statement := by
  intro h
  have := h.1 ⟨1, 0, ⟨['a']⟩⟩ ⟨2, 0, ⟨['b']⟩⟩ (by rintro ⟨h, -⟩; cases h)
  rw [((C122_str_exact ⟨1, 0, ⟨['a']⟩⟩ ⟨2, 0, ⟨['b']⟩⟩).1).2 (by simp)] at this
  simp at this

/-- Nor in one buffer: of "abc", rewinding "bc" to an anchor of "ab" gives "ab". -/
theorem C122_overlap : ¬ IsLeft ⟨1, 0, ⟨['a', 'b']⟩⟩ ⟨1, 1, ⟨['b', 'c']⟩⟩ ∧
    rewind (⟨1, 1, ⟨['b', 'c']⟩⟩ : StrRef) (anchor (⟨1, 0, ⟨['a', 'b']⟩⟩ : StrRef)) = pure ⟨1, 0, ⟨['a', 'b']⟩⟩ := by
  constructor
  · rintro ⟨-, pre, h, -⟩
    have : ['a', 'b'].getLast? = (pre ++ ['b', 'c']).getLast? := congrArg List.getLast? h
    simp at this
  · exact ((C122_str_exact _ _).2.2).2 ⟨rfl, by decide, by decide⟩

/-- Nor for `Measured`: any anchor will do. -/
theorem C122_measured_false {μ M : Type} [Meter μ Str M] (m : μ) : ∃ a s : MeasuredStr μ, ¬ IsLeft a.base s.base ∧
    rewind s (anchor a) = pure a :=
  ⟨⟨m, ⟨1, 0, ⟨['a']⟩⟩⟩, ⟨m, ⟨2, 0, ⟨['b']⟩⟩⟩, (by rintro ⟨h, -⟩; cases h), rfl⟩

theorem left_of_same_end (p₁ q₁ p₂ q₂ : List Char) (h : p₁ ++ q₁ = p₂ ++ q₂) (alloc : Nat) :
    IsLeft (strView alloc p₂ q₂) (strView alloc p₁ q₁) ↔ textBytes p₂ ≤ textBytes p₁ := by
  constructor
  · rintro ⟨-, pre, -, h2⟩
    simp only [strView] at h2
    omega
  · intro hle
    rcases List.append_eq_append_iff.1 h with ⟨as, h1, h2⟩ | ⟨bs, h1, h2⟩
    · have has : as = [] := by
        cases as with
        | nil => rfl
        | cons x xs =>
          subst h1
          simp only [textBytes, List.map_append, List.sum_append, List.map_cons, List.sum_cons] at hle
          have := x.utf8Size_pos
          omega
      subst has
      refine ⟨rfl, [], ?_, ?_⟩
      · simp [strView] at h2 ⊢; exact h2.symm
      · simp at h1; subst h1; simp [strView, textBytes]
    · subst h1
      refine ⟨rfl, bs, ?_, ?_⟩
      · simpa [strView] using h2
      · simp [strView, textBytes]

/-- C122, the part that holds: for two `&str`s that end where one text ends, as all those do that come from one by advancing.
Missing: references to other buffers, and those that end elsewhere; see `C122_str_exact`. -/
theorem C122_partial (alloc : Nat) (p₁ q₁ p₂ q₂ : List Char) (h : p₁ ++ q₁ = p₂ ++ q₂) :
    (¬ IsLeft (strView alloc p₂ q₂) (strView alloc p₁ q₁) →
      rewind (strView alloc p₁ q₁) (anchor (strView alloc p₂ q₂)) = Run.fault .foreignAnchor) ∧
    (IsLeft (strView alloc p₂ q₂) (strView alloc p₁ q₁) →
      rewind (strView alloc p₁ q₁) (anchor (strView alloc p₂ q₂)) = pure (strView alloc p₂ q₂)) := by
  rw [left_of_same_end p₁ q₁ p₂ q₂ h]
  have := C03_str_rewind_backward alloc p₁ q₁ p₂ q₂ h
  exact ⟨fun hn => this.1 (by omega), this.2⟩

example : (['a'] ++ ['b', 'あ'] = ['a', 'b'] ++ ['あ']) ∧
    ¬ IsLeft (strView 1 ['a', 'b'] ['あ']) (strView 1 ['a'] ['b', 'あ']) ∧
    IsLeft (strView 1 ['a'] ['b', 'あ']) (strView 1 ['a', 'b'] ['あ']) := by
  refine ⟨rfl, ?_, ?_⟩
  · rw [left_of_same_end ['a'] ['b', 'あ'] ['a', 'b'] ['あ'] rfl]; decide
  · rw [left_of_same_end ['a', 'b'] ['あ'] ['a'] ['b', 'あ'] rfl]; decide

/-- C122, the part that holds for `&[T]`. -/
theorem C122_slice_partial {α : Type} [MemSize α] (hz : MemSize.sizeOf α ≠ 0) (alloc : Nat) (p₁ q₁ p₂ q₂ : List α)
    (h : p₁ ++ q₁ = p₂ ++ q₂) :
    (¬ IsLeftSlice (sliceView alloc p₂ q₂) (sliceView alloc p₁ q₁) →
      rewind (sliceView alloc p₁ q₁) (anchor (sliceView alloc p₂ q₂)) = Run.fault .foreignAnchor) ∧
    (IsLeftSlice (sliceView alloc p₂ q₂) (sliceView alloc p₁ q₁) →
      rewind (sliceView alloc p₁ q₁) (anchor (sliceView alloc p₂ q₂)) = pure (sliceView alloc p₂ q₂)) := by
  have := C03_slice_rewind_backward hz alloc p₁ q₁ p₂ q₂ h
  have hl : IsLeftSlice (sliceView alloc p₂ q₂) (sliceView alloc p₁ q₁) ↔ p₂.length ≤ p₁.length := by
    constructor
    · rintro ⟨-, pre, -, h2⟩
      simp only [sliceView] at h2
      omega
    · intro hle
      rcases List.append_eq_append_iff.1 h with ⟨as, h1, h2⟩ | ⟨bs, h1, h2⟩
      · have has : as = [] := by
          subst h1
          simp only [List.length_append] at hle
          exact List.length_eq_zero_iff.1 (by omega)
        subst has
        refine ⟨rfl, [], ?_, ?_⟩
        · simp [sliceView] at h2 ⊢; exact h2.symm
        · simp at h1; subst h1; simp [sliceView]
      · subst h1
        refine ⟨rfl, bs, ?_, ?_⟩
        · simpa [sliceView] using h2
        · simp [sliceView]
  rw [hl]
  exact ⟨fun hn => this.1 (by omega), this.2⟩

end Parcom
