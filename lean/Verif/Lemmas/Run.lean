import Verif.Model.Prelude
/-!
# Partial correctness of computations
-/
namespace Parcom.Run

variable {α β : Type}

/-- If the computation returns, its value satisfies `Q`. -/
def Ensures (x : Run α) (Q : α → Prop) : Prop := ∀ a, x = pure a → Q a

theorem ensures_diverge {Q : α → Prop} : Ensures diverge Q := by intro a h; simp at h
theorem ensures_fault {Q : α → Prop} {f : Fault} : Ensures (fault f) Q := by intro a h; simp at h
theorem ensures_pure {Q : α → Prop} {a : α} : Ensures (pure a) Q ↔ Q a := by
  constructor
  · intro h; exact h a rfl
  · intro h b hb; simp at hb; exact hb ▸ h

theorem ensures_bind {x : Run α} {f : α → Run β} {Q : β → Prop} (h : ∀ a, x = pure a → Ensures (f a) Q) :
    Ensures (x >>= f) Q := by
  intro b hb
  rw [bind_eq_pure] at hb
  obtain ⟨a, h1, h2⟩ := hb
  exact h a h1 b h2

theorem ensures_ite {c : Prop} [Decidable c] {x y : Run α} {Q : α → Prop} (h1 : c → Ensures x Q)
    (h2 : ¬ c → Ensures y Q) : Ensures (if c then x else y) Q := by
  by_cases h : c
  · rw [if_pos h]; exact h1 h
  · rw [if_neg h]; exact h2 h

theorem admissible_ensures₁ {ι : Type} (Q : ι → α → Prop) :
    Lean.Order.admissible (fun f : ι → Run α => ∀ i, Ensures (f i) (Q i)) :=
  admissible_fun (fun i x => Ensures x (Q i)) fun _ => ensures_diverge

theorem admissible_ensures₂ {ι κ : Type} (Q : ι → κ → α → Prop) :
    Lean.Order.admissible (fun f : ι → κ → Run α => ∀ i k, Ensures (f i k) (Q i k)) :=
  admissible_fun₂ (fun i k x => Ensures x (Q i k)) fun _ _ => ensures_diverge

theorem admissible_ensures₃ {ι κ l : Type} (Q : ι → κ → l → α → Prop) :
    Lean.Order.admissible (fun f : ι → κ → l → Run α => ∀ i k j, Ensures (f i k j) (Q i k j)) :=
  admissible_fun₃ (fun i k j x => Ensures x (Q i k j)) fun _ _ _ => ensures_diverge

/-- The computation does not stop with one of these faults (it returns, never stops, or stops with another fault). -/
def Avoids (bad : Fault → Prop) (x : Run α) : Prop := ∀ f, bad f → x ≠ fault f

variable {bad : Fault → Prop}

theorem avoids_diverge : Avoids bad (diverge : Run α) := by intro f _ h; simp at h
theorem avoids_pure {a : α} : Avoids bad (pure a : Run α) := by intro f _ h; simp at h
theorem avoids_fault {e : Fault} : Avoids bad (fault e : Run α) ↔ ¬ bad e := by
  constructor
  · intro h hb; exact h e hb rfl
  · intro h f hf hh; simp at hh; subst hh; exact h hf
theorem avoids_bind {x : Run α} {f : α → Run β} (hx : Avoids bad x) (h : ∀ a, x = pure a → Avoids bad (f a)) :
    Avoids bad (x >>= f) := by
  cases x using casesRun with
  | ret a => simpa using h a rfl
  | fault e =>
    intro f' hf' hh
    simp at hh
    exact hx f' hf' (by rw [hh])
  | diverge => simpa using avoids_diverge
theorem avoids_ite {c : Prop} [Decidable c] {x y : Run α} (h1 : c → Avoids bad x) (h2 : ¬ c → Avoids bad y) :
    Avoids bad (if c then x else y) := by
  by_cases h : c
  · rw [if_pos h]; exact h1 h
  · rw [if_neg h]; exact h2 h

theorem admissible_avoids₁ {ι : Type} :
    Lean.Order.admissible (fun f : ι → Run α => ∀ i, Avoids bad (f i)) :=
  admissible_fun (fun _ x => Avoids bad x) fun _ => avoids_diverge
theorem admissible_avoids₂ {ι κ : Type} :
    Lean.Order.admissible (fun f : ι → κ → Run α => ∀ i k, Avoids bad (f i k)) :=
  admissible_fun₂ (fun _ _ x => Avoids bad x) fun _ _ => avoids_diverge
theorem admissible_avoids₃ {ι κ l : Type} :
    Lean.Order.admissible (fun f : ι → κ → l → Run α => ∀ i k j, Avoids bad (f i k j)) :=
  admissible_fun₃ (fun _ _ _ x => Avoids bad x) fun _ _ _ => avoids_diverge

/-- `x` does what `y` does, or never returns. -/
def Below (x y : Run α) : Prop := x = diverge ∨ x = y

theorem below_diverge {y : Run α} : Below diverge y := .inl rfl
theorem below_refl {y : Run α} : Below y y := .inr rfl
theorem below_antisymm {x y : Run α} (h1 : Below x y) (h2 : Below y x) : x = y := by
  rcases h1 with h1 | h1
  · rcases h2 with h2 | h2
    · rw [h1, h2]
    · exact h2.symm
  · exact h1
theorem below_bind {x : Run α} {f g : α → Run β} (h : ∀ a, x = pure a → Below (f a) (g a)) :
    Below (x >>= f) (x >>= g) := by
  cases x using casesRun with
  | ret a => simpa using h a rfl
  | fault e => exact .inr rfl
  | diverge => exact .inl rfl

end Parcom.Run
