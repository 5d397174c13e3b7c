import Verif.Spec.Spinning
/-!
# Which wakers the default runner's sequence keeps
-/
namespace Parcom.Runner
variable {T E : Type}

/-- The clone of the waker given to the `k`th poll is kept: its `Wait` said `Pending`, and nobody has woken it. -/
def Keeps (log : List (Event T E)) (k : Nat) : Prop := ∃ f p, .pollBegin f k (some p) ∈ log ∧ .signal (.pollPending p) ∈ log ∧
  ∀ c, .signal (.woke c p) ∉ log

/-- How many `Next`s were dropped before they were ready. -/
def dropsOf (log : List (Event T E)) : Nat := log.countP fun
  | .nextDrop => true
  | _ => false

end Parcom.Runner
