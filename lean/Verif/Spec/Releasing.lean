import Verif.Model.Release
import Verif.Spec.Loading
/-!
# What dropping should do
-/
namespace Parcom.Spec
open Parcom
variable {T E : Type}

/-- Loader and buffer get here from when they were built. -/
def OwnedReaches (b : Build) (ms : List (OwnedMove T E)) (s : Owned T E) : Prop := ∃ c, (Owned.init c).run b ms = Run.ret s

/-- The first `k` segments, and no more, lie wholly within the first `n` items. -/
def Whole (segs : List (List T)) (n k : Nat) : Prop :=
  k ≤ segs.length ∧ (segs.take k).flatten.length ≤ n ∧ (k < segs.length → n < (segs.take (k + 1)).flatten.length)

end Parcom.Spec
