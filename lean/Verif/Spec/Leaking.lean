import Verif.Model.ShortVecPanic
import Verif.Spec.Stack
/-!
# Programs with vectors whose elements panic when dropped
-/
namespace Parcom.Spec
open Parcom

variable {α : Type}

/-- The heap block of the vector, if dropping it panicked. -/
def leftByDrop (sys : Sys α) : VecOp α → Except Fault (VecOut α) → List Nat
  | .drop k, .error _ => match sys.vecs[k]? with
    | some (some { data := .heap q, .. }) => [q]
    | _ => []
  | _, _ => []

/-- A program run so far, with the blocks of the vectors whose drop panicked. It ends when the process aborts; panics are
caught. -/
inductive PanicReach (panics : α → Bool) (b : Build) (ty : Ty) (start : Sys α) :
    List (VecOp α × Except Fault (VecOut α)) → List Nat → Sys α → Prop where
  | start : PanicReach panics b ty start [] [] start
  | step {hist : List (VecOp α × Except Fault (VecOut α))} {leaked : List Nat} {sys sys' : Sys α} {op : VecOp α}
      {res : Except Fault (VecOut α)} : PanicReach panics b ty start hist leaked sys → VecOp.typed ty op →
      sys.runPanicking panics b ty op = some (res, sys') → res ≠ .error .abort →
      PanicReach panics b ty start (hist ++ [(op, res)]) (leftByDrop sys op res ++ leaked) sys'
/-- The same on lists: dropping one panics if an element does, and the list is gone all the same. -/
inductive PanicLists (panics : α → Bool) : List (VecOp α × Except Fault (VecOut α)) → Stacks α → Prop where
  | start : PanicLists panics [] []
  | step {hist : List (VecOp α × Except Fault (VecOut α))} {ls ls' : Stacks α} {op : VecOp α}
      {res : Except Fault (VecOut α)} : PanicLists panics hist ls → ls.run op = some (res, ls') →
      (∀ (k : Nat) l, op = .drop k → ls[k]? = some (some l) → ∀ a ∈ l, panics a = false) →
      PanicLists panics (hist ++ [(op, res)]) ls'
  | full {hist : List (VecOp α × Except Fault (VecOut α))} {ls : Stacks α} {op : VecOp α} : PanicLists panics hist ls →
      VecOp.mayAllocate op = true → PanicLists panics (hist ++ [(op, .error .assertion)]) ls
  | drop {hist : List (VecOp α × Except Fault (VecOut α))} {ls : Stacks α} {k : Nat} {l : List α} :
      PanicLists panics hist ls → ls[k]? = some (some l) → (l.filter panics).length = 1 →
      PanicLists panics (hist ++ [(.drop k, .error .assertion)]) (ls.set k none)

end Parcom.Spec
