import Verif.Spec.Stack
/-!
# What growing costs
-/
namespace Parcom.Spec
open Parcom

variable {α : Type}

/-- The program leaves growing to `push`: no vector is made with more capacity than it has inline, nothing is reserved. -/
def VecOp.leavesGrowing : VecOp α → Prop
  | .new n cap => cap ≤ n
  | .reserve _ _ | .reserveExact _ _ => False
  | _ => True

/-- For each request an operation made to the allocator: which vector grew, and how many elements it had then, which had to be
moved. -/
def growths (sys sys' : Sys α) (op : VecOp α) : List (Nat × Nat) :=
  List.replicate (sys'.mem.requests - sys.mem.requests) <| match op with
    | .push k _ | .pop k | .reserve k _ | .reserveExact k _ | .slice k | .replace k _ _ | .drop k => match sys.vecs[k]? with
      | some (some v) => (k, v.len)
      | _ => (k, 0)
    | .new _ _ => (sys.vecs.length, 0)

/-- A program run so far, with every growth. -/
inductive CostReach (b : Build) (ty : Ty) (start : Sys α) :
    List (VecOp α × Except Fault (VecOut α)) → List (Nat × Nat) → Sys α → Prop where
  | start : CostReach b ty start [] [] start
  | step {hist : List (VecOp α × Except Fault (VecOut α))} {cost : List (Nat × Nat)} {sys sys' : Sys α} {op : VecOp α}
      {res : Except Fault (VecOut α)} : CostReach b ty start hist cost sys → VecOp.typed ty op → VecOp.leavesGrowing op →
      sys.run b ty op = some (res, sys') → res ≠ .error .abort →
      CostReach b ty start (hist ++ [(op, res)]) (cost ++ growths sys sys' op) sys'

/-- To which vectors elements were pushed. -/
def pushedTo (hist : List (VecOp α × Except Fault (VecOut α))) : List Nat := hist.filterMap fun
  | (.push k _, _) => some k
  | _ => none

/-- How often a vector grew. -/
def growthsOf (k : Nat) (cost : List (Nat × Nat)) : Nat := (cost.filter (·.1 == k)).length

/-- How many elements were moved when a vector grew. -/
def movedOf (k : Nat) (cost : List (Nat × Nat)) : Nat := ((cost.filter (·.1 == k)).map (·.2)).sum

end Parcom.Spec
