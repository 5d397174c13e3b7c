import Verif.Model.ShortVec
/-!
# Stacks as lists

What a program using vectors should observe: each vector is a list, pushed and popped at its end.
-/
namespace Parcom.Spec
open Parcom

variable {α : Type}

/-- The lists of a program, `none` once dropped. -/
abbrev Stacks (α : Type) := List (Option (List α))

/-- What an operation does to the lists, and what it returns. -/
def Stacks.run (ls : Stacks α) : VecOp α → Option (Except Fault (VecOut α) × Stacks α)
  | .new _ _ => some (.ok .unit, ls ++ [some []])
  | .push k item => match ls[k]? with
    | some (some l) => some (.ok .unit, ls.set k (some (l ++ [item])))
    | _ => none
  | .pop k => match ls[k]? with
    | some (some l) => some (.ok (.item l.getLast?), ls.set k (some l.dropLast))
    | _ => none
  | .reserve k _ => match ls[k]? with
    | some (some _) => some (.ok .unit, ls)
    | _ => none
  | .reserveExact k _ => match ls[k]? with
    | some (some _) => some (.ok .unit, ls)
    | _ => none
  | .slice k => match ls[k]? with
    | some (some l) => some (.ok (.items l), ls)
    | _ => none
  | .replace k i item => match ls[k]? with
    | some (some l) => match l[i]? with
      | some old => some (.ok (.item (some old)), ls.set k (some (l.set i item)))
      | none => some (.error .bounds, ls)
    | _ => none
  | .drop k => match ls[k]? with
    | some (some _) => some (.ok .unit, ls.set k none)
    | _ => none

/-- Operations that may need memory. -/
def VecOp.mayAllocate : VecOp α → Bool
  | .new _ _ | .push _ _ | .reserve _ _ | .reserveExact _ _ => true
  | _ => false

/-- The vector type exists: `N` is a `usize` and the inline buffer is not larger than Rust allows. -/
def VecOp.typed (ty : Ty) : VecOp α → Prop
  | .new n _ => n ≤ usizeMax ∧ ty.size * n ≤ isizeMax
  | _ => True

/-- Nothing more than the inline buffer is asked for: at most `N` elements at once and no larger capacity. -/
def VecOp.inline (sys : Sys α) : VecOp α → Prop
  | .new n cap => cap ≤ n
  | .push k _ => ∀ v, sys.vecs[k]? = some (some v) → v.len < v.n
  | .reserve k cap | .reserveExact k cap => ∀ v, sys.vecs[k]? = some (some v) → cap ≤ v.n
  | _ => True

/-- `cap` elements are not more than Rust can allocate. -/
def allocatable (ty : Ty) (cap : Nat) : Prop := cap ≤ isizeMax ∧ ty.size * cap ≤ isizeMax - (ty.align - 1)

/-- The capacity asked for, after doubling, is not more than Rust can allocate. -/
def VecOp.fits (ty : Ty) (sys : Sys α) : VecOp α → Prop
  | .new n cap => cap ≤ isizeMax ∧ (cap ≤ n ∨ allocatable ty cap)
  | .push k _ => ∀ v, sys.vecs[k]? = some (some v) → v.len < v.cap ∨ allocatable ty (max (2 * v.cap) (v.len + 1))
  | .reserve k cap => ∀ v, sys.vecs[k]? = some (some v) → cap ≤ v.cap ∨ allocatable ty (max (2 * v.cap) cap)
  | .reserveExact _ cap => allocatable ty cap
  | _ => True

/-- A program run so far: operations with what they returned. It ends when the process aborts; panics are caught. -/
inductive Reach (b : Build) (ty : Ty) (allowed : Sys α → VecOp α → Prop) (start : Sys α) :
    List (VecOp α × Except Fault (VecOut α)) → Sys α → Prop where
  | start : Reach b ty allowed start [] start
  | step {hist : List (VecOp α × Except Fault (VecOut α))} {sys sys' : Sys α} {op : VecOp α}
      {res : Except Fault (VecOut α)} : Reach b ty allowed start hist sys → VecOp.typed ty op → allowed sys op →
      sys.run b ty op = some (res, sys') →
      res ≠ .error .abort → Reach b ty allowed start (hist ++ [(op, res)]) sys'

/-- The same on lists, where an operation may also fail for want of capacity, with no effect. -/
inductive ListReach : List (VecOp α × Except Fault (VecOut α)) → Stacks α → Prop where
  | start : ListReach [] []
  | step {hist : List (VecOp α × Except Fault (VecOut α))} {ls ls' : Stacks α} {op : VecOp α}
      {res : Except Fault (VecOut α)} : ListReach hist ls → ls.run op = some (res, ls') →
      ListReach (hist ++ [(op, res)]) ls'
  | full {hist : List (VecOp α × Except Fault (VecOut α))} {ls : Stacks α} {op : VecOp α} : ListReach hist ls →
      VecOp.mayAllocate op = true → ListReach (hist ++ [(op, .error .assertion)]) ls

/-- The elements that went in. -/
def given (hist : List (VecOp α × Except Fault (VecOut α))) : List α := hist.flatMap fun
  | (.push _ v, _) => [v]
  | (.replace _ _ v, _) => [v]
  | _ => []

/-- The elements that came out. -/
def handedOut (hist : List (VecOp α × Except Fault (VecOut α))) : List α := hist.flatMap fun
  | (_, .ok (.item (some v))) => [v]
  | _ => []

/-- The elements still there. -/
def held (ls : Stacks α) : List α := ls.flatMap fun o => o.getD []

/-- A system in which nothing has happened: no vectors, and an allocator that behaves as it likes. -/
def Sys.Initial (sys : Sys α) : Prop :=
  sys.vecs = [] ∧ (∀ q, sys.mem.blocks q = none) ∧ sys.mem.requests = 0 ∧ sys.mem.dropped = []

end Parcom.Spec
