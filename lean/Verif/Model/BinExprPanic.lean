import Verif.Model.BinExprSteps
/-!
# Binary expressions of values that panic when dropped

`Model/BinExprSteps` again, for operands, operators and expressions of which `panics` says which panic when they are dropped.

When a destructor panics, the other locals are dropped while that panic unwinds, and so are the other field of a pair and the
other elements of a slice. A destructor that panics while a panic unwinds aborts the process (std: "panic in a destructor
during cleanup").
-/
namespace Parcom

variable {S T Op EOp ETerm Expr : Type}

/-- Drop values one after the other. `unwinding` says whether a panic unwinds, at the start and at the end. -/
def dropValues (panics : BinVal T Op Expr → Bool) : Bool → List (BinVal T Op Expr) → Run Bool
  | unwinding, [] => pure unwinding
  | unwinding, x :: xs =>
    if panics x then
      if unwinding then Run.fault .abort else dropValues panics true xs
    else dropValues panics unwinding xs

/-- `std::ptr::drop_in_place` on the pairs `i..i+k` (std), in order, the fields of each in order. -/
def dropPairs (panics : BinVal T Op Expr → Bool) (ty : Ty) (p : Ptr) :
    Bool → Nat → Nat → World (Expr × Op) → Run (Bool × World (Expr × Op))
  | unwinding, _, 0, w => pure (unwinding, w)
  | unwinding, i, k + 1, w => do
    let (pair, w) ← w.exec (p.read ty i)
    let unwinding ← dropValues panics unwinding (ownedPairs [pair])
    dropPairs panics ty p unwinding (i + 1) k (w.drop pair)

/-- `Drop::drop` of the stack (shortvec.rs:175-190). A panic in `drop_in_place` leaves it there, with the block not given
back. -/
def dropStack (panics : BinVal T Op Expr → Bool) (ty : Ty) (unwinding : Bool) (w : World (Expr × Op)) :
    Run (Bool × World (Expr × Op)) := do
  let (p, w) ← w.exec asPtr
  let (unwinding', w) ← dropPairs panics ty p unwinding 0 w.vec.len w
  if unwinding' ≠ unwinding then return (true, w)
  if w.vec.isHeap then
    let (layout, w) ← w.exec (layoutArray ty w.vec.cap)
    match p with
    | .heap q =>
      let (_, w) ← w.exec (onMem (Mem.dealloc q layout))
      return (unwinding, w)
    | .stack => Run.fault .ub
  else return (unwinding, w)

/-- Drop what is alive where `parse_impl` is cut off. `unwinding` is set if it is for a panic in what `parse_impl` called.
Returns whether a panic unwinds at the end, the memory, if there was a stack, and what was dropped in order. -/
def BinCut.dropPanicking (panics : BinVal T Op Expr → Bool) (ty : Ty) (unwinding : Bool) (c : BinCut T Op Expr) :
    Run (Bool × Option (Mem (Expr × Op)) × List (BinVal T Op Expr)) := do
  let unwinding ← dropValues panics unwinding (c.handed ++ c.later)
  match c.stack with
  | none =>
    let unwinding ← dropValues panics unwinding c.earlier
    return (unwinding, none, c.handed ++ c.later ++ c.earlier)
  | some w =>
    let (unwinding, w') ← dropStack panics ty unwinding w
    let unwinding ← dropValues panics unwinding c.earlier
    return (unwinding, some w'.mem,
      c.handed ++ c.later ++ ownedPairs (w'.mem.dropped.drop w.mem.dropped.length) ++ c.earlier)

/-- What a step comes to: the next place, or a panic out of `parse_impl`, with the memory that leaves. -/
inductive BinOutcome (S T Op EOp ETerm Expr : Type) [RewindSequence S] where
  | next (st : BinState S T Op EOp ETerm Expr) (evs : List (BinEvent T Op Expr))
  | unwound (mem : Option (Mem (Expr × Op))) (evs : List (BinEvent T Op Expr))

section
variable [RewindSequence S] [Operator Op] [ParseError EOp] [ParseError ETerm] (panics : BinVal T Op Expr → Bool)
  (b : Build) (ty : Ty) (parserTerm : S → Run (PResult S T ETerm)) (parserOp : S → Run (PResult S Op EOp))
  (mk : Expr → Op → Expr → Expr) (ofTerm : T → Expr) (prec : Nat)

/-- `return fail(e, r)` (bin_expr.rs:109, 122): the locals are dropped, and a panic of one comes in place of the return. -/
def BinState.leavePanicking (w : World (Expr × Op)) (later : List (BinVal T Op Expr)) (rhs : Expr) (e : Either EOp ETerm)
    (r : UnknownLocation S) : Run (BinOutcome S T Op EOp ETerm Expr) := do
  match ← BinCut.dropPanicking panics ty false { handed := [], later, stack := some w, earlier := [.expr rhs] } with
  | (false, some mem, vals) => return .next (.ret mem (fail e r)) (vals.map .dropped)
  | (_, mem, vals) => return .unwound mem (vals.map .dropped)

/-- From one place to the next (bin_expr.rs:78-152). Values are dropped when `parse_impl` returns an error, and an operator
when no operand follows it (118-121). The stack dropped at the end (151) is empty. -/
def BinState.stepPanicking : BinState S T Op EOp ETerm Expr → Run (BinOutcome S T Op EOp ETerm Expr)
  | .opFailed w rhs anchor e r =>
    if shouldTerminate e then leavePanicking panics ty w [] rhs (.first e) r
    else return .next (.rewindOp w rhs anchor e r) []
  | .termFailed w rhs anchor op e r =>
    if ¬ shouldTerminate e then return .next (.rewindTerm w rhs anchor op e r) []
    else leavePanicking panics ty w [.op op] rhs (.last e) r
  | .rewindTerm w rhs anchor op e r => do
    let rest ← r.rewind anchor
    if ← dropValues panics false [.op op] then
      let (_, mem, vals) ←
        BinCut.dropPanicking panics ty true { handed := [], later := [], stack := some w, earlier := [.expr rhs] }
      return .unwound mem (.dropped (.op op) :: vals.map .dropped)
    else return .next (.last w rhs (.error (.last e)) rest) [.dropped (.op op)]
  | st => do
    let (st', evs) ← BinState.step b ty parserTerm parserOp mk ofTerm prec st
    return .next st' evs

/-- What `parse_impl` can come to from `st`, with what it has shown on the way. -/
inductive BinReachPanicking (st : BinState S T Op EOp ETerm Expr) :
    BinState S T Op EOp ETerm Expr → List (BinEvent T Op Expr) → Prop where
  | refl : BinReachPanicking st st []
  | step {st' st'' : BinState S T Op EOp ETerm Expr} {evs evs' : List (BinEvent T Op Expr)} : BinReachPanicking st st' evs →
      BinState.stepPanicking panics b ty parserTerm parserOp mk ofTerm prec st' = pure (.next st'' evs') →
      BinReachPanicking st st'' (evs ++ evs')

end
end Parcom
