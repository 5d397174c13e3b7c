import Verif.Model.BinExprVec
/-!
# Binary expressions step by step

`parse_impl` of `crates/parcom-parsers/src/combinator/bin_expr.rs` a third time, cut at every place where other code runs:
at the three kinds of `.await`, at the conversions into `Expr`, at the methods of operators and errors, and at the calls
of the stack that can panic. The future may be dropped while it waits; any other code may panic. In both cases the locals
that are alive at that place are dropped, the last declared first, and what was handed to the code that panicked is
dropped by that code.

`Verif.Props.BinExprSteps` shows that running the steps is the `binExprImplVec` of `Verif.Model.BinExprVec`.

Only operands, operators and expressions are followed; that the anchor, the errors and the rest of the input are dropped
is not. Destructors that panic themselves are in `Verif.Model.BinExprPanic`.
-/
namespace Parcom

variable {S T Op EOp ETerm Expr : Type}

/-- A value `parse_impl` owns: an operand as parsed, an operator, or an expression. -/
inductive BinVal (T Op Expr : Type) where
  | term (v : T)
  | op (o : Op)
  | expr (e : Expr)

/-- The two values of an element of the stack, in the order they are dropped. -/
def ownedPairs (l : List (Expr × Op)) : List (BinVal T Op Expr) :=
  l.flatMap fun p => [.expr p.1, .op p.2]

/-- The value, if any, in the reason for stopping. -/
def ownedReason [RewindSequence S] : StopReason S Op EOp ETerm → List (BinVal T Op Expr)
  | .ok (o, _) => [.op o]
  | .error _ => []

/-- Where `parse_impl` is, with the locals alive there. `w` is `stack` and the memory. -/
inductive BinState (S T Op EOp ETerm Expr : Type) [RewindSequence S] where
  /-- waiting for the first operand (bin_expr.rs:90-93) -/
  | first (mem : Mem (Expr × Op)) (input : S)
  /-- in `Expr::from` (bin_expr.rs:95) -/
  | convert (mem : Mem (Expr × Op)) (v : T) (rest : S)
  /-- in `rest.anchor()` or waiting for an operator (bin_expr.rs:102-103) -/
  | atOp (w : World (Expr × Op)) (rhs : Expr) (rest : S)
  /-- in `e.precedence()` (bin_expr.rs:104) -/
  | gotOp (w : World (Expr × Op)) (rhs : Expr) (anchor : RewindSequence.Anchor S) (op : Op) (r : S)
  /-- in `e.should_terminate()` (bin_expr.rs:109) -/
  | opFailed (w : World (Expr × Op)) (rhs : Expr) (anchor : RewindSequence.Anchor S) (e : EOp) (r : UnknownLocation S)
  /-- waiting for `r.rewind(anchor)` after no operator (bin_expr.rs:111) -/
  | rewindOp (w : World (Expr × Op)) (rhs : Expr) (anchor : RewindSequence.Anchor S) (e : EOp) (r : UnknownLocation S)
  /-- waiting for an operand (bin_expr.rs:116) -/
  | atTerm (w : World (Expr × Op)) (rhs : Expr) (anchor : RewindSequence.Anchor S) (op : Op) (r : S)
  /-- in `Expr::from` (bin_expr.rs:117) -/
  | convertTerm (w : World (Expr × Op)) (rhs : Expr) (op : Op) (v : T) (r : S)
  /-- in `e.should_terminate()` (bin_expr.rs:118) -/
  | termFailed (w : World (Expr × Op)) (rhs : Expr) (anchor : RewindSequence.Anchor S) (op : Op) (e : ETerm)
      (r : UnknownLocation S)
  /-- waiting for `r.rewind(anchor)` after no operand (bin_expr.rs:119) -/
  | rewindTerm (w : World (Expr × Op)) (rhs : Expr) (anchor : RewindSequence.Anchor S) (op : Op) (e : ETerm)
      (r : UnknownLocation S)
  /-- at the top of the inner loop (bin_expr.rs:128) -/
  | inner (w : World (Expr × Op)) (rhs : Expr) (op : Op) (term : Expr) (rest : S)
  /-- in `next_precedence(&last_op)` or `op.precedence()` (bin_expr.rs:133-134) -/
  | compare (w : World (Expr × Op)) (lhs : Expr) (lastOp : Op) (rhs : Expr) (op : Op) (term : Expr) (rest : S)
  /-- in `stack.push((lhs, last_op))` (bin_expr.rs:136) -/
  | pushBack (w : World (Expr × Op)) (lhs : Expr) (lastOp : Op) (rhs : Expr) (op : Op) (term : Expr) (rest : S)
  /-- in `stack.push((rhs, op))` (bin_expr.rs:129, 137) -/
  | push (w : World (Expr × Op)) (rhs : Expr) (op : Op) (term : Expr) (rest : S)
  /-- in `Expr::from((lhs, last_op, rhs))` (bin_expr.rs:143) -/
  | combine (w : World (Expr × Op)) (lhs : Expr) (lastOp : Op) (rhs : Expr) (op : Op) (term : Expr) (rest : S)
  /-- at the top of the last loop (bin_expr.rs:147) -/
  | last (w : World (Expr × Op)) (rhs : Expr) (reason : StopReason S Op EOp ETerm) (rest : S)
  /-- in `Expr::from((lhs, op, rhs))` (bin_expr.rs:148) -/
  | lastCombine (w : World (Expr × Op)) (lhs : Expr) (op : Op) (rhs : Expr) (reason : StopReason S Op EOp ETerm) (rest : S)
  /-- returned -/
  | ret (mem : Mem (Expr × Op)) (res : PResult S (Expr × StopReason S Op EOp ETerm) (Either EOp ETerm))

/-- What is alive where `parse_impl` is cut off: what the code being run has taken over, the locals declared after the
stack, the stack, and the operand declared before it. -/
structure BinCut (T Op Expr : Type) where
  handed : List (BinVal T Op Expr)
  later : List (BinVal T Op Expr)
  stack : Option (World (Expr × Op))
  earlier : List (BinVal T Op Expr)

/-- Cut off in `push`: it panics for want of address space only, and has dropped what it was given by then
(shortvec.rs:87-95, 117-128). -/
def cutPush (b : Build) (ty : Ty) (w : World (Expr × Op)) (item : Expr × Op) (later earlier : List (BinVal T Op Expr)) :
    Option (BinCut T Op Expr) :=
  match push b ty item w with
  | (.error .assertion, w') =>
    some { handed := ownedPairs (w'.mem.dropped.drop w.mem.dropped.length), later, stack := some w', earlier }
  | _ => none

/-- The places where `parse_impl` can be cut off, and what is alive there (bin_expr.rs:78-152). In the order of
declaration the locals are `rhs`, `stack`, then `op` and `term`, or `reason`. -/
def BinState.cut [RewindSequence S] (b : Build) (ty : Ty) : BinState S T Op EOp ETerm Expr → Option (BinCut T Op Expr)
  | .first _ _ => some { handed := [], later := [], stack := none, earlier := [] }
  | .convert _ v _ => some { handed := [.term v], later := [], stack := none, earlier := [] }
  | .atOp w rhs _ => some { handed := [], later := [], stack := some w, earlier := [.expr rhs] }
  | .gotOp w rhs _ op _ => some { handed := [], later := [.op op], stack := some w, earlier := [.expr rhs] }
  | .opFailed w rhs _ _ _ => some { handed := [], later := [], stack := some w, earlier := [.expr rhs] }
  | .rewindOp w rhs _ _ _ => some { handed := [], later := [], stack := some w, earlier := [.expr rhs] }
  | .atTerm w rhs _ op _ => some { handed := [], later := [.op op], stack := some w, earlier := [.expr rhs] }
  | .convertTerm w rhs op v _ => some { handed := [.term v], later := [.op op], stack := some w, earlier := [.expr rhs] }
  | .termFailed w rhs _ op _ _ => some { handed := [], later := [.op op], stack := some w, earlier := [.expr rhs] }
  | .rewindTerm w rhs _ op _ _ => some { handed := [], later := [.op op], stack := some w, earlier := [.expr rhs] }
  | .inner _ _ _ _ _ => none
  | .compare w lhs lastOp rhs op term _ =>
    some { handed := [], later := [.op lastOp, .expr lhs, .expr term, .op op], stack := some w, earlier := [.expr rhs] }
  | .pushBack w lhs lastOp rhs op term _ => cutPush b ty w (lhs, lastOp) [.expr term, .op op] [.expr rhs]
  | .push w rhs op term _ => cutPush b ty w (rhs, op) [.expr term] []
  | .combine w lhs lastOp rhs op term _ =>
    some { handed := [.expr lhs, .op lastOp, .expr rhs], later := [.expr term, .op op], stack := some w, earlier := [] }
  | .last _ _ _ _ => none
  | .lastCombine w lhs op rhs reason _ =>
    some { handed := [.expr lhs, .op op, .expr rhs], later := ownedReason reason, stack := some w, earlier := [] }
  | .ret _ _ => none

/-- Drop what is alive. Returns the memory, if there was a stack, and what was dropped in order. -/
def BinCut.drop (ty : Ty) (c : BinCut T Op Expr) : Run (Option (Mem (Expr × Op)) × List (BinVal T Op Expr)) :=
  match c.stack with
  | none => pure (none, c.handed ++ c.later ++ c.earlier)
  | some w => do
    let (_, w') ← w.exec (dropVec ty)
    return (some w'.mem, c.handed ++ c.later ++ ownedPairs (w'.mem.dropped.drop w.mem.dropped.length) ++ c.earlier)

/-- What a step shows: an operand or operator that was parsed, or a value that was dropped. -/
inductive BinEvent (T Op Expr : Type) where
  | readTerm (v : T)
  | readOp (o : Op)
  | dropped (x : BinVal T Op Expr)

section
variable [RewindSequence S] [Operator Op] [ParseError EOp] [ParseError ETerm] (b : Build) (ty : Ty)
  (parserTerm : S → Run (PResult S T ETerm)) (parserOp : S → Run (PResult S Op EOp))
  (mk : Expr → Op → Expr → Expr) (ofTerm : T → Expr) (prec : Nat)

/-- `return fail(e, r)` (bin_expr.rs:109, 122): the locals are dropped. -/
def BinState.leave (w : World (Expr × Op)) (later : List (BinVal T Op Expr)) (rhs : Expr) (e : Either EOp ETerm)
    (r : UnknownLocation S) : Run (BinState S T Op EOp ETerm Expr × List (BinEvent T Op Expr)) := do
  let (_, w') ← w.exec (dropVec ty)
  return (.ret w'.mem (fail e r),
    (later ++ ownedPairs (w'.mem.dropped.drop w.mem.dropped.length) ++ [BinVal.expr rhs]).map .dropped)

/-- From one place to the next (bin_expr.rs:78-152). -/
def BinState.step : BinState S T Op EOp ETerm Expr → Run (BinState S T Op EOp ETerm Expr × List (BinEvent T Op Expr))
  | .first mem input => do
    match ← parserTerm input with
    | .err e r => return (.ret mem (.err (.last e) r), [])
    | .ok v rest => return (.convert mem v rest, [.readTerm v])
  | .convert mem v rest =>
    match SVec.withCapacity ty 4 0 mem with
    | (.error e, _) => Run.fault e
    | (.ok vec, mem) => return (.atOp { vec, mem } (ofTerm v) rest, [])
  | .atOp w rhs rest => do
    match ← parserOp rest with
    | .ok op r => return (.gotOp w rhs (anchor rest) op r, [.readOp op])
    | .err e r => return (.opFailed w rhs (anchor rest) e r, [])
  | .gotOp w rhs anchor op r =>
    if precedence op ≥ prec then return (.atTerm w rhs anchor op r, [])
    else return (.last w rhs (.ok (op, anchor)) r, [])
  | .opFailed w rhs anchor e r =>
    if shouldTerminate e then leave ty w [] rhs (.first e) r
    else return (.rewindOp w rhs anchor e r, [])
  | .rewindOp w rhs anchor e r => do
    let rest ← r.rewind anchor
    return (.last w rhs (.error (.first e)) rest, [])
  | .atTerm w rhs anchor op r => do
    match ← parserTerm r with
    | .ok v r => return (.convertTerm w rhs op v r, [.readTerm v])
    | .err e r => return (.termFailed w rhs anchor op e r, [])
  | .convertTerm w rhs op v r => return (.inner w rhs op (ofTerm v) r, [])
  | .termFailed w rhs anchor op e r =>
    if ¬ shouldTerminate e then return (.rewindTerm w rhs anchor op e r, [])
    else leave ty w [.op op] rhs (.last e) r
  | .rewindTerm w rhs anchor op e r => do
    let rest ← r.rewind anchor
    return (.last w rhs (.error (.last e)) rest, [.dropped (.op op)])
  | .inner w rhs op term rest => do
    match ← w.exec (pop ty) with
    | (none, w) => return (.push w rhs op term rest, [])
    | (some (lhs, lastOp), w) => return (.compare w lhs lastOp rhs op term rest, [])
  | .compare w lhs lastOp rhs op term rest => do
    let prec ← nextPrecedence b lastOp
    if precedence op ≥ prec then return (.pushBack w lhs lastOp rhs op term rest, [])
    else return (.combine w lhs lastOp rhs op term rest, [])
  | .pushBack w lhs lastOp rhs op term rest => do
    let (_, w) ← w.exec (Parcom.push b ty (lhs, lastOp))
    return (.push w rhs op term rest, [])
  | .push w rhs op term rest => do
    let (_, w) ← w.exec (Parcom.push b ty (rhs, op))
    return (.atOp w term rest, [])
  | .combine w lhs lastOp rhs op term rest => return (.inner w (mk lhs lastOp rhs) op term rest, [])
  | .last w rhs reason rest => do
    match ← w.exec (pop ty) with
    | (some (lhs, op), w) => return (.lastCombine w lhs op rhs reason rest, [])
    | (none, w) =>
      let (_, w') ← w.exec (dropVec ty)
      return (.ret w'.mem (done (rhs, reason) rest),
        (ownedPairs (w'.mem.dropped.drop w.mem.dropped.length)).map .dropped)
  | .lastCombine w lhs op rhs reason rest => return (.last w (mk lhs op rhs) reason rest, [])
  | .ret mem res => return (.ret mem res, [])

/-- Run the steps until `parse_impl` returns. -/
def BinState.run (st : BinState S T Op EOp ETerm Expr) :
    Run (PResult S (Expr × StopReason S Op EOp ETerm) (Either EOp ETerm) × Mem (Expr × Op)) :=
  match st with
  | .ret mem res => pure (res, mem)
  | st => do
    let (st', _) ← BinState.step b ty parserTerm parserOp mk ofTerm prec st
    BinState.run st'
partial_fixpoint

/-- What `parse_impl` can come to from `st`, with what it has shown on the way. -/
inductive BinReach (st : BinState S T Op EOp ETerm Expr) : BinState S T Op EOp ETerm Expr → List (BinEvent T Op Expr) → Prop where
  | refl : BinReach st st []
  | step {st' st'' : BinState S T Op EOp ETerm Expr} {evs evs' : List (BinEvent T Op Expr)} : BinReach st st' evs →
      BinState.step b ty parserTerm parserOp mk ofTerm prec st' = pure (st'', evs') → BinReach st st'' (evs ++ evs')

end
end Parcom
