import Verif.Model.ShortVec
/-!
# Binary expressions on their stack

`parse_impl` of `crates/parcom-parsers/src/combinator/bin_expr.rs` once more, now with the `ShortVec<_, 4>` it keeps its
stack in, on the explicit memory of `Verif.Model.ShortVec`. `ty` is the layout of the pairs `(Expr, POp::Output)`.

Panics and futures dropped half way are in `Verif.Model.BinExprSteps`.
-/
namespace Parcom

variable {S T Op EOp ETerm Expr α β : Type}

/-- Call a method of the stack. -/
def World.exec (w : World α) (x : Act (World α) β) : Run (β × World α) :=
  match x w with
  | (.ok a, w) => pure (a, w)
  | (.error e, _) => Run.fault e

/-- The inner loop of `parse_impl` (bin_expr.rs:127-144): pop and combine until `op` can be pushed. -/
def reduceForVec [Operator Op] (b : Build) (ty : Ty) (mk : Expr → Op → Expr → Expr) (op : Op) (term : Expr)
    (w : World (Expr × Op)) (rhs : Expr) : Run (World (Expr × Op) × Expr) := do
  match ← w.exec (pop ty) with
  | (none, w) =>
    let (_, w) ← w.exec (push b ty (rhs, op))
    return (w, term)
  | (some (lhs, lastOp), w) =>
    let prec ← nextPrecedence b lastOp
    if precedence op ≥ prec then
      let (_, w) ← w.exec (push b ty (lhs, lastOp))
      let (_, w) ← w.exec (push b ty (rhs, op))
      return (w, term)
    else reduceForVec b ty mk op term w (mk lhs lastOp rhs)
partial_fixpoint

/-- `while let Some((lhs, op)) = stack.pop()` (bin_expr.rs:147-149). -/
def reduceAllVec (ty : Ty) (mk : Expr → Op → Expr → Expr) (w : World (Expr × Op)) (rhs : Expr) :
    Run (World (Expr × Op) × Expr) := do
  match ← w.exec (pop ty) with
  | (some (lhs, op), w) => reduceAllVec ty mk w (mk lhs op rhs)
  | (none, w) => return (w, rhs)
partial_fixpoint

/-- The end of `parse_impl` (bin_expr.rs:147-151): combine what is on the stack, drop it, and return. -/
def finishVec [RewindSequence S] (ty : Ty) (mk : Expr → Op → Expr → Expr) (w : World (Expr × Op)) (rhs : Expr)
    (reason : StopReason S Op EOp ETerm) (rest : S) :
    Run (PResult S (Expr × StopReason S Op EOp ETerm) (Either EOp ETerm) × Mem (Expr × Op)) := do
  let (w, rhs) ← reduceAllVec ty mk w rhs
  let (_, w) ← w.exec (dropVec ty)
  return (done (rhs, reason) rest, w.mem)

/-- Leaving `parse_impl` early (bin_expr.rs:109, 122): the stack is dropped. -/
def leaveVec [RewindSequence S] (ty : Ty) (w : World (Expr × Op)) (e : Either EOp ETerm) (r : UnknownLocation S) :
    Run (PResult S (Expr × StopReason S Op EOp ETerm) (Either EOp ETerm) × Mem (Expr × Op)) := do
  let (_, w) ← w.exec (dropVec ty)
  return (fail e r, w.mem)

/-- The outer loop of `parse_impl` and its end (bin_expr.rs:101-151). -/
def binExprLoopVec [RewindSequence S] [Operator Op] [ParseError EOp] [ParseError ETerm] (b : Build) (ty : Ty)
    (parserTerm : S → Run (PResult S T ETerm)) (parserOp : S → Run (PResult S Op EOp))
    (mk : Expr → Op → Expr → Expr) (ofTerm : T → Expr) (prec : Nat)
    (w : World (Expr × Op)) (rhs : Expr) (rest : S) :
    Run (PResult S (Expr × StopReason S Op EOp ETerm) (Either EOp ETerm) × Mem (Expr × Op)) := do
  let anchor := anchor rest
  match ← parserOp rest with
  | .ok op r =>
    if precedence op ≥ prec then
      match ← parserTerm r with
      | .ok term r =>
        let (w, rhs) ← reduceForVec b ty mk op (ofTerm term) w rhs
        binExprLoopVec b ty parserTerm parserOp mk ofTerm prec w rhs r
      | .err e r =>
        if ¬ shouldTerminate e then
          let rest ← r.rewind anchor
          finishVec ty mk w rhs (.error (.last e)) rest
        else leaveVec ty w (.last e) r
    else finishVec ty mk w rhs (.ok (op, anchor)) r
  | .err e r =>
    if shouldTerminate e then leaveVec ty w (.first e) r
    else
      let rest ← r.rewind anchor
      finishVec ty mk w rhs (.error (.first e)) rest
partial_fixpoint

/-- `parse_impl` (bin_expr.rs:78-152): `ShortVec::<_, 4>::new()` is line 99. -/
def binExprImplVec [RewindSequence S] [Operator Op] [ParseError EOp] [ParseError ETerm] (b : Build) (ty : Ty)
    (parserTerm : S → Run (PResult S T ETerm)) (parserOp : S → Run (PResult S Op EOp))
    (mk : Expr → Op → Expr → Expr) (ofTerm : T → Expr) (mem : Mem (Expr × Op)) (input : S) (prec : Nat) :
    Run (PResult S (Expr × StopReason S Op EOp ETerm) (Either EOp ETerm) × Mem (Expr × Op)) := do
  match ← parserTerm input with
  | .err e r => return (.err (.last e) r, mem)
  | .ok rhs rest =>
    match SVec.withCapacity ty 4 0 mem with
    | (.error e, _) => Run.fault e
    | (.ok vec, mem) => binExprLoopVec b ty parserTerm parserOp mk ofTerm prec { vec, mem } (ofTerm rhs) rest

/-- `BinExprParser::parse` (bin_expr.rs:52-58). -/
def binExprVec [RewindSequence S] [Operator Op] [ParseError EOp] [ParseError ETerm] (b : Build) (ty : Ty)
    (term : Parser S T ETerm) (op : Parser S Op EOp) (mk : Expr → Op → Expr → Expr) (ofTerm : T → Expr)
    (mem : Mem (Expr × Op)) (input : S) :
    Run (PResult S (Expr × Either EOp ETerm) (Either EOp ETerm) × Mem (Expr × Op)) := do
  match ← binExprImplVec b ty term.parse op.parse mk ofTerm mem input 0 with
  | (.err e r, mem) => return (.err e r, mem)
  | (.ok (e, reason) rest, mem) =>
    match reason with
    | .error reason => return (done (e, reason) rest, mem)
    | .ok _ => Run.fault .unreachable

end Parcom
