import Verif.Model.Core
/-!
# Binary expressions

`crates/parcom-parsers/src/combinator/bin_expr.rs`. `usize` precedences are natural numbers; the addition in
`next_precedence` overflows at `usize::MAX`, which depends on the build: a panic with overflow checks on (the default of
debug builds), wrap-around with them off. `Build` selects one. The stack is a list whose head is its top; that the
`ShortVec<_, 4>` used in the code makes no difference is `Verif.Props.BinExprVec`.
-/
namespace Parcom

/-- `usize::MAX` on a 64-bit target. -/
def usizeMax : Nat := 2 ^ 64 - 1

/-- Integer overflow: checked (debug builds) or wrapping (release builds). -/
inductive Build where
  | checked
  | wrapping
  deriving DecidableEq, Repr

/-- `usize` addition of std. -/
def usizeAdd (b : Build) (x y : Nat) : Run Nat :=
  if x + y ≤ usizeMax then pure (x + y)
  else match b with
    | .checked => Run.fault .overflow
    | .wrapping => pure ((x + y) % (usizeMax + 1))

/-- `enum Associativity` (bin_expr.rs:6-9). -/
inductive Associativity where
  | left
  | right
  deriving DecidableEq, Repr

/-- `trait Operator` (bin_expr.rs:11-14). -/
class Operator (Op : Type) where
  precedence : Op → Nat
  associativity : Op → Associativity

export Operator (precedence associativity)

/-- `next_precedence` (bin_expr.rs:154-159). -/
def nextPrecedence {Op : Type} [Operator Op] (b : Build) (op : Op) : Run Nat :=
  match associativity op with
  | .left => usizeAdd b (precedence op) 1
  | .right => pure (precedence op)

variable {S T Op EOp ETerm Expr : Type}

/-- The inner loop of `parse_impl` (bin_expr.rs:127-144): pop and combine until `op` can be pushed. Returns the new stack
and the new `rhs`. `mk` is `From<(Expr, Op, Expr)>`. -/
def reduceFor [Operator Op] (b : Build) (mk : Expr → Op → Expr → Expr) (op : Op) (term : Expr) :
    List (Expr × Op) → Expr → Run (List (Expr × Op) × Expr)
  | [], rhs => pure ([(rhs, op)], term)
  | (lhs, lastOp) :: stack, rhs => do
    let prec ← nextPrecedence b lastOp
    if precedence op ≥ prec then return ((rhs, op) :: (lhs, lastOp) :: stack, term)
    else reduceFor b mk op term stack (mk lhs lastOp rhs)

/-- `while let Some((lhs, op)) = stack.pop()` (bin_expr.rs:147-149). -/
def reduceAll (mk : Expr → Op → Expr → Expr) : List (Expr × Op) → Expr → Expr
  | [], rhs => rhs
  | (lhs, op) :: stack, rhs => reduceAll mk stack (mk lhs op rhs)

/-- The reason `parse_impl` stopped (bin_expr.rs:86): an operator below the requested precedence with the anchor before
it, or an error. -/
abbrev StopReason (S Op EOp ETerm : Type) [RewindSequence S] :=
  Except (Either EOp ETerm) (Op × RewindSequence.Anchor S)

/-- The outer loop of `parse_impl` and its end (bin_expr.rs:101-151). -/
def binExprLoop [RewindSequence S] [Operator Op] [ParseError EOp] [ParseError ETerm] (b : Build)
    (parserTerm : S → Run (PResult S T ETerm)) (parserOp : S → Run (PResult S Op EOp))
    (mk : Expr → Op → Expr → Expr) (ofTerm : T → Expr) (prec : Nat)
    (stack : List (Expr × Op)) (rhs : Expr) (rest : S) :
    Run (PResult S (Expr × StopReason S Op EOp ETerm) (Either EOp ETerm)) := do
  let anchor := anchor rest
  match ← parserOp rest with
  | .ok op r =>
    if precedence op ≥ prec then
      match ← parserTerm r with
      | .ok term r =>
        let (stack, rhs) ← reduceFor b mk op (ofTerm term) stack rhs
        binExprLoop b parserTerm parserOp mk ofTerm prec stack rhs r
      | .err e r =>
        if ¬ shouldTerminate e then
          let rest ← r.rewind anchor
          return done (reduceAll mk stack rhs, .error (.last e)) rest
        else return fail (.last e) r
    else return done (reduceAll mk stack rhs, .ok (op, anchor)) r
  | .err e r =>
    if shouldTerminate e then return fail (.first e) r
    else
      let rest ← r.rewind anchor
      return done (reduceAll mk stack rhs, .error (.first e)) rest
partial_fixpoint

/-- `parse_impl` (bin_expr.rs:78-152). -/
def binExprImpl [RewindSequence S] [Operator Op] [ParseError EOp] [ParseError ETerm] (b : Build)
    (parserTerm : S → Run (PResult S T ETerm)) (parserOp : S → Run (PResult S Op EOp))
    (mk : Expr → Op → Expr → Expr) (ofTerm : T → Expr) (input : S) (prec : Nat) :
    Run (PResult S (Expr × StopReason S Op EOp ETerm) (Either EOp ETerm)) := do
  match ← parserTerm input with
  | .err e r => return .err (.last e) r
  | .ok rhs rest => binExprLoop b parserTerm parserOp mk ofTerm prec [] (ofTerm rhs) rest

/-- `BinExprParser` (bin_expr.rs): `parse` (52-58), `parse_once` (39-41). -/
def binExpr [RewindSequence S] [Operator Op] [ParseError EOp] [ParseError ETerm] (b : Build)
    (term : Parser S T ETerm) (op : Parser S Op EOp) (mk : Expr → Op → Expr → Expr) (ofTerm : T → Expr) :
    Parser S (Expr × Either EOp ETerm) (Either EOp ETerm) where
  parse input := do
    match ← binExprImpl b term.parse op.parse mk ofTerm input 0 with
    | .err e r => return .err e r
    | .ok (e, reason) rest =>
      match reason with
      | .error reason => return done (e, reason) rest
      | .ok _ => Run.fault .unreachable
  parseOnce input := do
    match ← binExprImpl b term.parse op.parse mk ofTerm input 0 with
    | .err e r => return .err e r
    | .ok (e, reason) rest =>
      match reason with
      | .error reason => return done (e, reason) rest
      | .ok _ => Run.fault .unreachable

end Parcom
