import Verif.Model.BinExprSteps
import Verif.Spec.Grouping
/-!
# Who owns what was read

The operands and operators that parsers returned are moved into expressions, and the expressions into larger ones. A list
of values accounts for what was read if each operand and operator is in exactly one place of one of them.
-/
namespace Parcom.Spec
open Parcom

variable {T Op Expr : Type}

/-- An operand or an operator. -/
inductive Token (T Op : Type) where
  | term (v : T)
  | op (o : Op)

/-- The tokens of a grouping, in order. -/
def BTree.tokens : BTree Op T → List (Token T Op)
  | .leaf t => [.term t]
  | .node l o r => l.tokens ++ .op o :: r.tokens

/-- The tokens in a value, where expressions are how they were made. -/
def tokensOf : BinVal T Op (BTree Op T) → List (Token T Op)
  | .term v => [.term v]
  | .op o => [.op o]
  | .expr t => t.tokens

/-- The value, given how to make expressions. -/
def made (mk : Expr → Op → Expr → Expr) (ofTerm : T → Expr) : BinVal T Op (BTree Op T) → BinVal T Op Expr
  | .term v => .term v
  | .op o => .op o
  | .expr t => .expr (t.eval mk ofTerm)

/-- The values are made of the tokens, each used exactly once. -/
def Accounts (mk : Expr → Op → Expr → Expr) (ofTerm : T → Expr) (vals : List (BinVal T Op Expr))
    (read : List (Token T Op)) : Prop :=
  ∃ xs : List (BinVal T Op (BTree Op T)), (xs.map (made mk ofTerm)).Perm vals ∧ (xs.flatMap tokensOf).Perm read

/-- What was read. -/
def reads : List (BinEvent T Op Expr) → List (Token T Op)
  | [] => []
  | .readTerm v :: evs => .term v :: reads evs
  | .readOp o :: evs => .op o :: reads evs
  | .dropped _ :: evs => reads evs

/-- What was dropped. -/
def drops : List (BinEvent T Op Expr) → List (BinVal T Op Expr)
  | [] => []
  | .dropped x :: evs => x :: drops evs
  | .readTerm _ :: evs => drops evs
  | .readOp _ :: evs => drops evs

/-- What a result of `parse_impl` holds. -/
def heldBy {S EOp ETerm : Type} [RewindSequence S] :
    PResult S (Expr × StopReason S Op EOp ETerm) (Either EOp ETerm) → List (BinVal T Op Expr)
  | .ok (e, .ok (o, _)) _ => [.expr e, .op o]
  | .ok (e, .error _) _ => [.expr e]
  | .err _ _ => []

end Parcom.Spec
