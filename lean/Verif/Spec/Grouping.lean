import Verif.Spec.Parsing
import Verif.Model.BinExpr
/-!
# Expressions with binary operators

An unparenthesised expression is a first operand followed by pairs of an operator and an operand. A way to group it is a
binary tree that, read in order, gives this list back.
-/
namespace Parcom.Spec
open Parcom

variable {S T Op EOp ETerm Expr : Type}

/-- Groupings. -/
inductive BTree (Op T : Type) where
  | leaf (t : T)
  | node (l : BTree Op T) (op : Op) (r : BTree Op T)
  deriving DecidableEq

namespace BTree

/-- The first operand, reading in order. -/
def first : BTree Op T → T
  | leaf t => t
  | node l _ _ => l.first

/-- What follows the first operand, reading in order. -/
def tail : BTree Op T → List (Op × T)
  | leaf _ => []
  | node l op r => l.tail ++ (op, r.first) :: r.tail

/-- The operators down the left edge: those that compete with an operator to the left of the tree for its first operand. -/
def leftEdge : BTree Op T → List Op
  | leaf _ => []
  | node l op _ => op :: l.leftEdge

/-- The operators down the right edge: those that compete with an operator to the right of the tree for its last operand. -/
def rightEdge : BTree Op T → List Op
  | leaf _ => []
  | node _ op r => op :: r.rightEdge

/-- The operators down the right edge with their left operands. -/
def spine : BTree Op T → List (BTree Op T × Op)
  | leaf _ => []
  | node l op r => (l, op) :: r.spine

/-- All operators. -/
def ops : BTree Op T → List Op
  | leaf _ => []
  | node l op r => l.ops ++ op :: r.ops

/-- The value of a grouping, given how to make expressions. -/
def eval (mk : Expr → Op → Expr → Expr) (ofTerm : T → Expr) : BTree Op T → Expr
  | leaf t => ofTerm t
  | node l op r => mk (l.eval mk ofTerm) op (r.eval mk ofTerm)

/-- Between the operators of a grouping that compete for an operand, the one that takes it is the one `takesLeft` says:
`takesLeft o₁ o₂` says that in `a o₁ b o₂ c` the operand `b` goes to `o₁`. -/
def Grouped (takesLeft : Op → Op → Prop) : BTree Op T → Prop
  | leaf _ => True
  | node l op r => l.Grouped takesLeft ∧ r.Grouped takesLeft ∧
      (∀ o ∈ l.rightEdge, takesLeft o op) ∧ (∀ o ∈ r.leftEdge, ¬ takesLeft op o)

end BTree

/-- The declared grouping: higher precedence binds tighter, equal precedence follows the associativity of the operator
that comes first. -/
def Declared [Operator Op] (o₁ o₂ : Op) : Prop :=
  precedence o₂ < precedence o₁ ∨ (precedence o₁ = precedence o₂ ∧ associativity o₁ = .left)

/-- From `s`, the parsers for operators and operands succeed in turn with these values, ending at `t`. -/
inductive Chain (term : S → Run (PResult S T ETerm)) (op : S → Run (PResult S Op EOp)) :
    S → List (Op × T) → S → Prop where
  | nil (s : S) : Chain term op s [] s
  | cons {s r s' t : S} {o : Op} {v : T} {ps : List (Op × T)} : op s = pure (.ok o r) → term r = pure (.ok v s') →
      Chain term op s' ps t → Chain term op s ((o, v) :: ps) t

/-- At `s` there is no further operator with operand, for this reason. -/
inductive NoMore [ParseError EOp] [ParseError ETerm] (term : S → Run (PResult S T ETerm))
    (op : S → Run (PResult S Op EOp)) (s : S) : Either EOp ETerm → Prop where
  | op {e : EOp} {u : UnknownLocation S} : op s = pure (.err e u) → shouldTerminate e = false →
      NoMore term op s (.first e)
  | term {o : Op} {r : S} {e : ETerm} {u : UnknownLocation S} : op s = pure (.ok o r) → term r = pure (.err e u) →
      shouldTerminate e = false → NoMore term op s (.last e)

/-- Looking for a further operator with operand at `s` fails fatally. -/
inductive Breaks [ParseError EOp] [ParseError ETerm] (term : S → Run (PResult S T ETerm))
    (op : S → Run (PResult S Op EOp)) (s : S) : Either EOp ETerm → UnknownLocation S → Prop where
  | op {e : EOp} {u : UnknownLocation S} : op s = pure (.err e u) → shouldTerminate e = true →
      Breaks term op s (.first e) u
  | term {o : Op} {r : S} {e : ETerm} {u : UnknownLocation S} : op s = pure (.ok o r) → term r = pure (.err e u) →
      shouldTerminate e = true → Breaks term op s (.last e) u

end Parcom.Spec
