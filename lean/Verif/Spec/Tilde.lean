import Verif.Model.Tilde
import Verif.Spec.Sequence
/-!
# Texts of the unit tests of `bin_expr`

What texts stand for what expressions, as the comments in `bin_expr.rs:209, 221` describe it (`expr = expr op expr / term`,
`term = 0 / (expr)`), with operators surrounded by spaces, `*` and `/` binding tighter than `+` and `-`, and these tighter than
`~`. Operators of the same rank group to the left, and `~` to the right.
-/
namespace Parcom.Spec.Tilde
open Parcom Parcom.Tilde

/-- One or more spaces. -/
def Spaces (w : List Char) : Prop := w ≠ [] ∧ ∀ c ∈ w, c = ' '

/-- How an operator is written. -/
def symbol : Op → Char
  | .add => '+'
  | .sub => '-'
  | .mul => '*'
  | .div => '/'
  | .til => '~'

/-- How tightly an operator binds. -/
def rank : Op → Nat
  | .til => 1
  | .add => 2
  | .sub => 2
  | .mul => 3
  | .div => 3

/-- How tightly an expression holds together. -/
def level : Expr → Nat
  | .binOp _ op _ => rank op
  | .term _ => 4

/-- Whether the operator may have these operands without parentheses. -/
def Fits (l : Expr) : Op → Expr → Prop
  | .til, r => rank .til < level l ∧ rank .til ≤ level r
  | op, r => rank op ≤ level l ∧ rank op < level r

mutual
/-- The text stands for the term. -/
inductive TermText : Term → List Char → Prop where
  | zero : TermText .zero ['0']
  | parens {e : Expr} {w : List Char} : ExprText e w → TermText (.parenthesized e) ('(' :: w ++ [')'])
/-- The text stands for the expression. -/
inductive ExprText : Expr → List Char → Prop where
  | term {t : Term} {w : List Char} : TermText t w → ExprText (.term t) w
  | binOp {l r : Expr} {op : Op} {w w' sp sp' : List Char} : ExprText l w → ExprText r w' → Spaces sp → Spaces sp' →
      Fits l op r → ExprText (.binOp l op r) (w ++ sp ++ symbol op :: (sp' ++ w'))
end

mutual
/-- After this text an operand is due, inside `k` parentheses. -/
inductive OperandNext : Nat → List Char → Prop where
  | start : OperandNext 0 []
  | opened {k : Nat} {p : List Char} : OperandNext k p → OperandNext (k + 1) (p ++ ['('])
  | operator {k : Nat} {o : Op} {p sp sp' : List Char} : OperandRead k p → Spaces sp → Spaces sp' →
      OperandNext k (p ++ sp ++ symbol o :: sp')
/-- This text ends with an operand, inside `k` parentheses. -/
inductive OperandRead : Nat → List Char → Prop where
  | operand {k : Nat} {t : Term} {p w : List Char} : OperandNext k p → TermText t w → OperandRead k (p ++ w)
end

/-- The text has a char of more than one byte where an operand or a closing parenthesis is due. -/
def Trap (cs : List Char) : Prop :=
  ∃ p c rest, cs = p ++ c :: rest ∧ 1 < c.utf8Size ∧ ((∃ k, OperandNext k p) ∨ ∃ k, 0 < k ∧ OperandRead k p)

/-- `0 ~ 0 ~ … ~ 0` with `n` times `~`. -/
def tildes : Nat → Expr
  | 0 => .term .zero
  | n + 1 => .binOp (.term .zero) .til (tildes n)

end Parcom.Spec.Tilde
