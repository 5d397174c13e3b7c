import Verif.Spec.Calc
/-!
# How deep an expression is
-/
namespace Parcom.Spec.Calc
open Parcom Parcom.Calc

/-- How many expressions lie inside one another, the whole included. -/
def height : Expr → Nat
  | .binOp l _ r => max (height l) (height r) + 1
  | .term (.parenthesized e) => height e + 1
  | .term (.integer _) => 1

/-- How many parentheses lie inside one another. -/
def nesting : Expr → Nat
  | .binOp l _ r => max (nesting l) (nesting r)
  | .term (.parenthesized e) => nesting e + 1
  | .term (.integer _) => 0

/-- Somewhere in the text an operand is due inside `n` parentheses. -/
def Reaches (n : Nat) (cs : List Char) : Prop := ∃ p rest, cs = p ++ rest ∧ OperandNext n p

/-- Somewhere in the text an expression of which more than `d` lie inside one another stands behind an opening parenthesis, and no
closing one behind it: the longest expression there is `w`, and parsing it does not panic. -/
def Spills (d : Nat) (cs : List Char) : Prop := ∃ k p w rest e, cs = p ++ '(' :: (w ++ rest) ∧ OperandNext k p ∧ ExprText e w ∧
  (∀ e' w' rest', w ++ rest = w' ++ rest' → ExprText e' w' → w'.length ≤ w.length) ∧ ¬ Trap (w ++ rest) ∧
  (∀ c, rest.head? = some c → c ≠ ')' ∧ c.utf8Size ≤ 1) ∧ d < height e

/-- `1 + 1 + ... + 1` with `n` operators. -/
def ones : Nat → List Char
  | 0 => ['1']
  | n + 1 => ones n ++ [' ', '+', ' ', '1']

end Parcom.Spec.Calc
