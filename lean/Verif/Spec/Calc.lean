import Verif.Model.Calc
import Verif.Spec.Sequence
/-!
# Texts of the calculator

What texts stand for what expressions, as the comment at the head of `example/src/bin_expr.rs` describes it
(`expr = expr op expr / term`, `term = integer / (expr)`), with operators surrounded by spaces, `*` and `/` binding tighter
than `+` and `-`, and operators of the same rank grouping to the left.
-/
namespace Parcom.Spec.Calc
open Parcom Parcom.Calc

/-- One or more spaces. -/
def Spaces (w : List Char) : Prop := w ≠ [] ∧ ∀ c ∈ w, c = ' '

/-- How an operator is written. -/
def symbol : Op → Char
  | .add => '+'
  | .sub => '-'
  | .mul => '*'
  | .div => '/'

/-- How tightly an operator binds. -/
def rank : Op → Nat
  | .add => 1
  | .sub => 1
  | .mul => 2
  | .div => 2

/-- How tightly an expression holds together. -/
def level : Expr → Nat
  | .binOp _ op _ => rank op
  | .term _ => 3

mutual
/-- The text stands for the term. -/
inductive TermText : Term → List Char → Prop where
  | integer {ds : List Char} {n : Nat} : ds ≠ [] → (∀ c ∈ ds, c.isDigit) → Nat.ofDigitChars 10 ds 0 = n → n ≤ usizeMax →
      TermText (.integer n) ds
  | parens {e : Expr} {w : List Char} : ExprText e w → TermText (.parenthesized e) ('(' :: w ++ [')'])
/-- The text stands for the expression. -/
inductive ExprText : Expr → List Char → Prop where
  | term {t : Term} {w : List Char} : TermText t w → ExprText (.term t) w
  | binOp {l r : Expr} {op : Op} {w w' sp sp' : List Char} : ExprText l w → ExprText r w' → Spaces sp → Spaces sp' →
      rank op ≤ level l → rank op < level r → ExprText (.binOp l op r) (w ++ sp ++ symbol op :: (sp' ++ w'))
end

/-- The expression with a pair of parentheses around each operation, and none besides. -/
def parens : Expr → Expr
  | .binOp l op r => .term (.parenthesized (.binOp (parens l) op (parens r)))
  | .term (.parenthesized e) => parens e
  | .term (.integer n) => .term (.integer n)

/-- All integers in the expression are `usize` values. -/
def Fits : Expr → Prop
  | .binOp l _ r => Fits l ∧ Fits r
  | .term (.parenthesized e) => Fits e
  | .term (.integer n) => n ≤ usizeMax

/-- The value of an expression in the integers, if no division by zero and no truncation gets in the way: each intermediate
result is a `usize`. -/
def value : Expr → Option Nat
  | .binOp l op r => do
    let x ← value l
    let y ← value r
    match op with
    | .add => if x + y ≤ usizeMax then some (x + y) else none
    | .sub => if y ≤ x then some (x - y) else none
    | .mul => if x * y ≤ usizeMax then some (x * y) else none
    | .div => if y = 0 then none else some (x / y)
  | .term (.parenthesized e) => value e
  | .term (.integer n) => some n

/-- The text has a char of more than one byte, or a number too large for `usize`. -/
def Hostile (cs : List Char) : Prop :=
  (∃ c ∈ cs, 1 < c.utf8Size) ∨
  (∃ l ds r, cs = l ++ ds ++ r ∧ (∀ c ∈ ds, c.isDigit = true) ∧ usizeMax < Nat.ofDigitChars 10 ds 0)

mutual
/-- After this text an operand is due, inside `k` parentheses. -/
inductive OperandNext : Nat → List Char → Prop where
  | start : OperandNext 0 []
  | opened {k : Nat} {p : List Char} : OperandNext k p → OperandNext (k + 1) (p ++ ['('])
  | operator {k : Nat} {o : Op} {p sp sp' : List Char} : OperandRead k p → Spaces sp → Spaces sp' →
      OperandNext k (p ++ sp ++ symbol o :: sp')
/-- This text ends with an operand, inside `k` parentheses. -/
inductive OperandRead : Nat → List Char → Prop where
  | operand {k : Nat} {t : Term} {p w : List Char} : OperandNext k p → TermText t w → OperandRead k (p ++ w)
end

/-- The text has a char of more than one byte where an operand or a closing parenthesis is due, or a number too large for
`usize` where an operand is due. -/
def Trap (cs : List Char) : Prop :=
  (∃ p c rest, cs = p ++ c :: rest ∧ 1 < c.utf8Size ∧ ((∃ k, OperandNext k p) ∨ ∃ k, 0 < k ∧ OperandRead k p)) ∨
  (∃ p ds rest, cs = p ++ ds ++ rest ∧ (∀ c ∈ ds, c.isDigit = true) ∧ ¬ (∃ c, rest.head? = some c ∧ c.isDigit = true) ∧
    usizeMax < Nat.ofDigitChars 10 ds 0 ∧ ∃ k, OperandNext k p)

/-- No empty segment lies before a char. -/
def NoGap (l : List Str) : Prop := ∀ l₁ x l₂, l = l₁ ++ x :: l₂ → x.chars = [] → l₂.flatMap (fun s => s.chars) = []

/-- Sequences whose segments have no gaps. -/
class Gapless (S : Type) [Sequence S Str] [LawfulSequence S] : Prop where
  noGap (s : S) : NoGap (segs s)

end Parcom.Spec.Calc
