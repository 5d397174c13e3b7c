import Verif.Model.Calc
/-!
# The grammar of the unit tests of `bin_expr`

`parcom-parsers/src/combinator/bin_expr.rs:160-330`: expressions over `0` with four operators that group to the left, and `~`,
which groups to the right and binds least. `expr` and `term` call each other, as in `Model/Calc.lean`.
-/
namespace Parcom.Tilde
open Sequence Lean.Order

/-- `enum Op` (bin_expr.rs:261-268). -/
inductive Op where
  | add
  | sub
  | mul
  | div
  | til
  deriving DecidableEq, Repr

/-- `impl Operator for Op` (bin_expr.rs:270-287). -/
instance : Operator Op where
  precedence
    | .add => 1
    | .sub => 1
    | .mul => 2
    | .div => 2
    | .til => 0
  associativity
    | .til => .right
    | _ => .left

mutual
/-- `enum Expr` (bin_expr.rs:235-240). A `Box` is what it holds. -/
inductive Expr where
  | binOp (l : Expr) (op : Op) (r : Expr)
  | term (t : Term)
  deriving DecidableEq, Repr
/-- `enum Term` (bin_expr.rs:254-259). -/
inductive Term where
  | zero
  | parenthesized (e : Expr)
  deriving DecidableEq, Repr
end

/-- The text of `n` times ` ~ 0` (bin_expr.rs:175, 194). -/
def moreZeros : Nat → List Char
  | 0 => []
  | n + 1 => ' ' :: '~' :: ' ' :: '0' :: moreZeros n

/-- The input of the first test, with `n` for 8192 (bin_expr.rs:173-177). -/
def input (n : Nat) : List Char := '0' :: moreZeros n

/-- The input of the second test, with `n` for 8192 (bin_expr.rs:192-197). -/
def inputLeft (n : Nat) : List Char := input n ++ [' ', '~', ' ', '@', '@', '@']

variable {S : Type}

/-- `op` (bin_expr.rs:305-323). -/
def op [Sequence S Str] (input : S) : Run (PResult S Op (Miss Unit)) :=
  ((anyChar (S := S)).andThen (T := Op) id fun head =>
    match head with
    | '+' => .ok .add
    | '-' => .ok .sub
    | '*' => .ok .mul
    | '/' => .ok .div
    | '~' => .ok .til
    | _ => .error ⟨()⟩).parse input

/-- `zero` (bin_expr.rs:325-329). -/
def zero [Sequence S Str] (input : S) : Run (PResult S Unit (Miss Unit)) := (atom (⟨['0']⟩ : Str)).parse input

variable [Sequence S Str] [RewindSequence S]

/-- `space` (bin_expr.rs:289-303). -/
def space (input : S) : Run (PResult S Unit (Miss Unit)) :=
  ((theChar ' ').repeat.andThen (T := Unit) id
    (fun (v, _) => if v.isEmpty then .error ⟨()⟩ else .ok ())).parse input

/-- The operator parser of `expr` (bin_expr.rs:213). -/
def spacedOp : Parser S Op (Either (Either (Miss Unit) (Miss Unit)) (Miss Unit)) :=
  (((Parser.ofFn space).join (Parser.ofFn op)).join (Parser.ofFn space)).map fun ((_, op), _) => op

/-- The body of `expr` (bin_expr.rs:210-219), with the `term` it calls as an argument. -/
def exprOf (b : Build) (term : S → Run (PResult S Term (Miss Unit))) (input : S) : Run (PResult S Expr (Miss Unit)) :=
  (((binExpr b (Parser.ofFn term) spacedOp (fun l o r => Expr.binOp l o r) Expr.term).map fun (e, _) => e).mapErr
    fun _ => (⟨()⟩ : Miss Unit)).boxed.parse input

/-- The body of `term` (bin_expr.rs:222-233), with the `expr` it calls as an argument. -/
def termOf (expr : S → Run (PResult S Expr (Miss Unit))) (input : S) : Run (PResult S Term (Miss Unit)) :=
  ((((Parser.ofFn zero).or
      ((((atom (⟨['(']⟩ : Str)).join (Parser.ofFn expr)).join (atom (⟨[')']⟩ : Str))).map fun ((_, e), _) => e)).map
    fun e => match e with
      | .first _ => Term.zero
      | .last e => Term.parenthesized e).mapErr
    fun _ => (⟨()⟩ : Miss Unit)).parse input

theorem le_exprOf (b : Build) {f g : S → Run (PResult S Term (Miss Unit))} (hf : ∀ s, f s ⊑ g s) (input : S) :
    exprOf b f input ⊑ exprOf b g input := by
  refine Calc.le_bind (Calc.le_bind (Calc.le_bind ?_ fun _ => Calc.le_iff.mpr (.inr rfl)) fun _ => Calc.le_iff.mpr (.inr rfl))
    fun _ => Calc.le_iff.mpr (.inr rfl)
  refine Calc.le_bind (hf input) ?_
  rintro (⟨t, r⟩ | ⟨e, r⟩)
  · exact Calc.le_binExprLoop b hf _ _ _ _ _ _ _
  · exact Calc.le_iff.mpr (.inr rfl)

theorem le_termOf {f g : S → Run (PResult S Expr (Miss Unit))} (hf : ∀ s, f s ⊑ g s) (input : S) :
    termOf f input ⊑ termOf g input := by
  refine Calc.le_bind (Calc.le_bind (Calc.le_bind (Calc.le_iff.mpr (.inr rfl)) ?_) fun _ => Calc.le_iff.mpr (.inr rfl))
    fun _ => Calc.le_iff.mpr (.inr rfl)
  rintro (⟨t, r⟩ | ⟨e, r⟩)
  · exact Calc.le_iff.mpr (.inr rfl)
  · dsimp only
    split
    · refine Calc.le_bind (Calc.le_iff.mpr (.inr rfl)) fun s => ?_
      refine Calc.le_bind (Calc.le_bind (Calc.le_bind (Calc.le_bind (Calc.le_iff.mpr (.inr rfl)) ?_)
        fun _ => Calc.le_iff.mpr (.inr rfl)) fun _ => Calc.le_iff.mpr (.inr rfl)) fun _ => Calc.le_iff.mpr (.inr rfl)
      rintro (⟨t, r⟩ | ⟨e, r⟩)
      · exact Calc.le_bind (hf r) fun _ => Calc.le_iff.mpr (.inr rfl)
      · exact Calc.le_iff.mpr (.inr rfl)
    · exact Calc.le_iff.mpr (.inr rfl)

@[partial_fixpoint_monotone]
theorem monotone_exprOf {γ : Sort _} [PartialOrder γ] (b : Build) (f : γ → S → Run (PResult S Term (Miss Unit)))
    (hf : monotone f) (input : S) : monotone fun x => exprOf b (f x) input :=
  fun x y h => le_exprOf b (hf x y h) input

@[partial_fixpoint_monotone]
theorem monotone_termOf {γ : Sort _} [PartialOrder γ] (f : γ → S → Run (PResult S Expr (Miss Unit)))
    (hf : monotone f) (input : S) : monotone fun x => termOf (f x) input :=
  fun x y h => le_termOf (hf x y h) input

mutual
/-- `expr` (bin_expr.rs:210-219). -/
def expr (b : Build) (input : S) : Run (PResult S Expr (Miss Unit)) := exprOf b (fun s => term b s) input
partial_fixpoint

/-- `term` (bin_expr.rs:222-233). -/
def term (b : Build) (input : S) : Run (PResult S Term (Miss Unit)) := termOf (fun s => expr b s) input
partial_fixpoint
end

end Parcom.Tilde
