import Verif.Model.Calc
/-!
# The grammar of the cache example

`example/src/cache.rs`: expressions over `0`. `expr` and `term` call each other, as in `Model/Calc.lean`.

Of `main` (cache.rs:20-78) only the inputs are modelled. The rest measures time and draws a chart. It drops each future `expr(input_str)` without
polling it (cache.rs:40), so what it measures is not parsing.
-/
namespace Parcom.Cache
open Sequence Lean.Order

/-- `enum Op` (cache.rs:133-139). -/
inductive Op where
  | add
  | sub
  | mul
  | div
  deriving DecidableEq, Repr

/-- `impl Operator for Op` (cache.rs:141-154). -/
instance : Operator Op where
  precedence
    | .add => 0
    | .sub => 0
    | .mul => 1
    | .div => 1
  associativity _ := .left

mutual
/-- `enum Expr` (cache.rs:107-112). A `Box` is what it holds. -/
inductive Expr where
  | binOp (l : Expr) (op : Op) (r : Expr)
  | term (t : Term)
  deriving DecidableEq, Repr
/-- `enum Term` (cache.rs:126-131). -/
inductive Term where
  | zero
  | parenthesized (e : Expr)
  deriving DecidableEq, Repr
end

/-- The input of depth `depth` (cache.rs:29-35). -/
def input (depth : Nat) : List Char := List.replicate depth '(' ++ ['0'] ++ List.replicate depth ')'

variable {S : Type}

/-- `op` (cache.rs:165-182). -/
def op [Sequence S Str] (input : S) : Run (PResult S Op (Miss Unit)) :=
  ((anyChar (S := S)).andThen (T := Op) id fun head =>
    match head with
    | '+' => .ok .add
    | '-' => .ok .sub
    | '*' => .ok .mul
    | '/' => .ok .div
    | _ => .error ⟨()⟩).parse input

/-- `zero` (cache.rs:184-188). -/
def zero [Sequence S Str] (input : S) : Run (PResult S Unit (Miss Unit)) := (theChar '0').parse input

variable [Sequence S Str] [RewindSequence S]

/-- `space` (cache.rs:155-163). -/
def space (input : S) : Run (PResult S Unit (Miss Unit)) :=
  ((theChar ' ').repeat.andThen (T := Unit) id
    (fun (v, _) => if v.isEmpty then .error ⟨()⟩ else .ok ())).parse input

/-- The operator parser of `expr` (cache.rs:85). -/
def spacedOp : Parser S Op (Either (Either (Miss Unit) (Miss Unit)) (Miss Unit)) :=
  (((Parser.ofFn space).join (Parser.ofFn op)).join (Parser.ofFn space)).map fun ((_, op), _) => op

/-- The body of `expr` (cache.rs:82-91), with the `term` it calls as an argument. -/
def exprOf (b : Build) (term : S → Run (PResult S Term (Miss Unit))) (input : S) : Run (PResult S Expr (Miss Unit)) :=
  (((binExpr b (Parser.ofFn term) spacedOp (fun l o r => Expr.binOp l o r) Expr.term).map fun (e, _) => e).mapErr
    fun _ => (⟨()⟩ : Miss Unit)).boxed.parse input

/-- The body of `term` (cache.rs:94-105), with the `expr` it calls as an argument. -/
def termOf (expr : S → Run (PResult S Expr (Miss Unit))) (input : S) : Run (PResult S Term (Miss Unit)) :=
  ((((Parser.ofFn zero).or
      ((((atom (⟨['(']⟩ : Str)).join (Parser.ofFn expr)).join (atom (⟨[')']⟩ : Str))).map fun ((_, e), _) => e)).map
    fun e => match e with
      | .first _ => Term.zero
      | .last e => Term.parenthesized e).mapErr
    fun _ => (⟨()⟩ : Miss Unit)).parse input

theorem le_exprOf (b : Build) {f g : S → Run (PResult S Term (Miss Unit))} (hf : ∀ s, f s ⊑ g s) (input : S) :
    exprOf b f input ⊑ exprOf b g input := by
  refine Calc.le_bind (Calc.le_bind (Calc.le_bind ?_ fun _ => Calc.le_iff.mpr (.inr rfl)) fun _ => Calc.le_iff.mpr (.inr rfl))
    fun _ => Calc.le_iff.mpr (.inr rfl)
  refine Calc.le_bind (hf input) ?_
  rintro (⟨t, r⟩ | ⟨e, r⟩)
  · exact Calc.le_binExprLoop b hf _ _ _ _ _ _ _
  · exact Calc.le_iff.mpr (.inr rfl)

theorem le_termOf {f g : S → Run (PResult S Expr (Miss Unit))} (hf : ∀ s, f s ⊑ g s) (input : S) :
    termOf f input ⊑ termOf g input := by
  refine Calc.le_bind (Calc.le_bind (Calc.le_bind (Calc.le_iff.mpr (.inr rfl)) ?_) fun _ => Calc.le_iff.mpr (.inr rfl))
    fun _ => Calc.le_iff.mpr (.inr rfl)
  rintro (⟨t, r⟩ | ⟨e, r⟩)
  · exact Calc.le_iff.mpr (.inr rfl)
  · dsimp only
    split
    · refine Calc.le_bind (Calc.le_iff.mpr (.inr rfl)) fun s => ?_
      refine Calc.le_bind (Calc.le_bind (Calc.le_bind (Calc.le_bind (Calc.le_iff.mpr (.inr rfl)) ?_)
        fun _ => Calc.le_iff.mpr (.inr rfl)) fun _ => Calc.le_iff.mpr (.inr rfl)) fun _ => Calc.le_iff.mpr (.inr rfl)
      rintro (⟨t, r⟩ | ⟨e, r⟩)
      · exact Calc.le_bind (hf r) fun _ => Calc.le_iff.mpr (.inr rfl)
      · exact Calc.le_iff.mpr (.inr rfl)
    · exact Calc.le_iff.mpr (.inr rfl)

@[partial_fixpoint_monotone]
theorem monotone_exprOf {γ : Sort _} [PartialOrder γ] (b : Build) (f : γ → S → Run (PResult S Term (Miss Unit)))
    (hf : monotone f) (input : S) : monotone fun x => exprOf b (f x) input :=
  fun x y h => le_exprOf b (hf x y h) input

@[partial_fixpoint_monotone]
theorem monotone_termOf {γ : Sort _} [PartialOrder γ] (f : γ → S → Run (PResult S Expr (Miss Unit)))
    (hf : monotone f) (input : S) : monotone fun x => termOf (f x) input :=
  fun x y h => le_termOf (hf x y h) input

mutual
/-- `expr` (cache.rs:82-91). -/
def expr (b : Build) (input : S) : Run (PResult S Expr (Miss Unit)) := exprOf b (fun s => term b s) input
partial_fixpoint

/-- `term` (cache.rs:94-105). -/
def term (b : Build) (input : S) : Run (PResult S Term (Miss Unit)) := termOf (fun s => expr b s) input
partial_fixpoint
end

end Parcom.Cache
