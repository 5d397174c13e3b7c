import Verif.Model.Combinator
import Verif.Model.Primitive
import Verif.Model.BinExpr
import Verif.Model.Writer
/-!
# The calculator of the examples

`example/src/bin_expr.rs`. `expr` and `term` call each other; the recursion is a `partial_fixpoint` through the
combinators, so a call that never came back would be `Run.diverge`. Byte counts are natural numbers: `consumed_bytes`
overflows only on texts of more than `usize::MAX` bytes.
-/
namespace Parcom.Calc
open Sequence Lean.Order

/-- `enum Op` (bin_expr.rs:132-138). -/
inductive Op where
  | add
  | sub
  | mul
  | div
  deriving DecidableEq, Repr

/-- `impl Operator for Op` (bin_expr.rs:140-153). -/
instance : Operator Op where
  precedence
    | .add => 1
    | .sub => 1
    | .mul => 2
    | .div => 2
  associativity _ := .left

mutual
/-- `enum Expr` (bin_expr.rs:108-112). -/
inductive Expr where
  | binOp (l : Expr) (op : Op) (r : Expr)
  | term (t : Term)
  deriving DecidableEq, Repr
/-- `enum Term` (bin_expr.rs:126-130). -/
inductive Term where
  | parenthesized (e : Expr)
  | integer (n : Nat)
  deriving DecidableEq, Repr
end

variable {S : Type}

/-- The loop of `op` that finds the first char (bin_expr.rs:168-181). -/
def headLoop [Sequence S Str] (st : Stream S) : Run (Option Char × Stream S) := do
  match ← next st 0 with
  | (none, st) => return (none, st)
  | (some segment, st) =>
    match segment.chars.head? with
    | some c => return (some c, st)
    | none => headLoop st
partial_fixpoint

/-- `op` (bin_expr.rs:165-192). -/
def op [Sequence S Str] (input : S) : Run (PResult S Op (Miss Unit)) := do
  match ← headLoop (segments input) with
  | (none, st) => return failAt ⟨()⟩ (release st)
  | (some head, st) =>
    let input := release st
    let op : Option Op := match head with
      | '+' => some .add
      | '-' => some .sub
      | '*' => some .mul
      | '/' => some .div
      | _ => none
    match op with
    | none => return failAt ⟨()⟩ input
    | some op => return done op (← advance input head.utf8Size)

/-- `char::is_ascii_digit` of std. -/
def isAsciiDigit (c : Char) : Bool := '0' ≤ c ∧ c ≤ '9'

/-- `char_indices().take_while(digit).last()` of std: the last digit of the leading digits and its byte index. -/
def lastDigit (segment : Str) : Option (Nat × Char) :=
  let digits := segment.chars.takeWhile isAsciiDigit
  digits.getLast?.map fun c => (byteLen digits.dropLast, c)

/-- The loop of `integer` (bin_expr.rs:201-219): the digits collected and the bytes they take. -/
def integerLoop [Sequence S Str] (st : Stream S) (buf : List Char) (consumedBytes : Nat) :
    Run (List Char × Nat × Stream S) := do
  match ← next st 0 with
  | (none, st) => return (buf, consumedBytes, st)
  | (some segment, st) =>
    match lastDigit segment with
    | some (idx, c) =>
      let consumed := idx + c.utf8Size
      let consumedBytes := consumedBytes + consumed
      let buf := buf ++ (← strPrefix segment consumed).chars
      if consumed < byteLen segment.chars then return (buf, consumedBytes, st)
      else integerLoop st buf consumedBytes
    | none => return (buf, consumedBytes, st)
partial_fixpoint

/-- `usize::from_str_radix(buf, 10)` of std on a text of decimal digits: `checked_mul` and `checked_add` digit by digit,
`None` for the overflow error. -/
def fromDecimal : List Char → Nat → Option Nat
  | [], n => some n
  | c :: cs, n =>
    if n * 10 ≤ usizeMax ∧ n * 10 + (c.toNat - '0'.toNat) ≤ usizeMax then fromDecimal cs (n * 10 + (c.toNat - '0'.toNat))
    else none

/-- `integer` (bin_expr.rs:194-232). The `unwrap` panics on overflow. -/
def integer [Sequence S Str] (input : S) : Run (PResult S Nat (Miss Unit)) := do
  let (buf, consumedBytes, st) ← integerLoop (segments input) [] 0
  if consumedBytes = 0 then return failAt ⟨()⟩ (release st)
  else
    match fromDecimal buf 0 with
    | none => Run.fault .assertion
    | some n => return done n (← advance (release st) consumedBytes)

variable [Sequence S Str] [RewindSequence S]

/-- `space` (bin_expr.rs:155-163). -/
def space (input : S) : Run (PResult S Unit (Miss Unit)) :=
  ((theChar ' ').repeat.andThen (T := Unit) id
    (fun (v, _) => if v.isEmpty then .error ⟨()⟩ else .ok ())).parse input

/-- The operator parser of `expr` (bin_expr.rs:47). -/
def spacedOp : Parser S Op (Either (Either (Miss Unit) (Miss Unit)) (Miss Unit)) :=
  (((Parser.ofFn space).join (Parser.ofFn op)).join (Parser.ofFn space)).map fun ((_, op), _) => op

/-- The body of `expr` (bin_expr.rs:44-53), with the `term` it calls as an argument. -/
def exprOf (b : Build) (term : S → Run (PResult S Term (Miss Unit))) (input : S) : Run (PResult S Expr (Miss Unit)) :=
  (((binExpr b (Parser.ofFn term) spacedOp (fun l o r => Expr.binOp l o r) Expr.term).map fun (e, _) => e).mapErr
    fun _ => (⟨()⟩ : Miss Unit)).boxed.parse input

/-- The body of `term` (bin_expr.rs:56-68), with the `expr` it calls as an argument. -/
def termOf (expr : S → Run (PResult S Expr (Miss Unit))) (input : S) : Run (PResult S Term (Miss Unit)) :=
  ((((Parser.ofFn integer).or
      ((((atom (⟨['(']⟩ : Str)).join (Parser.ofFn expr)).join (atom (⟨[')']⟩ : Str))).map fun ((_, e), _) => e)).map
    fun e => match e with
      | .first n => Term.integer n
      | .last e => Term.parenthesized e).mapErr
    fun _ => (⟨()⟩ : Miss Unit)).parse input

/-! The recursion through the combinators is monotone: a `term` (`expr`) that comes back more often makes the whole come
back more often. -/

theorem le_iff {α : Type} {x y : Run α} : x ⊑ y ↔ x = Run.diverge ∨ x = y := by
  constructor
  · intro h
    cases h with
    | bot => exact .inl rfl
    | refl => exact .inr rfl
  · rintro (rfl | rfl)
    · exact FlatOrder.rel.bot
    · exact FlatOrder.rel.refl

theorem le_bind {α β : Type} {x y : Run α} {f g : α → Run β} (h : x ⊑ y) (h' : ∀ a, f a ⊑ g a) :
    (x >>= f) ⊑ (y >>= g) := by
  rw [le_iff] at h
  rcases h with rfl | rfl
  · exact le_iff.mpr (.inl rfl)
  · cases x using Run.casesRun with
    | ret a => simpa using h' a
    | fault e => exact le_iff.mpr (.inr rfl)
    | diverge => exact le_iff.mpr (.inl rfl)

omit [Sequence S Str] in
theorem le_binExprLoop {T O EOp ETerm E : Type} [Operator O] [ParseError EOp] [ParseError ETerm] (b : Build)
    {f g : S → Run (PResult S T ETerm)} (hf : ∀ s, f s ⊑ g s) (op : S → Run (PResult S O EOp)) (mk : E → O → E → E)
    (ofTerm : T → E) (prec : Nat) (stack : List (E × O)) (rhs : E) (rest : S) :
    binExprLoop b f op mk ofTerm prec stack rhs rest ⊑ binExprLoop b g op mk ofTerm prec stack rhs rest := by
  revert stack rhs rest
  refine binExprLoop.fixpoint_induct b f op mk ofTerm prec
    (fun h => ∀ stack rhs rest, h stack rhs rest ⊑ binExprLoop b g op mk ofTerm prec stack rhs rest) ?_ ?_
  · exact Run.admissible_fun₃ (fun stack rhs rest x => x ⊑ binExprLoop b g op mk ofTerm prec stack rhs rest)
      fun _ _ _ => le_iff.mpr (.inl rfl)
  · intro h ih stack rhs rest
    rw [binExprLoop]
    refine le_bind (le_iff.mpr (.inr rfl)) ?_
    rintro (⟨o, r⟩ | ⟨e, r⟩)
    · dsimp only
      by_cases hp : precedence o ≥ prec
      · rw [if_pos hp, if_pos hp]
        refine le_bind (hf r) ?_
        rintro (⟨t, r⟩ | ⟨e, r⟩)
        · exact le_bind (le_iff.mpr (.inr rfl)) fun _ => ih _ _ _
        · exact le_iff.mpr (.inr rfl)
      · rw [if_neg hp, if_neg hp]; exact le_iff.mpr (.inr rfl)
    · exact le_iff.mpr (.inr rfl)

theorem le_exprOf (b : Build) {f g : S → Run (PResult S Term (Miss Unit))} (hf : ∀ s, f s ⊑ g s) (input : S) :
    exprOf b f input ⊑ exprOf b g input := by
  refine le_bind (le_bind (le_bind ?_ fun _ => le_iff.mpr (.inr rfl)) fun _ => le_iff.mpr (.inr rfl))
    fun _ => le_iff.mpr (.inr rfl)
  refine le_bind (hf input) ?_
  rintro (⟨t, r⟩ | ⟨e, r⟩)
  · exact le_binExprLoop b hf _ _ _ _ _ _ _
  · exact le_iff.mpr (.inr rfl)

theorem le_termOf {f g : S → Run (PResult S Expr (Miss Unit))} (hf : ∀ s, f s ⊑ g s) (input : S) :
    termOf f input ⊑ termOf g input := by
  refine le_bind (le_bind (le_bind (le_iff.mpr (.inr rfl)) ?_) fun _ => le_iff.mpr (.inr rfl))
    fun _ => le_iff.mpr (.inr rfl)
  rintro (⟨t, r⟩ | ⟨e, r⟩)
  · exact le_iff.mpr (.inr rfl)
  · dsimp only
    split
    · refine le_bind (le_iff.mpr (.inr rfl)) fun s => ?_
      refine le_bind (le_bind (le_bind (le_bind (le_iff.mpr (.inr rfl)) ?_) fun _ => le_iff.mpr (.inr rfl))
        fun _ => le_iff.mpr (.inr rfl)) fun _ => le_iff.mpr (.inr rfl)
      rintro (⟨t, r⟩ | ⟨e, r⟩)
      · exact le_bind (hf r) fun _ => le_iff.mpr (.inr rfl)
      · exact le_iff.mpr (.inr rfl)
    · exact le_iff.mpr (.inr rfl)

@[partial_fixpoint_monotone]
theorem monotone_exprOf {γ : Sort _} [PartialOrder γ] (b : Build) (f : γ → S → Run (PResult S Term (Miss Unit)))
    (hf : monotone f) (input : S) : monotone fun x => exprOf b (f x) input :=
  fun x y h => le_exprOf b (hf x y h) input

@[partial_fixpoint_monotone]
theorem monotone_termOf {γ : Sort _} [PartialOrder γ] (f : γ → S → Run (PResult S Expr (Miss Unit)))
    (hf : monotone f) (input : S) : monotone fun x => termOf (f x) input :=
  fun x y h => le_termOf (hf x y h) input

mutual
/-- `expr` (bin_expr.rs:44-53). -/
def expr (b : Build) (input : S) : Run (PResult S Expr (Miss Unit)) := exprOf b (fun s => term b s) input
partial_fixpoint

/-- `term` (bin_expr.rs:56-68). -/
def term (b : Build) (input : S) : Run (PResult S Term (Miss Unit)) := termOf (fun s => expr b s) input
partial_fixpoint
end

mutual
/-- `display` (bin_expr.rs:70-87). A `String` is the list of its chars; `format!("{n}")` is `Nat.toDigits 10`. -/
def display : Expr → List Char
  | .binOp l op r =>
    let l := display l
    let r := display r
    match op with
    | .add => "(".toList ++ l ++ " + ".toList ++ r ++ ")".toList
    | .sub => "(".toList ++ l ++ " - ".toList ++ r ++ ")".toList
    | .mul => "(".toList ++ l ++ " * ".toList ++ r ++ ")".toList
    | .div => "(".toList ++ l ++ " / ".toList ++ r ++ ")".toList
  | .term t => displayTerm t
/-- The inner `match` of `display` (bin_expr.rs:82-85). -/
def displayTerm : Term → List Char
  | .parenthesized e => display e
  | .integer n => Nat.toDigits 10 n
end

/-- `usize` multiplication of std. -/
def usizeMul (b : Build) (x y : Nat) : Run Nat :=
  if x * y ≤ usizeMax then pure (x * y)
  else match b with
    | .checked => Run.fault .overflow
    | .wrapping => pure ((x * y) % (usizeMax + 1))

/-- `usize` division of std: it panics on a zero divisor in every build. -/
def usizeDiv (x y : Nat) : Run Nat := if y = 0 then Run.fault .assertion else pure (x / y)

mutual
/-- `eval` (bin_expr.rs:89-106). -/
def eval (b : Build) : Expr → Run Nat
  | .binOp l op r => do
    let l ← eval b l
    let r ← eval b r
    match op with
    | .add => usizeAdd b l r
    | .sub => usizeSub b l r
    | .mul => usizeMul b l r
    | .div => usizeDiv l r
  | .term t => evalTerm b t
/-- The inner `match` of `eval` (bin_expr.rs:101-104). -/
def evalTerm (b : Build) : Term → Run Nat
  | .parenthesized e => eval b e
  | .integer n => pure n
end

/-- What `main` does with an input (bin_expr.rs:25-38): the rendering and the value it prints, or `none` if the input is no
expression. Printing is left out. -/
def calculate (b : Build) (input : S) : Run (Option (List Char × Nat)) := do
  match ← expr b input with
  | .ok expr _ =>
    let v ← eval b expr
    return some (display expr, v)
  | .err _ _ => return none

end Parcom.Calc
