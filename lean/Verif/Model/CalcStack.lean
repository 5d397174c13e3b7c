import Verif.Model.Calc
/-!
# The stack of the calculator

`example/src/bin_expr.rs` with a limit on how many calls of one function may be under way inside one another. The call over
the limit is `Fault.abort`: a thread that runs out of stack takes the process down. How many bytes a call takes is left out,
and so are the calls the recursive functions make besides calling themselves. Rust's futures are not on the stack while they
wait, but `expr` is polled by `term` and `term` by `expr`, so the calls of `poll` nest as the calls of the functions do.
-/
namespace Parcom.Calc
open Sequence

/-- `display` (bin_expr.rs:70-87) with room for `n` calls. -/
def displayIn : Nat → Expr → Run (List Char)
  | 0, _ => Run.fault .abort
  | n + 1, .binOp l op r => do
    let l ← displayIn n l
    let r ← displayIn n r
    match op with
    | .add => return "(".toList ++ l ++ " + ".toList ++ r ++ ")".toList
    | .sub => return "(".toList ++ l ++ " - ".toList ++ r ++ ")".toList
    | .mul => return "(".toList ++ l ++ " * ".toList ++ r ++ ")".toList
    | .div => return "(".toList ++ l ++ " / ".toList ++ r ++ ")".toList
  | n + 1, .term (.parenthesized e) => displayIn n e
  | _ + 1, .term (.integer n) => return Nat.toDigits 10 n

/-- `eval` (bin_expr.rs:89-106) with room for `n` calls. -/
def evalIn (b : Build) : Nat → Expr → Run Nat
  | 0, _ => Run.fault .abort
  | n + 1, .binOp l op r => do
    let l ← evalIn b n l
    let r ← evalIn b n r
    match op with
    | .add => usizeAdd b l r
    | .sub => usizeSub b l r
    | .mul => usizeMul b l r
    | .div => usizeDiv l r
  | n + 1, .term (.parenthesized e) => evalIn b n e
  | _ + 1, .term (.integer n) => pure n

/-- What the compiler makes of dropping an `Expr` (bin_expr.rs:108-112, 126-130), with room for `n` calls: the fields in
order, the `Box`es with what is in them. -/
def dropIn : Nat → Expr → Run Unit
  | 0, _ => Run.fault .abort
  | n + 1, .binOp l _ r => do
    dropIn n l
    dropIn n r
  | n + 1, .term (.parenthesized e) => dropIn n e
  | _ + 1, .term (.integer _) => pure ()

section
variable {S : Type} [Sequence S Str] [RewindSequence S]

/-- `Join::parse` (join.rs:43-57) with the destructor it runs: if the second parser misses, the output of the first is dropped.
What is dropped when a parser panics is left out. -/
def _root_.Parcom.Parser.joinDropping {S O₀ O₁ E₀ E₁ : Type} (p₀ : Parser S O₀ E₀) (p₁ : Parser S O₁ E₁) (drop : O₀ → Run Unit)
    (input : S) : Run (PResult S (O₀ × O₁) (Either E₀ E₁)) := do
  match ← p₀.parse input with
  | .err e r => return .err (.first e) r
  | .ok item0 rest =>
    match ← p₁.parse rest with
    | .err e r =>
      drop item0
      return .err (.last e) r
    | .ok item1 rest => return done (item0, item1) rest

/-- `term` (bin_expr.rs:56-68) with the `expr` it calls as an argument, and room for `d` calls of the destructor of `Expr`: an
expression which no closing parenthesis follows is dropped. -/
def termIn (d : Nat) (expr : S → Run (PResult S Expr (Miss Unit))) (input : S) : Run (PResult S Term (Miss Unit)) :=
  ((((Parser.ofFn integer).or
      ((Parser.ofFn (Parser.joinDropping ((atom (⟨['(']⟩ : Str)).join (Parser.ofFn expr)) (atom (⟨[')']⟩ : Str))
        fun (_, e) => dropIn d e)).map fun ((_, e), _) => e)).map
    fun e => match e with
      | .first n => Term.integer n
      | .last e => Term.parenthesized e).mapErr
    fun _ => (⟨()⟩ : Miss Unit)).parse input

/-- `expr` (bin_expr.rs:44-53) with room for `n` calls of `expr`, and the `term` it calls (bin_expr.rs:56-68), with room for `d`
calls of the destructor of `Expr`. -/
def exprIn (b : Build) (d : Nat) : Nat → S → Run (PResult S Expr (Miss Unit))
  | 0, _ => Run.fault .abort
  | n + 1, input => exprOf b (fun s => termIn d (exprIn b d n) s) input

end

/-- `calculate`, what `main` does with an input (bin_expr.rs:25-38), with room for `n` calls of each function: `display` runs
before `eval` (bin_expr.rs:36), and the expression is dropped at the end. -/
def calculateIn {S : Type} [Sequence S Str] [RewindSequence S] (b : Build) (n : Nat) (input : S) :
    Run (Option (List Char × Nat)) := do
  match ← exprIn b n n input with
  | .ok expr _ =>
    let d ← displayIn n expr
    let v ← evalIn b n expr
    dropIn n expr
    return some (d, v)
  | .err _ _ => return none

end Parcom.Calc
