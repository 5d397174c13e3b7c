import Verif.Model.Reactive
import Verif.Model.Errors
/-!
# Observers, futures and error types: what they should do
-/
namespace Parcom.Spec
open Parcom

/-- The observer is given the items, one after the other. -/
def feed {T σ : Type} (o : IObserver T σ) : List T → σ → Run σ
  | [], s => pure s
  | x :: xs, s => do
    let s ← o.next x s
    feed o xs s

/-- The observable gives these items to whoever subscribes. -/
def Emits {T : Type} (o : IObservable T) (xs : List T) : Prop :=
  ∀ {σ : Type} (obs : IObserver T σ) (s : σ), o.subscribe obs s = feed obs xs s

/-- Polling until ready, giving up after `n` polls: the output, and how many polls came back pending. -/
inductive Resolves {σ α : Type} (f : Future σ α) : σ → Nat → α → σ → Prop where
  | now {s s' : σ} {a : α} : f.poll s = Run.ret (.ready a, s') → Resolves f s 0 a s'
  | later {s s₁ s' : σ} {n : Nat} {a : α} : f.poll s = Run.ret (.pending, s₁) → Resolves f s₁ n a s' →
      Resolves f s (n + 1) a s'

/-- The error types of the crates, over any error types of the user. -/
inductive ErrTy : Type 1 where
  | user (E : Type) (terminates : E → Bool)
  | never
  | miss (E : Type)
  | fatal (E : Type)
  | option (t : ErrTy)
  | either (a b : ErrTy)
  | eitherBoth (a b : ErrTy)

/-- Their values. -/
def ErrTy.den : ErrTy → Type
  | .user E _ => E
  | .never => Never
  | .miss E => Miss E
  | .fatal E => Fatal E
  | .option t => Option t.den
  | .either a b => Either a.den b.den
  | .eitherBoth a b => EitherBoth a.den b.den

/-- The implementation of `ParseError` Rust selects. -/
@[instance_reducible] def ErrTy.impl : (t : ErrTy) → ParseError t.den
  | .user _ f => ⟨f⟩
  | .never => inferInstanceAs (ParseError Never)
  | .miss E => inferInstanceAs (ParseError (Miss E))
  | .fatal E => inferInstanceAs (ParseError (Fatal E))
  | .option t => letI := t.impl; inferInstanceAs (ParseError (Option t.den))
  | .either a b => letI := a.impl; letI := b.impl; inferInstanceAs (ParseError (Either a.den b.den))
  | .eitherBoth a b => letI := a.impl; letI := b.impl; inferInstanceAs (ParseError (EitherBoth a.den b.den))

/-- The error contains something that terminates: a `Fatal`, or a user's error that says so. What is inside a `Miss` or a
`Fatal` does not matter. -/
inductive Terminating : (t : ErrTy) → t.den → Prop where
  | user {E : Type} {f : E → Bool} {e : E} : f e = true → Terminating (.user E f) e
  | fatal {E : Type} (e : Fatal E) : Terminating (.fatal E) e
  | option {t : ErrTy} {e : t.den} : Terminating t e → Terminating (.option t) (some e)
  | eitherFirst {a b : ErrTy} {e : a.den} : Terminating a e → Terminating (.either a b) (Either.first e)
  | eitherLast {a b : ErrTy} {e : b.den} : Terminating b e → Terminating (.either a b) (Either.last e)
  | bothFirst {a b : ErrTy} {e : a.den} : Terminating a e → Terminating (.eitherBoth a b) (EitherBoth.first e)
  | bothLast {a b : ErrTy} {e : b.den} : Terminating b e → Terminating (.eitherBoth a b) (EitherBoth.last e)
  | bothLeft {a b : ErrTy} {e : a.den} (e' : b.den) : Terminating a e → Terminating (.eitherBoth a b) (EitherBoth.both e e')
  | bothRight {a b : ErrTy} (e : a.den) {e' : b.den} : Terminating b e' → Terminating (.eitherBoth a b) (EitherBoth.both e e')

/-- The types for which `ShouldNever` is implemented. -/
inductive NeverTy where
  | never
  | result (t e : NeverTy)
  | array (t : NeverTy) (n : Nat)
  | either (a b : NeverTy)
  | eitherBoth (a b : NeverTy)

/-- Their values. -/
def NeverTy.den : NeverTy → Type
  | .never => Never
  | .result t e => Except e.den t.den
  | .array t n => Vector t.den n
  | .either a b => Either a.den b.den
  | .eitherBoth a b => EitherBoth a.den b.den

/-- A value can be built from nothing: somewhere there is an array of length 0, and everything needed around it is there.
-/
def NeverTy.constructible : NeverTy → Bool
  | .never => false
  | .result t e => t.constructible || e.constructible
  | .array t n => n = 0 || t.constructible
  | .either a b => a.constructible || b.constructible
  | .eitherBoth a b => a.constructible || b.constructible

/-- No array of length 0 occurs in the type. -/
def NeverTy.noEmptyArray : NeverTy → Bool
  | .never => true
  | .result t e => t.noEmptyArray && e.noEmptyArray
  | .array t n => n ≠ 0 && t.noEmptyArray
  | .either a b => a.noEmptyArray && b.noEmptyArray
  | .eitherBoth a b => a.noEmptyArray && b.noEmptyArray

end Parcom.Spec
