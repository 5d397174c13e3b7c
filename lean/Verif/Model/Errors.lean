import Verif.Model.Prelude
/-!
# Error types

`crates/parcom-core/src/parse_error.rs`, `crates/parcom-core/src/never.rs`, `crates/parcom-util/src/error.rs`,
`crates/parcom-util/src/either.rs`, `crates/parcom-util/src/either_both.rs`.
-/
namespace Parcom

/-- `trait ParseError` (parcom-core/src/parse_error.rs:1-3). -/
class ParseError (E : Type) where
  shouldTerminate : E → Bool

export ParseError (shouldTerminate)

/-- `impl ParseError for Option<T>` (parcom-core/src/parse_error.rs:11-18). The impl for `&T` (5-9) is the identity
here, since a shared reference is modelled by the value it points to. -/
instance {E : Type} [ParseError E] : ParseError (Option E) where
  shouldTerminate
    | some v => shouldTerminate v
    | none => false

/-- `struct Fatal<E>(pub E)` (parcom-util/src/error.rs:3-4). -/
structure Fatal (E : Type) where
  val : E
  deriving DecidableEq, Repr

/-- `impl ParseError for Fatal<E>` (parcom-util/src/error.rs:6-10). -/
instance {E : Type} : ParseError (Fatal E) where
  shouldTerminate _ := true

/-- `struct Miss<E>(pub E)` (parcom-util/src/error.rs:18-19). -/
structure Miss (E : Type) where
  val : E
  deriving DecidableEq, Repr

/-- `impl ParseError for Miss<E>` (parcom-util/src/error.rs:21-25). -/
instance {E : Type} : ParseError (Miss E) where
  shouldTerminate _ := false

/-- `enum Never {}` (parcom-core/src/never.rs:5-6). -/
inductive Never : Type

/-- `impl ParseError for Never` (parcom-core/src/never.rs:42-46). There is no value to apply it to. -/
instance : ParseError Never where
  shouldTerminate n := nomatch n

/-- `enum Either<T0, T1>` (parcom-util/src/either.rs:4-8). -/
inductive Either (A B : Type) where
  | first (a : A)
  | last (b : B)
  deriving DecidableEq, Repr

/-- `impl ParseError for Either` (parcom-util/src/either.rs:73-80). -/
instance {A B : Type} [ParseError A] [ParseError B] : ParseError (Either A B) where
  shouldTerminate
    | .first e => shouldTerminate e
    | .last e => shouldTerminate e

/-- `enum EitherBoth<T0, T1>` (parcom-util/src/either_both.rs:3-8). -/
inductive EitherBoth (A B : Type) where
  | first (a : A)
  | last (b : B)
  | both (a : A) (b : B)
  deriving DecidableEq, Repr

/-- `impl ParseError for EitherBoth` (parcom-util/src/either_both.rs:36-44). -/
instance {A B : Type} [ParseError A] [ParseError B] : ParseError (EitherBoth A B) where
  shouldTerminate
    | .first e => shouldTerminate e
    | .last e => shouldTerminate e
    | .both e0 e1 => shouldTerminate e0 || shouldTerminate e1

/-- The types for which `unsafe trait ShouldNever` is implemented: `Never` (never.rs:7), `Result<T, E>` (never.rs:9),
`[T; N]` (never.rs:10), `Either` (either.rs:71), `EitherBoth` (either_both.rs:34). -/
inductive ShouldNever : Type → Prop where
  | never : ShouldNever Never
  | result {T E : Type} : ShouldNever T → ShouldNever E → ShouldNever (Except E T)
  | array {T : Type} (n : Nat) : ShouldNever T → ShouldNever (Vector T n)
  | either {A B : Type} : ShouldNever A → ShouldNever B → ShouldNever (Either A B)
  | eitherBoth {A B : Type} : ShouldNever A → ShouldNever B → ShouldNever (EitherBoth A B)

/-- `ShouldNeverExtension::never` (parcom-core/src/never.rs:12-19): `unreachable!`. -/
def never {T α : Type} (_ : T) : Run α := Run.fault .unreachable

namespace Either
variable {A B T : Type}

/-- `Either::unwrap_first` (either.rs:11-24). -/
def unwrapFirst : Either A B → Run A
  | .first e => pure e
  | .last _ => Run.fault .assertion

/-- `Either::unwrap_last` (either.rs:26-37). -/
def unwrapLast : Either A B → Run B
  | .first _ => Run.fault .assertion
  | .last e => pure e

/-- `Either::always_first` (either.rs:39-47). -/
def alwaysFirst (_ : ShouldNever B) : Either A B → Run A
  | .first e => pure e
  | .last e => never e

/-- `Either::always_last` (either.rs:49-57). -/
def alwaysLast (_ : ShouldNever A) : Either A B → Run B
  | .first e => never e
  | .last e => pure e

/-- `Either::unify` (either.rs:59-68); the two `Into` conversions are parameters. -/
def unify (into0 : A → T) (into1 : B → T) : Either A B → T
  | .first e => into0 e
  | .last e => into1 e
end Either

namespace EitherBoth
variable {A B : Type}

/-- `EitherBoth::always_first` (either_both.rs:11-20). -/
def alwaysFirst (_ : ShouldNever B) : EitherBoth A B → Run A
  | .first e => pure e
  | .last e => never e
  | .both _ e => never e

/-- `EitherBoth::always_last` (either_both.rs:22-31). -/
def alwaysLast (_ : ShouldNever A) : EitherBoth A B → Run B
  | .first e => never e
  | .last e => pure e
  | .both e _ => never e
end EitherBoth

end Parcom
