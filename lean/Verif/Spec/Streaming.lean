import Verif.Spec.Running
import Verif.Spec.Sequence
/-!
# Programs that use a sequence

A parser sees its input only through `segments`, `next`, `advance` and dropping the stream. Seen from there it is a program
that issues these commands and goes on with what it is given. Such a program can be run on any `Sequence`, and it can be the
user of the default runner's sequence while that is being loaded.
-/
namespace Parcom.Spec
open Parcom Sequence

/-- What a program does next, and how it goes on. -/
inductive Cmd (T O σ : Type) where
  /-- `segments()` -/
  | segments (k : σ)
  /-- `next(hint).await` -/
  | next (hint : Nat) (k : Option (List T) → σ)
  /-- drop the stream -/
  | release (k : σ)
  /-- `advance(n).await` -/
  | advance (n : Nat) (k : σ)
  /-- nothing; it has the sequence -/
  | goOn (k : σ)
  /-- return, with the sequence -/
  | ret (o : O)

/-- A program. -/
structure Client (T O : Type) where
  σ : Type
  start : σ
  step : σ → Cmd T O σ

section
variable {T O : Type} (c : Client T O) {S : Type} [Sequence S (List T)]

/-- Run on a sequence (`inl`: it has the sequence, `inr`: it has a stream of it), a program gets from one point to another. -/
inductive Client.Gets : (S ⊕ Stream S) → c.σ → (S ⊕ Stream S) → c.σ → Prop where
  | refl (p : S ⊕ Stream S) (q : c.σ) : Client.Gets p q p q
  | segments {p : S ⊕ Stream S} {q q' k : c.σ} {s : S} : Client.Gets p q (.inl s) q' → c.step q' = .segments k →
      Client.Gets p q (.inr (segments s)) k
  | next {p : S ⊕ Stream S} {q q' : c.σ} {st st' : Stream S} {n : Nat} {k : Option (List T) → c.σ} {o : Option (List T)} :
      Client.Gets p q (.inr st) q' → c.step q' = .next n k → next st n = pure (o, st') → Client.Gets p q (.inr st') (k o)
  | release {p : S ⊕ Stream S} {q q' k : c.σ} {st : Stream S} : Client.Gets p q (.inr st) q' → c.step q' = .release k →
      Client.Gets p q (.inl (release st)) k
  | advance {p : S ⊕ Stream S} {q q' k : c.σ} {s s' : S} {n : Nat} : Client.Gets p q (.inl s) q' → c.step q' = .advance n k →
      advance s n = pure s' → Client.Gets p q (.inl s') k
  | goOn {p : S ⊕ Stream S} {q q' k : c.σ} {s : S} : Client.Gets p q (.inl s) q' → c.step q' = .goOn k → Client.Gets p q (.inl s) k

/-- Run on the sequence `s`, the program returns `o` and the sequence `s'`. -/
def Client.Returns (s : S) (o : O) (s' : S) : Prop := ∃ q, c.Gets (.inl s) c.start (.inl s') q ∧ c.step q = .ret o

end

/-- The program can come to be at `q`, whatever it is given, and has then been shown `n` items beyond where the sequence is. -/
inductive Client.Sees {T O : Type} (c : Client T O) : c.σ → Nat → Prop where
  | start : Client.Sees c c.start 0
  | segments {q k : c.σ} {n : Nat} : Client.Sees c q n → c.step q = .segments k → Client.Sees c k 0
  | next {q : c.σ} {n m : Nat} {k : Option (List T) → c.σ} (o : Option (List T)) : Client.Sees c q n → c.step q = .next m k →
      Client.Sees c (k o) (n + (o.getD []).length)
  | release {q k : c.σ} {n : Nat} : Client.Sees c q n → c.step q = .release k → Client.Sees c k n
  | advance {q k : c.σ} {n m : Nat} : Client.Sees c q n → c.step q = .advance m k → Client.Sees c k (n - m)
  | goOn {q k : c.σ} {n : Nat} : Client.Sees c q n → c.step q = .goOn k → Client.Sees c k n

/-- The program only skips what it has been shown. -/
def Client.Modest {T O : Type} (c : Client T O) : Prop := ∀ q n m k, c.Sees q n → c.step q = .advance m k → m ≤ n

/-! ## A sequence that is cut as planned

Not part of /repo. -/

/-- A sequence with this content. Each call of `segments` uses up one plan, which says how long the segments are;
`none` is where the stream says that it has ended. -/
structure Planned (T : Type) where
  content : List T
  cuts : List (List (Option Nat))

/-- A partly read stream. -/
structure PlannedStream (T : Type) where
  rest : List T
  plan : List (Option Nat)
  owner : Planned T

/-- As planned. A stream that is to end too early, or for which nothing is planned, delivers all that there is. -/
def PlannedStream.next {T : Type} (st : PlannedStream T) : Option (List T) × PlannedStream T :=
  match st.plan, st.rest with
  | some n :: plan, rest => (some (rest.take n), { st with rest := rest.drop n, plan })
  | _, [] => (none, { st with plan := st.plan.tail })
  | _, x :: rest => (some (x :: rest), { st with rest := [], plan := [] })

instance {T : Type} : Sequence (Planned T) (List T) where
  Stream := PlannedStream T
  segments s := { rest := s.content, plan := s.cuts.headD [], owner := { s with cuts := s.cuts.tail } }
  next st _ := pure st.next
  release st := st.owner
  advance s n := if n ≤ s.content.length then pure { s with content := s.content.drop n } else Run.fault .bounds

end Parcom.Spec

namespace Parcom.Runner
open Parcom Spec
variable {T E O : Type}

/-- What the user of the sequence and the sequence tell each other. -/
def Event.talk : Event T E → Bool
  | .sys .iterates => true
  | .nextCall => true
  | .nextReady .. => true
  | .nextDrop => true
  | .advanceCall _ => true
  | .advanceReady _ => true
  | _ => false

/-- Where a program that is the user of a sequence is. -/
inductive Place (T σ : Type) where
  /-- has the sequence -/
  | idle (q : σ)
  /-- has a stream -/
  | stream (q : σ)
  /-- waits for `next` -/
  | next (k : Option (List T) → σ)
  /-- waits for `advance` -/
  | advance (k : σ)

/-- Since `l₀` the user has done what the program says, and the program is here now. What else happens does not matter;
that a stream is dropped is not in the log. -/
inductive Follows (c : Client T O) (l₀ : List (Event T E)) : List (Event T E) → Place T c.σ → Prop where
  | start : Follows c l₀ l₀ (.idle c.start)
  | segments {l : List (Event T E)} {q k : c.σ} : Follows c l₀ l (.idle q) → c.step q = .segments k →
      Follows c l₀ (l ++ [.sys .iterates]) (.stream k)
  | next {l : List (Event T E)} {q : c.σ} {n : Nat} {k : Option (List T) → c.σ} : Follows c l₀ l (.stream q) → c.step q = .next n k →
      Follows c l₀ (l ++ [.nextCall]) (.next k)
  | nextReady {l : List (Event T E)} {k : Option (List T) → c.σ} (j : Nat) (r : Option (List T)) : Follows c l₀ l (.next k) →
      Follows c l₀ (l ++ [.nextReady j r]) (.stream (k r))
  | release {l : List (Event T E)} {q k : c.σ} : Follows c l₀ l (.stream q) → c.step q = .release k → Follows c l₀ l (.idle k)
  | advance {l : List (Event T E)} {q k : c.σ} {n : Nat} : Follows c l₀ l (.idle q) → c.step q = .advance n k →
      Follows c l₀ (l ++ [.advanceCall n]) (.advance k)
  | goOn {l : List (Event T E)} {q k : c.σ} : Follows c l₀ l (.idle q) → c.step q = .goOn k → Follows c l₀ l (.idle k)
  | advanceReady {l : List (Event T E)} {k : c.σ} (j : Nat) : Follows c l₀ l (.advance k) → Follows c l₀ (l ++ [.advanceReady j]) (.idle k)
  | other {l : List (Event T E)} {p : Place T c.σ} (e : Event T E) : Follows c l₀ l p → e.talk = false → Follows c l₀ (l ++ [e]) p

/-- What has been made visible is part of `all`; once `done_flag` is set, it is all. -/
def Part (log : List (Event T E)) (all : List T) : Prop :=
  committedOf (sysLog log) <+: all ∧ (.done ∈ log → committedOf (sysLog log) = all)

/-- Nothing is made visible once `done_flag` is set. -/
def DoneIsLast (log : List (Event T E)) : Prop := ∀ l₁ l₂, log = l₁ ++ .done :: l₂ → ∀ xs, .sys (.committed xs) ∉ l₂

/-- `done_flag` is not set during a poll of a `Next` that says that the stream has ended. -/
def DoneBetweenPolls (log : List (Event T E)) : Prop := ∀ l₁ l₂ l₃ k o,
  log = l₁ ++ .pollBegin .next k o :: l₂ ++ .nextReady k none :: l₃ → .done ∉ l₂

end Parcom.Runner
