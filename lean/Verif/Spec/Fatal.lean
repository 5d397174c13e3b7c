import Verif.Spec.Twin
/-!
# Which parsers were run, and whether they failed fatally

A logging sequence remembers every call of a leaf parser: `true` for a call that failed fatally, `false` for any other.
Rewinding changes the position, not the log.
-/
namespace Parcom.Spec
open Parcom

/-- Sequences that carry a log which rewinding does not touch. -/
class Logging (S : Type) [RewindSequence S] where
  log : S → List Bool
  rewind {r s : S} {a : RewindSequence.Anchor S} : RewindSequence.rewind r a = pure s → log s = log r

variable {S O E : Type}

/-- The result is a fatal failure. -/
def isFatal [ParseError E] : PResult S O E → Bool
  | .ok _ _ => false
  | .err e _ => shouldTerminate e

/-- The calls made, and whether the whole failed fatally: either no call failed fatally and neither does the whole, or
exactly the last call failed fatally and so does the whole. -/
def LastFatal (calls : List Bool) (fatal : Bool) : Prop :=
  (fatal = false ∧ true ∉ calls) ∨ (fatal = true ∧ ∃ earlier, calls = earlier ++ [true] ∧ true ∉ earlier)

/-- Parsers over `S`, with the classification of their errors. -/
abbrev FallibleClass (S : Type) := ∀ {O E : Type}, ParseError E → Parser S O E → Prop

mutual
/-- Nestings of the combinators that do not hide errors by design: functions given to `map_err`, `unify_err`, `and_then`,
`try_map_each` must not change whether an error terminates or invent terminating errors; `collect` is left out (C22). -/
inductive Strict [RewindSequence S] (Leaf : FallibleClass S) : {O E : Type} → ParseError E → Parser S O E → Prop where
  | leaf {O E : Type} {i : ParseError E} {p : Parser S O E} : Leaf i p → Strict Leaf i p
  | join {O₀ O₁ E₀ E₁ : Type} {i₀ : ParseError E₀} {i₁ : ParseError E₁} {p : Parser S O₀ E₀} {q : Parser S O₁ E₁} :
      Strict Leaf i₀ p → Strict Leaf i₁ q → Strict Leaf inferInstance (p.join q)
  | or {O₀ O₁ E₀ E₁ : Type} {i₀ : ParseError E₀} {i₁ : ParseError E₁} {p : Parser S O₀ E₀} {q : Parser S O₁ E₁} :
      Strict Leaf i₀ p → Strict Leaf i₁ q → Strict Leaf inferInstance (p.or q)
  | optional {O E : Type} {i : ParseError E} {p : Parser S O E} : Strict Leaf i p → Strict Leaf i p.optional
  | repeat {O E : Type} {i : ParseError E} {p : Parser S O E} : Strict Leaf i p → Strict Leaf i p.repeat
  | map {O E T : Type} {i : ParseError E} {p : Parser S O E} (f : O → T) : Strict Leaf i p → Strict Leaf i (p.map f)
  | mapErr {O E T : Type} {i : ParseError E} {j : ParseError T} {p : Parser S O E} (f : E → T)
      (hf : ∀ e, j.shouldTerminate (f e) = i.shouldTerminate e) : Strict Leaf i p → Strict Leaf j (p.mapErr f)
  | andThen {O E E₁ T : Type} {i : ParseError E} {j : ParseError E₁} {p : Parser S O E} (into : E → E₁)
      (f : O → Except E₁ T) (hi : ∀ e, j.shouldTerminate (into e) = i.shouldTerminate e)
      (hf : ∀ v e, f v = .error e → j.shouldTerminate e = false) : Strict Leaf i p → Strict Leaf j (p.andThen into f)
  | unify {T₀ T₁ T E : Type} {i : ParseError E} {p : Parser S (Either T₀ T₁) E} (f₀ : T₀ → T) (f₁ : T₁ → T) :
      Strict Leaf i p → Strict Leaf i (p.unify f₀ f₁)
  | unifyErr {T₀ T₁ T O : Type} {i₀ : ParseError T₀} {i₁ : ParseError T₁} {j : ParseError T}
      {p : Parser S O (Either T₀ T₁)} (f₀ : T₀ → T) (f₁ : T₁ → T)
      (h₀ : ∀ e, j.shouldTerminate (f₀ e) = i₀.shouldTerminate e)
      (h₁ : ∀ e, j.shouldTerminate (f₁ e) = i₁.shouldTerminate e) :
      Strict Leaf inferInstance p → Strict Leaf j (p.unifyErr f₀ f₁)
  | asRef {O E : Type} {i : ParseError E} {p : Parser S O E} : Strict Leaf i p → Strict Leaf i p.asRef
  | boxed {O E : Type} {i : ParseError E} {p : Parser S O E} : Strict Leaf i p → Strict Leaf i p.boxed
  | binExpr {T Op ETerm EOp Expr : Type} [Operator Op] {i : ParseError EOp} {j : ParseError ETerm} (b : Build)
      {term : Parser S T ETerm} {op : Parser S Op EOp} (mk : Expr → Op → Expr → Expr) (ofTerm : T → Expr) :
      Strict Leaf j term → Strict Leaf i op → Strict Leaf inferInstance (Parcom.binExpr b term op mk ofTerm)
  | fold {σ σ₁ O E A : Type} {i : ParseError E} {p : IterParser σ σ₁ S O E} (init : A) (f : A → O → A) :
      StrictIter Leaf i p → Strict Leaf i (p.fold init f)

/-- The same for iterative parsers. -/
inductive StrictIter [RewindSequence S] (Leaf : FallibleClass S) :
    {σ σ₁ O E : Type} → ParseError E → IterParser σ σ₁ S O E → Prop where
  | optional {O E : Type} {i : ParseError E} {p : Parser S O E} : Strict Leaf i p → StrictIter Leaf i p.optionalIter
  | repeat {O E : Type} {i : ParseError E} {p : Parser S O E} : Strict Leaf i p → StrictIter Leaf i p.repeatIter
  | byRef {σ σ₁ O E : Type} {i : ParseError E} {p : IterParser σ σ₁ S O E} :
      StrictIter Leaf i p → StrictIter Leaf i p.byRef
  | mapEach {σ σ₁ O E T : Type} {i : ParseError E} {p : IterParser σ σ₁ S O E} (f : O → T) :
      StrictIter Leaf i p → StrictIter Leaf i (p.mapEach f)
  | mapWhile {σ σ₁ O E T : Type} {i : ParseError E} {p : IterParser σ σ₁ S O E} (f : O → Option T) :
      StrictIter Leaf i p → StrictIter Leaf i (p.mapWhile f)
  | scan {σ σ₁ O E T St : Type} {i : ParseError E} {p : IterParser σ σ₁ S O E} (init : St) (f : St → O → T × St) :
      StrictIter Leaf i p → StrictIter Leaf i (p.scan init f)
  | take {σ σ₁ O E : Type} {i : ParseError E} {p : IterParser σ σ₁ S O E} (n : Nat) :
      StrictIter Leaf i p → StrictIter Leaf i (p.take n)
  | tryMapEach {σ σ₁ O E E₁ T : Type} {i : ParseError E} {j : ParseError E₁} {p : IterParser σ σ₁ S O E}
      (into : E → E₁) (f : O → Except E₁ T) (hi : ∀ e, j.shouldTerminate (into e) = i.shouldTerminate e)
      (hf : ∀ v e, f v = .error e → j.shouldTerminate e = false) :
      StrictIter Leaf i p → StrictIter Leaf j (p.tryMapEach into f)
end

/-! ## Watching any parser -/

/-- A sequence with a log beside it. -/
structure Logged (S : Type) where
  base : S
  log : List Bool

instance [RewindSequence S] : RewindSequence (Logged S) where
  Anchor := RewindSequence.Anchor S
  anchor l := anchor l.base
  rewind l a := do
    let base ← RewindSequence.rewind l.base a
    return { base, log := l.log }

instance [RewindSequence S] : Logging (Logged S) where
  log l := l.log
  rewind {r s a} h := by
    simp only [RewindSequence.rewind, Run.bind_eq_pure] at h
    obtain ⟨b, -, h⟩ := h
    simp at h
    rw [← h]

/-- Run a parse function and write down how it ended. -/
def watchFn (i : ParseError E) (f : S → Run (PResult S O E)) (l : Logged S) : Run (PResult (Logged S) O E) := do
  match ← f l.base with
  | .ok v r => return .ok v { base := r, log := l.log ++ [false] }
  | .err e u => return .err e ⟨{ base := u.val, log := l.log ++ [i.shouldTerminate e] }⟩

/-- Any parser, watched. -/
def watch (i : ParseError E) (p : Parser S O E) : Parser (Logged S) O E where
  parse := watchFn i p.parse
  parseOnce := watchFn i p.parseOnce

end Parcom.Spec
