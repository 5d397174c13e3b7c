import Verif.Spec.Built
/-!
# Two parsers doing the same on two kinds of sequences
-/
namespace Parcom

/-- Both return related values, both stop with the same fault, or neither returns. -/
def Run.Rel {α β : Type} (x : Run α) (y : Run β) (Q : α → β → Prop) : Prop :=
  (∃ a b, x = pure a ∧ y = pure b ∧ Q a b) ∨ (∃ f, x = Run.fault f ∧ y = Run.fault f) ∨
  (x = Run.diverge ∧ y = Run.diverge)

namespace Spec

variable {S S' O E : Type}

/-- The same value or error, at related locations. -/
inductive SameResult (Q : S → S' → Prop) : PResult S O E → PResult S' O E → Prop where
  | ok {v : O} {r : S} {r' : S'} : Q r r' → SameResult Q (.ok v r) (.ok v r')
  | err {e : E} {u : UnknownLocation S} {u' : UnknownLocation S'} : Q u.val u'.val → SameResult Q (.err e u) (.err e u')

/-- When sequences of two kinds show the same thing (`Similar s s'`), and when two of them were reached from two others in
step (`From s s' r r'`). Rewinding both gives again sequences that show the same thing. -/
structure TwinLaw (S S' : Type) [RewindSequence S] [RewindSequence S'] where
  Similar : S → S' → Prop
  From : S → S' → S → S' → Prop
  refl {s : S} {s' : S'} : Similar s s' → From s s' s s'
  trans {s r t : S} {s' r' t' : S'} : From s s' r r' → From r r' t t' → From s s' t t'
  rewind {s r : S} {s' r' : S'} : Similar s s' → Similar r r' → From s s' r r' →
    Run.Rel (RewindSequence.rewind r (anchor s)) (RewindSequence.rewind r' (anchor s'))
      (fun t t' => Similar t t' ∧ From s s' t t')

variable [RewindSequence S] [RewindSequence S']

/-- On similar inputs the two parse functions do the same, and go to similar places. -/
def SameParse (L : TwinLaw S S') (f : S → Run (PResult S O E)) (f' : S' → Run (PResult S' O E)) : Prop :=
  ∀ s s', L.Similar s s' → Run.Rel (f s) (f' s') (SameResult fun r r' => L.Similar r r' ∧ L.From s s' r r')

/-- Pairs of parsers. -/
abbrev TwinClass (S S' : Type) := ∀ {O E : Type}, Parser S O E → Parser S' O E → Prop

mutual
/-- The same nesting of combinators over leaves that correspond. -/
inductive BuiltTwin (Leaf : TwinClass S S') : {O E : Type} → Parser S O E → Parser S' O E → Prop where
  | leaf {O E : Type} {p : Parser S O E} {p' : Parser S' O E} : Leaf p p' → BuiltTwin Leaf p p'
  | join {O₀ O₁ E₀ E₁ : Type} {p : Parser S O₀ E₀} {q : Parser S O₁ E₁} {p' : Parser S' O₀ E₀} {q' : Parser S' O₁ E₁} :
      BuiltTwin Leaf p p' → BuiltTwin Leaf q q' → BuiltTwin Leaf (p.join q) (p'.join q')
  | or {O₀ O₁ E₀ E₁ : Type} [ParseError E₀] [ParseError E₁] {p : Parser S O₀ E₀} {q : Parser S O₁ E₁}
      {p' : Parser S' O₀ E₀} {q' : Parser S' O₁ E₁} :
      BuiltTwin Leaf p p' → BuiltTwin Leaf q q' → BuiltTwin Leaf (p.or q) (p'.or q')
  | optional {O E : Type} [ParseError E] {p : Parser S O E} {p' : Parser S' O E} :
      BuiltTwin Leaf p p' → BuiltTwin Leaf p.optional p'.optional
  | repeat {O E : Type} [ParseError E] {p : Parser S O E} {p' : Parser S' O E} :
      BuiltTwin Leaf p p' → BuiltTwin Leaf p.repeat p'.repeat
  | map {O E T : Type} {p : Parser S O E} {p' : Parser S' O E} (f : O → T) :
      BuiltTwin Leaf p p' → BuiltTwin Leaf (p.map f) (p'.map f)
  | mapErr {O E T : Type} {p : Parser S O E} {p' : Parser S' O E} (f : E → T) :
      BuiltTwin Leaf p p' → BuiltTwin Leaf (p.mapErr f) (p'.mapErr f)
  | andThen {O E E₁ T : Type} {p : Parser S O E} {p' : Parser S' O E} (into : E → E₁) (f : O → Except E₁ T) :
      BuiltTwin Leaf p p' → BuiltTwin Leaf (p.andThen into f) (p'.andThen into f)
  | unify {T₀ T₁ T E : Type} {p : Parser S (Either T₀ T₁) E} {p' : Parser S' (Either T₀ T₁) E} (f₀ : T₀ → T)
      (f₁ : T₁ → T) : BuiltTwin Leaf p p' → BuiltTwin Leaf (p.unify f₀ f₁) (p'.unify f₀ f₁)
  | unifyErr {T₀ T₁ T O : Type} {p : Parser S O (Either T₀ T₁)} {p' : Parser S' O (Either T₀ T₁)} (f₀ : T₀ → T)
      (f₁ : T₁ → T) : BuiltTwin Leaf p p' → BuiltTwin Leaf (p.unifyErr f₀ f₁) (p'.unifyErr f₀ f₁)
  | asRef {O E : Type} {p : Parser S O E} {p' : Parser S' O E} :
      BuiltTwin Leaf p p' → BuiltTwin Leaf p.asRef p'.asRef
  | boxed {O E : Type} {p : Parser S O E} {p' : Parser S' O E} :
      BuiltTwin Leaf p p' → BuiltTwin Leaf p.boxed p'.boxed
  | binExpr {T Op ETerm EOp Expr : Type} [Operator Op] [ParseError EOp] [ParseError ETerm] (b : Build)
      {term : Parser S T ETerm} {op : Parser S Op EOp} {term' : Parser S' T ETerm} {op' : Parser S' Op EOp}
      (mk : Expr → Op → Expr → Expr) (ofTerm : T → Expr) :
      BuiltTwin Leaf term term' → BuiltTwin Leaf op op' →
      BuiltTwin Leaf (Parcom.binExpr b term op mk ofTerm) (Parcom.binExpr b term' op' mk ofTerm)
  | fold {σ σ₁ O E A : Type} {p : IterParser σ σ₁ S O E} {p' : IterParser σ σ₁ S' O E} (init : A) (f : A → O → A) :
      BuiltTwinIter Leaf p p' → BuiltTwin Leaf (p.fold init f) (p'.fold init f)
  | collect {σ σ₁ O E C : Type} {p : IterParser σ σ₁ S O E} {p' : IterParser σ σ₁ S' O E} (dflt : C)
      (extend : C → O → C) : BuiltTwinIter Leaf p p' → BuiltTwin Leaf (p.collect dflt extend) (p'.collect dflt extend)

/-- The same for iterative parsers. -/
inductive BuiltTwinIter (Leaf : TwinClass S S') :
    {σ σ₁ O E : Type} → IterParser σ σ₁ S O E → IterParser σ σ₁ S' O E → Prop where
  | optional {O E : Type} [ParseError E] {p : Parser S O E} {p' : Parser S' O E} :
      BuiltTwin Leaf p p' → BuiltTwinIter Leaf p.optionalIter p'.optionalIter
  | repeat {O E : Type} [ParseError E] {p : Parser S O E} {p' : Parser S' O E} :
      BuiltTwin Leaf p p' → BuiltTwinIter Leaf p.repeatIter p'.repeatIter
  | byRef {σ σ₁ O E : Type} {p : IterParser σ σ₁ S O E} {p' : IterParser σ σ₁ S' O E} :
      BuiltTwinIter Leaf p p' → BuiltTwinIter Leaf p.byRef p'.byRef
  | mapEach {σ σ₁ O E T : Type} {p : IterParser σ σ₁ S O E} {p' : IterParser σ σ₁ S' O E} (f : O → T) :
      BuiltTwinIter Leaf p p' → BuiltTwinIter Leaf (p.mapEach f) (p'.mapEach f)
  | mapWhile {σ σ₁ O E T : Type} {p : IterParser σ σ₁ S O E} {p' : IterParser σ σ₁ S' O E} (f : O → Option T) :
      BuiltTwinIter Leaf p p' → BuiltTwinIter Leaf (p.mapWhile f) (p'.mapWhile f)
  | scan {σ σ₁ O E T St : Type} {p : IterParser σ σ₁ S O E} {p' : IterParser σ σ₁ S' O E} (init : St)
      (f : St → O → T × St) : BuiltTwinIter Leaf p p' → BuiltTwinIter Leaf (p.scan init f) (p'.scan init f)
  | take {σ σ₁ O E : Type} {p : IterParser σ σ₁ S O E} {p' : IterParser σ σ₁ S' O E} (n : Nat) :
      BuiltTwinIter Leaf p p' → BuiltTwinIter Leaf (p.take n) (p'.take n)
  | tryMapEach {σ σ₁ O E E₁ T : Type} [ParseError E₁] {p : IterParser σ σ₁ S O E} {p' : IterParser σ σ₁ S' O E}
      (into : E → E₁) (f : O → Except E₁ T) :
      BuiltTwinIter Leaf p p' → BuiltTwinIter Leaf (p.tryMapEach into f) (p'.tryMapEach into f)
end

end Spec
end Parcom
