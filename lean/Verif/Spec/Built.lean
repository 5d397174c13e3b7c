import Verif.Spec.Parsing
import Verif.Model.Combinator
import Verif.Model.Iterative
import Verif.Model.BinExpr
/-!
# Parsers built from the combinators

`Built Leaf p` says that `p` is some nesting of the combinators of parcom-parsers around parsers satisfying `Leaf`.
-/
namespace Parcom.Spec
open Parcom

/-- A set of parsers over `S`. -/
abbrev ParserClass (S : Type) := ∀ {O E : Type}, Parser S O E → Prop

mutual
/-- Parsers built from leaves. -/
inductive Built {S : Type} [RewindSequence S] (Leaf : ParserClass S) : {O E : Type} → Parser S O E → Prop where
  | leaf {O E : Type} {p : Parser S O E} : Leaf p → Built Leaf p
  | join {O₀ O₁ E₀ E₁ : Type} {p : Parser S O₀ E₀} {q : Parser S O₁ E₁} :
      Built Leaf p → Built Leaf q → Built Leaf (p.join q)
  | or {O₀ O₁ E₀ E₁ : Type} [ParseError E₀] [ParseError E₁] {p : Parser S O₀ E₀} {q : Parser S O₁ E₁} :
      Built Leaf p → Built Leaf q → Built Leaf (p.or q)
  | optional {O E : Type} [ParseError E] {p : Parser S O E} : Built Leaf p → Built Leaf p.optional
  | repeat {O E : Type} [ParseError E] {p : Parser S O E} : Built Leaf p → Built Leaf p.repeat
  | map {O E T : Type} {p : Parser S O E} (f : O → T) : Built Leaf p → Built Leaf (p.map f)
  | mapErr {O E T : Type} {p : Parser S O E} (f : E → T) : Built Leaf p → Built Leaf (p.mapErr f)
  | andThen {O E E₁ T : Type} {p : Parser S O E} (into : E → E₁) (f : O → Except E₁ T) :
      Built Leaf p → Built Leaf (p.andThen into f)
  | unify {T₀ T₁ T E : Type} {p : Parser S (Either T₀ T₁) E} (f₀ : T₀ → T) (f₁ : T₁ → T) :
      Built Leaf p → Built Leaf (p.unify f₀ f₁)
  | unifyErr {T₀ T₁ T O : Type} {p : Parser S O (Either T₀ T₁)} (f₀ : T₀ → T) (f₁ : T₁ → T) :
      Built Leaf p → Built Leaf (p.unifyErr f₀ f₁)
  | asRef {O E : Type} {p : Parser S O E} : Built Leaf p → Built Leaf p.asRef
  | boxed {O E : Type} {p : Parser S O E} : Built Leaf p → Built Leaf p.boxed
  | binExpr {T Op ETerm EOp Expr : Type} [Operator Op] [ParseError EOp] [ParseError ETerm] (b : Build)
      {term : Parser S T ETerm} {op : Parser S Op EOp} (mk : Expr → Op → Expr → Expr) (ofTerm : T → Expr) :
      Built Leaf term → Built Leaf op → Built Leaf (Parcom.binExpr b term op mk ofTerm)
  | fold {σ σ₁ O E A : Type} {p : IterParser σ σ₁ S O E} (init : A) (f : A → O → A) :
      BuiltIter Leaf p → Built Leaf (p.fold init f)
  | collect {σ σ₁ O E C : Type} {p : IterParser σ σ₁ S O E} (dflt : C) (extend : C → O → C) :
      BuiltIter Leaf p → Built Leaf (p.collect dflt extend)

/-- Iterative parsers built from leaves. -/
inductive BuiltIter {S : Type} [RewindSequence S] (Leaf : ParserClass S) :
    {σ σ₁ O E : Type} → IterParser σ σ₁ S O E → Prop where
  | optional {O E : Type} [ParseError E] {p : Parser S O E} : Built Leaf p → BuiltIter Leaf p.optionalIter
  | repeat {O E : Type} [ParseError E] {p : Parser S O E} : Built Leaf p → BuiltIter Leaf p.repeatIter
  | byRef {σ σ₁ O E : Type} {p : IterParser σ σ₁ S O E} : BuiltIter Leaf p → BuiltIter Leaf p.byRef
  | mapEach {σ σ₁ O E T : Type} {p : IterParser σ σ₁ S O E} (f : O → T) :
      BuiltIter Leaf p → BuiltIter Leaf (p.mapEach f)
  | mapWhile {σ σ₁ O E T : Type} {p : IterParser σ σ₁ S O E} (f : O → Option T) :
      BuiltIter Leaf p → BuiltIter Leaf (p.mapWhile f)
  | scan {σ σ₁ O E T St : Type} {p : IterParser σ σ₁ S O E} (init : St) (f : St → O → T × St) :
      BuiltIter Leaf p → BuiltIter Leaf (p.scan init f)
  | take {σ σ₁ O E : Type} {p : IterParser σ σ₁ S O E} (n : Nat) : BuiltIter Leaf p → BuiltIter Leaf (p.take n)
  | tryMapEach {σ σ₁ O E E₁ T : Type} [ParseError E₁] {p : IterParser σ σ₁ S O E} (into : E → E₁)
      (f : O → Except E₁ T) : BuiltIter Leaf p → BuiltIter Leaf (p.tryMapEach into f)
end

end Parcom.Spec
