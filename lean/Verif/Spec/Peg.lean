import Verif.Model.Combinator
import Verif.Model.Primitive
/-!
# Parsing expression grammars

The semantics of Ford's parsing expression grammars on lists of characters, and which parsers spell out which grammar.
-/
namespace Parcom.Spec
open Parcom

/-- Parsing expressions. -/
inductive Peg where
  | char (c : Char)
  | any
  | seq (g h : Peg)
  | alt (g h : Peg)
  | opt (g : Peg)
  | star (g : Peg)

/-- `Matches g cs (some ds)`: on the text `cs` the expression `g` matches a prefix and leaves `ds`.
`Matches g cs none`: it does not match. Choice is ordered, repetition is greedy, and neither backtracks. -/
inductive Peg.Matches : Peg → List Char → Option (List Char) → Prop where
  | char (c : Char) (cs : List Char) : Matches (.char c) (c :: cs) (some cs)
  | charFails (c : Char) (cs : List Char) : cs.head? ≠ some c → Matches (.char c) cs none
  | any (c : Char) (cs : List Char) : Matches .any (c :: cs) (some cs)
  | anyFails : Matches .any [] none
  | seq {g h : Peg} {cs ds : List Char} {r : Option (List Char)} :
      Matches g cs (some ds) → Matches h ds r → Matches (.seq g h) cs r
  | seqFails {g h : Peg} {cs : List Char} : Matches g cs none → Matches (.seq g h) cs none
  | altFirst {g h : Peg} {cs ds : List Char} : Matches g cs (some ds) → Matches (.alt g h) cs (some ds)
  | altSecond {g h : Peg} {cs : List Char} {r : Option (List Char)} :
      Matches g cs none → Matches h cs r → Matches (.alt g h) cs r
  | opt {g : Peg} {cs ds : List Char} : Matches g cs (some ds) → Matches (.opt g) cs (some ds)
  | optNot {g : Peg} {cs : List Char} : Matches g cs none → Matches (.opt g) cs (some cs)
  | starEnd {g : Peg} {cs : List Char} : Matches g cs none → Matches (.star g) cs (some cs)
  | starMore {g : Peg} {cs ds : List Char} {r : Option (List Char)} :
      Matches g cs (some ds) → Matches (.star g) ds r → Matches (.star g) cs r

/-- Whether an expression might match the empty text (a conservative check of the expression alone). -/
def Peg.mayBeEmpty : Peg → Bool
  | .char _ => false
  | .any => false
  | .seq g h => g.mayBeEmpty && h.mayBeEmpty
  | .alt g h => g.mayBeEmpty || h.mayBeEmpty
  | .opt _ => true
  | .star _ => true

/-- Nothing that might match the empty text is repeated. -/
def Peg.noEmptyLoop : Peg → Bool
  | .char _ => true
  | .any => true
  | .seq g h => g.noEmptyLoop && h.noEmptyLoop
  | .alt g h => g.noEmptyLoop && h.noEmptyLoop
  | .opt g => g.noEmptyLoop
  | .star g => !g.mayBeEmpty && g.noEmptyLoop

/-- The parser is written as the grammar says, with values and errors relabelled anywhere, but without fatal errors. -/
inductive Spells {S : Type} [Sequence S Str] [RewindSequence S] :
    {O E : Type} → ParseError E → Parser S O E → Peg → Prop where
  | char (c : Char) : Spells inferInstance (theChar c) (.char c)
  | any : Spells inferInstance anyChar .any
  | seq {O₀ O₁ E₀ E₁ : Type} [i₀ : ParseError E₀] [i₁ : ParseError E₁] {p : Parser S O₀ E₀} {q : Parser S O₁ E₁}
      {g h : Peg} : Spells i₀ p g → Spells i₁ q h → Spells inferInstance (p.join q) (.seq g h)
  | alt {O₀ O₁ E₀ E₁ : Type} [i₀ : ParseError E₀] [i₁ : ParseError E₁] {p : Parser S O₀ E₀} {q : Parser S O₁ E₁}
      {g h : Peg} : Spells i₀ p g → Spells i₁ q h → Spells inferInstance (p.or q) (.alt g h)
  | opt {O E : Type} [i : ParseError E] {p : Parser S O E} {g : Peg} : Spells i p g → Spells i p.optional (.opt g)
  | star {O E : Type} [i : ParseError E] {p : Parser S O E} {g : Peg} : Spells i p g → Spells i p.repeat (.star g)
  | map {O T E : Type} [i : ParseError E] {p : Parser S O E} {g : Peg} (f : O → T) : Spells i p g → Spells i (p.map f) g
  | mapErr {O E T : Type} [i : ParseError E] [j : ParseError T] {p : Parser S O E} {g : Peg} (f : E → T) :
      (∀ e, shouldTerminate (f e) = false) → Spells i p g → Spells j (p.mapErr f) g

end Parcom.Spec
