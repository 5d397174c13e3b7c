import Verif.Model.Sequences
/-!
# What a sequence is, seen from outside

A sequence has a content (a list of items). Its segments, concatenated, are that content, however they are cut.
Advancing by the size of a prefix removes that prefix. Rewinding to an anchor gives back the anchored sequence.
-/
namespace Parcom.Spec
open Parcom Sequence

/-- Segments seen as lists of items; `size` is how much `advance` is asked to move over an item. -/
class ItemSegment (Seg : Type) (Item : outParam Type) where
  items : Seg → List Item
  size : Item → Nat

/-- `[T]`: items count one each. -/
instance {α : Type} : ItemSegment (List α) α where
  items s := s
  size _ := 1

/-- `str`: a char counts its UTF-8 bytes. -/
instance : ItemSegment Str Char where
  items s := s.chars
  size c := c.utf8Size

/-- The size of a list of items. -/
def extent (Seg : Type) {Item : Type} [ItemSegment Seg Item] (xs : List Item) : Nat :=
  (xs.map (ItemSegment.size (Seg := Seg))).sum

section
variable {S Seg Item : Type} [Sequence S Seg]

/-- The stream delivers exactly these segments and then ends, whatever size hints it is given. -/
inductive Yields : Stream S → List Seg → Prop where
  | done {st : Stream S} (f : Nat → Stream S) (h : ∀ n, next st n = pure (none, f n)) : Yields st []
  | seg {st : Stream S} {s : Seg} {segs : List Seg} (f : Nat → Stream S)
      (h : ∀ n, next st n = pure (some s, f n)) (t : ∀ n, Yields (f n) segs) : Yields st (s :: segs)

/-- The stream begins by delivering these segments, whatever size hints it is given (and may go on for ever). -/
inductive Delivers : Stream S → List Seg → Prop where
  | nil (st : Stream S) : Delivers st []
  | seg {st : Stream S} {s : Seg} {segs : List Seg} (f : Nat → Stream S)
      (h : ∀ n, next st n = pure (some s, f n)) (t : ∀ n, Delivers (f n) segs) : Delivers st (s :: segs)

/-- The stream can come to be in this state by calling `next` some number of times. -/
inductive Reads : Stream S → Stream S → Prop where
  | refl (st : Stream S) : Reads st st
  | step {st st' st'' : Stream S} {n : Nat} {o : Option Seg} :
      next st n = pure (o, st') → Reads st' st'' → Reads st st''

theorem Reads.trans {a b c : Stream S} (h : Reads a b) (h' : Reads b c) : Reads a c := by
  induction h with
  | refl => exact h'
  | step hn _ ih => exact .step hn (ih h')

end

theorem Yields.delivers {S Seg : Type} [Sequence S Seg] {st : Stream S} {l l' : List Seg} (h : Yields st (l ++ l')) :
    Delivers st l := by
  induction l generalizing st with
  | nil => exact .nil st
  | cons s l ih =>
    cases h with
    | seg f hn ht => exact .seg f hn fun n => ih (ht n)

/-- The contract of `Sequence`. -/
class LawfulSequence (S : Type) {Seg Item : Type} [Sequence S Seg] [ItemSegment Seg Item] where
  content : S → List Item
  segs : S → List Seg
  yields (s : S) : Yields (segments s) (segs s)
  concat (s : S) : (segs s).flatMap ItemSegment.items = content s
  release (s : S) (st : Stream S) : Reads (segments s) st → content (release st) = content s
  advance (s : S) (pre post : List Item) :
    content s = pre ++ post → ∃ s', advance s (extent Seg pre) = pure s' ∧ content s' = post

/-- The items a sequence holds from its current position on. -/
def content {S Seg Item : Type} [Sequence S Seg] [ItemSegment Seg Item] [L : LawfulSequence S] (s : S) : List Item :=
  L.content s

/-- The segments a sequence delivers from its current position on. -/
def segs {S Seg Item : Type} [Sequence S Seg] [ItemSegment Seg Item] [L : LawfulSequence S] (s : S) : List Seg :=
  L.segs s

/-- The contract of `RewindSequence`: `Desc s r` says that `r` was reached from `s` by reading and advancing. -/
class LawfulRewind (S : Type) {Seg Item : Type} [Sequence S Seg] [ItemSegment Seg Item] [RewindSequence S]
    [LawfulSequence S] where
  Desc : S → S → Prop
  refl (s : S) : Desc s s
  trans {a b c : S} : Desc a b → Desc b c → Desc a c
  release (s : S) (st : Stream S) : Reads (segments s) st → Desc s (Sequence.release st)
  advance (s s' : S) (pre post : List Item) :
    content s = pre ++ post → advance s (extent Seg pre) = pure s' → Desc s s'
  rewind {s r : S} : Desc s r → RewindSequence.rewind r (anchor s) = pure s

/-- The part of the rewind contract that combinators rely on, for sequences of any kind. -/
class RewindLaw (S : Type) [RewindSequence S] where
  Desc : S → S → Prop
  refl (s : S) : Desc s s
  trans {a b c : S} : Desc a b → Desc b c → Desc a c
  rewind {s r : S} : Desc s r → RewindSequence.rewind r (anchor s) = pure s

instance {S Seg Item : Type} [Sequence S Seg] [ItemSegment Seg Item] [RewindSequence S]
    [LawfulSequence S] [L : LawfulRewind S] : RewindLaw S where
  Desc := L.Desc
  refl := L.refl
  trans := L.trans
  rewind := L.rewind

/-! ## Histories of one sequence -/

/-- A sequence in use: the current value, and the anchors taken on the way here, newest first, each with the sequence it
was taken from. -/
structure Hist (S : Type) [RewindSequence S] where
  cur : S
  trail : List (RewindSequence.Anchor S × S)

section
variable {S Seg Item : Type} [Sequence S Seg] [ItemSegment Seg Item] [RewindSequence S]

/-- One use of a sequence: move over items that are there, take an anchor, or rewind to an anchor of the trail
(later anchors are then no longer behind us). `c` gives the content of a sequence. -/
inductive HistStep (c : S → List Item) : Hist S → Hist S → Prop where
  | advance {h : Hist S} {s' : S} (pre post : List Item) : c h.cur = pre ++ post →
      Sequence.advance h.cur (extent Seg pre) = pure s' → HistStep c h { h with cur := s' }
  | mark {h : Hist S} : HistStep c h { h with trail := (anchor h.cur, h.cur) :: h.trail }
  | rewind {h : Hist S} {s' : S} {i : Nat} {a : RewindSequence.Anchor S} {s : S} : h.trail[i]? = some (a, s) →
      RewindSequence.rewind h.cur a = pure s' → HistStep c h { cur := s', trail := h.trail.drop i }

/-- Everything that can be reached from a fresh sequence. -/
inductive HistReach (c : S → List Item) (s : S) : Hist S → Prop where
  | start : HistReach c s { cur := s, trail := [] }
  | step {h h' : Hist S} : HistReach c s h → HistStep c h h' → HistReach c s h'

/-- The same, with the pieces that lie between the start and here, one for each `advance` that no `rewind` has taken back,
and those that lay there when the anchors were taken. -/
inductive PathReach (c : S → List Item) (s : S) : Hist S → List (List Item) → List (List (List Item)) → Prop where
  | start : PathReach c s { cur := s, trail := [] } [] []
  | advance {h : Hist S} {path : List (List Item)} {marks : List (List (List Item))} {s' : S} {pre post : List Item} :
      PathReach c s h path marks → c h.cur = pre ++ post → Sequence.advance h.cur (extent Seg pre) = pure s' →
      PathReach c s { h with cur := s' } (path ++ [pre]) marks
  | mark {h : Hist S} {path : List (List Item)} {marks : List (List (List Item))} : PathReach c s h path marks →
      PathReach c s { h with trail := (anchor h.cur, h.cur) :: h.trail } path (path :: marks)
  | rewind {h : Hist S} {path there : List (List Item)} {marks : List (List (List Item))} {s' t : S} {i : Nat}
      {a : RewindSequence.Anchor S} : PathReach c s h path marks → h.trail[i]? = some (a, t) → marks[i]? = some there →
      RewindSequence.rewind h.cur a = pure s' → PathReach c s { cur := s', trail := h.trail.drop i } there (marks.drop i)

end

end Parcom.Spec
