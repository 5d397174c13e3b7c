import Verif.Spec.Chunked
import Verif.Spec.Peg
/-!
# Input that has not all arrived

A sequence that still waits for the rest of its input: `next` does not return once what has arrived is used up. A parser that
calls it then waits as well, which here is a computation that does not return.
-/
namespace Parcom.Spec
open Parcom Sequence

/-- The stream delivers exactly these segments; the next call of `next` does not return, whatever size hints it is given. -/
inductive Stalls {S Seg : Type} [Sequence S Seg] : Stream S → List Seg → Prop where
  | wait {st : Stream S} (h : ∀ n, next st n = Run.diverge) : Stalls st []
  | seg {st : Stream S} {s : Seg} {segs : List Seg} (f : Nat → Stream S)
      (h : ∀ n, next st n = pure (some s, f n)) (t : ∀ n, Stalls (f n) segs) : Stalls st (s :: segs)

/-- The contract of a rewindable sequence, but for the end of its input: as `LawfulSequence` and `LawfulRewind`. -/
class Unfinished (S : Type) {Seg Item : Type} [Sequence S Seg] [ItemSegment Seg Item] [RewindSequence S] where
  arrived : S → List Item
  segs : S → List Seg
  stalls (s : S) : Stalls (segments s) (segs s)
  concat (s : S) : (segs s).flatMap ItemSegment.items = arrived s
  release (s : S) (st : Stream S) : Reads (segments s) st → arrived (Sequence.release st) = arrived s
  advance (s : S) (pre post : List Item) :
    arrived s = pre ++ post → ∃ s', Sequence.advance s (extent Seg pre) = pure s' ∧ arrived s' = post
  Desc : S → S → Prop
  refl (s : S) : Desc s s
  trans {a b c : S} : Desc a b → Desc b c → Desc a c
  descRelease (s : S) (st : Stream S) : Reads (segments s) st → Desc s (Sequence.release st)
  descAdvance (s s' : S) (pre post : List Item) :
    arrived s = pre ++ post → Sequence.advance s (extent Seg pre) = pure s' → Desc s s'
  rewind {s r : S} : Desc s r → RewindSequence.rewind r (anchor s) = pure s

/-- The items that have arrived, from the current position on. -/
def arrived {S Seg Item : Type} [Sequence S Seg] [ItemSegment Seg Item] [RewindSequence S] [U : Unfinished S] (s : S) : List Item :=
  U.arrived s

instance {S Seg Item : Type} [Sequence S Seg] [ItemSegment Seg Item] [RewindSequence S] [U : Unfinished S] : RewindLaw S where
  Desc := U.Desc
  refl := U.refl
  trans := U.trans
  rewind := U.rewind

/-! ## Which verdicts do not depend on what is still to come -/

/-- `Settled g cs (some ds)`: whatever comes after `cs`, the expression `g` matches a prefix of `cs`, and leaves `ds` of it;
`Settled g cs none`: whatever comes after `cs`, it does not match. As `Peg.Matches`, except that one character must be there
to be told from another, or from the end. -/
inductive Peg.Settled : Peg → List Char → Option (List Char) → Prop where
  | char (c : Char) (cs : List Char) : Settled (.char c) (c :: cs) (some cs)
  | charFails (c d : Char) (cs : List Char) : d ≠ c → Settled (.char c) (d :: cs) none
  | any (c : Char) (cs : List Char) : Settled .any (c :: cs) (some cs)
  | seq {g h : Peg} {cs ds : List Char} {r : Option (List Char)} :
      Settled g cs (some ds) → Settled h ds r → Settled (.seq g h) cs r
  | seqFails {g h : Peg} {cs : List Char} : Settled g cs none → Settled (.seq g h) cs none
  | altFirst {g h : Peg} {cs ds : List Char} : Settled g cs (some ds) → Settled (.alt g h) cs (some ds)
  | altSecond {g h : Peg} {cs : List Char} {r : Option (List Char)} :
      Settled g cs none → Settled h cs r → Settled (.alt g h) cs r
  | opt {g : Peg} {cs ds : List Char} : Settled g cs (some ds) → Settled (.opt g) cs (some ds)
  | optNot {g : Peg} {cs : List Char} : Settled g cs none → Settled (.opt g) cs (some cs)
  | starEnd {g : Peg} {cs : List Char} : Settled g cs none → Settled (.star g) cs (some cs)
  | starMore {g : Peg} {cs ds : List Char} {r : Option (List Char)} :
      Settled g cs (some ds) → Settled (.star g) ds r → Settled (.star g) cs r

/-! ## A reference sequence

Not part of /repo: as `Chunked`, but the end of the input has not been seen. -/

/-- The chunks that have arrived, and how much was consumed before. -/
structure Arriving (Seg Item : Type) where
  seen : Chunked Seg Item

/-- A partly read stream of one. -/
structure ArrivingStream (Seg Item : Type) where
  left : List (List Item)
  owner : Arriving Seg Item

variable {Seg Item : Type} [ItemSegment Seg Item] [OfItems Seg]

instance : Sequence (Arriving Seg Item) Seg where
  Stream := ArrivingStream Seg Item
  segments s := { left := s.seen.chunks, owner := s }
  next st _ := match st.left with
    | [] => Run.diverge
    | c :: cs => pure (some (OfItems.ofItems c), { st with left := cs })
  release st := st.owner
  advance s n := do
    let seen ← Sequence.advance s.seen n
    return { seen }

instance : RewindSequence (Arriving Seg Item) where
  Anchor := Chunked Seg Item
  anchor s := s.seen
  rewind s a := do
    let seen ← RewindSequence.rewind s.seen a
    return { seen }

theorem arriving_owner (s : Arriving Seg Item) {st st' : Stream (Arriving Seg Item)} (h : Reads st st') :
    st.owner = s → st'.owner = s := by
  induction h with
  | refl => exact id
  | @step st st₁ st₂ n o hn _ ih =>
    intro ho
    apply ih
    rcases hl : st.left with _ | ⟨c, cs⟩
    · simp [Sequence.next, hl] at hn
    · simp [Sequence.next, hl] at hn; rw [← hn.2]; exact ho

theorem arriving_stalls (cs : List (List Item)) (s : Arriving Seg Item) :
    Stalls (S := Arriving Seg Item) (Seg := Seg) ({ left := cs, owner := s } : ArrivingStream Seg Item) (cs.map OfItems.ofItems) := by
  induction cs with
  | nil => exact .wait fun _ => rfl
  | cons c cs ih => exact .seg (fun _ => ({ left := cs, owner := s } : ArrivingStream Seg Item)) (fun _ => rfl) fun _ => ih

instance : Unfinished (Arriving Seg Item) where
  arrived s := content s.seen
  segs s := s.seen.chunks.map OfItems.ofItems
  stalls s := arriving_stalls s.seen.chunks s
  concat s := LawfulSequence.concat s.seen
  release s st h := by
    have h1 : Sequence.release (S := Arriving Seg Item) st = s := arriving_owner s h rfl
    rw [h1]
  advance s pre post h := by
    obtain ⟨s', h1, h2⟩ := LawfulSequence.advance s.seen pre post h
    exact ⟨⟨s'⟩, by show (Sequence.advance s.seen _ >>= _) = _; rw [h1]; rfl, h2⟩
  Desc s r := s.seen.consumed ≤ r.seen.consumed
  refl _ := Nat.le_refl _
  trans := Nat.le_trans
  descRelease s st h := by
    have h1 : Sequence.release (S := Arriving Seg Item) st = s := arriving_owner s h rfl
    rw [h1]; exact Nat.le_refl _
  descAdvance s s' pre post h h' := by
    obtain ⟨t, h1, h2⟩ := LawfulSequence.advance s.seen pre post h
    have h3 : (Sequence.advance s.seen (extent Seg pre) >>= fun x => pure ({ seen := x } : Arriving Seg Item)) = pure s' := h'
    rw [h1] at h3
    simp at h3
    rw [← h3]
    exact LawfulRewind.advance s.seen t pre post h h1
  rewind {s r} h := by
    show ((if s.seen.consumed ≤ r.seen.consumed then pure s.seen else Run.fault .foreignAnchor) >>= _) = _
    rw [if_pos h]
    rfl

end Parcom.Spec
