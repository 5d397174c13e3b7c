import Verif.Spec.Peg
import Verif.Spec.Sequence
/-!
# Counting what a parser asks of its input

`Counted S` is a sequence that passes every call on to a sequence `S` and counts the calls of `segments`, `next`,
`advance` and `rewind`. The count goes on through a rewind. Parsers are generic in the sequence, so they cannot see it.
-/
namespace Parcom.Spec
open Parcom Sequence

/-- A sequence and the number of calls made of it so far. -/
structure Counted (S : Type) where
  inner : S
  calls : Nat

instance {S Seg : Type} [Sequence S Seg] : Sequence (Counted S) Seg where
  Stream := Stream S × Nat
  segments s := (segments s.inner, s.calls + 1)
  next st n := do
    let (o, st') ← next st.1 n
    return (o, (st', st.2 + 1))
  release st := { inner := release st.1, calls := st.2 }
  advance s n := do
    let s' ← advance s.inner n
    return { inner := s', calls := s.calls + 1 }

instance {S : Type} [RewindSequence S] : RewindSequence (Counted S) where
  Anchor := RewindSequence.Anchor S
  anchor s := anchor s.inner
  rewind s a := do
    let s' ← rewind s.inner a
    return { inner := s', calls := s.calls + 1 }

/-- The sequence a result leaves. -/
def left {S O E : Type} : PResult S O E → S
  | .ok _ r => r
  | .err _ u => u.val

/-- The number of symbols of an expression. -/
def Peg.size : Peg → Nat
  | .char _ => 1
  | .any => 1
  | .seq g h => g.size + h.size + 1
  | .alt g h => g.size + h.size + 1
  | .opt g => g.size + 1
  | .star g => g.size + 1

/-- How deep repetitions are nested in an expression. -/
def Peg.depth : Peg → Nat
  | .char _ => 0
  | .any => 0
  | .seq g h => max g.depth h.depth
  | .alt g h => max g.depth h.depth
  | .opt g => g.depth
  | .star g => g.depth + 1

section
variable {S : Type} [Sequence S Str] [LawfulSequence S]

/-- Where one gets from `s` by reading and moving over characters that are there. -/
inductive Leads (s : S) : S → Prop where
  | here : Leads s s
  | read {r : S} {st : Stream S} : Leads s r → Reads (segments r) st → Leads s (release st)
  | move {r r' : S} (pre post : List Char) : Leads s r → content r = pre ++ post →
      advance r (extent Str pre) = pure r' → Leads s r'

/-- Wherever one gets from `s`, there are at most `k` segments ahead. -/
def FewSegments (k : Nat) (s : S) : Prop :=
  ∀ r, Leads s r → (segs r).length ≤ k

end
end Parcom.Spec
