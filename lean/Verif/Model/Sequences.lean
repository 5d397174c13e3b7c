import Verif.Model.Core
/-!
# The sequences of parcom-core: `&str`, `&[T]`, and their `Measured` versions

`crates/parcom-core/src/primitive.rs`, `primitive/str.rs`, `primitive/slice.rs`, `sequence/measured.rs`.

A reference carries the allocation it points into and the offset (in bytes for `str`, in elements for slices), because
`rewind` compares pointers.
-/
namespace Parcom

/-! ## `[T]` as a segment -/

/-- `<[T]>::split_at` of std: panics if `mid > len`. -/
def listSplitAt {α : Type} (s : List α) (mid : Nat) : Run (List α × List α) :=
  if mid ≤ s.length then pure (s.take mid, s.drop mid) else Run.fault .bounds

/-- `impl SequenceSegment for [T]` (primitive/slice.rs:45-55). -/
instance {α : Type} : SequenceSegment (List α) where
  len s := s.length
  splitAt s mid := listSplitAt s mid

/-! ## `str` as a segment -/

/-- `str`: a sequence of characters whose lengths and indices are counted in UTF-8 bytes. -/
structure Str where
  chars : List Char
  deriving DecidableEq, Repr

/-- `str::len` of std: the number of UTF-8 bytes. `BytesDelta::from_str` (primitive.rs:54-56) wraps it. -/
def byteLen : List Char → Nat
  | [] => 0
  | c :: cs => c.utf8Size + byteLen cs

/-- The cut of a text after `n` bytes, if that is a char boundary (`str::is_char_boundary` of std). -/
def cutBytes : List Char → Nat → Option (List Char × List Char)
  | cs, 0 => some ([], cs)
  | [], _ + 1 => none
  | c :: cs, n + 1 =>
    if c.utf8Size ≤ n + 1 then
      (cutBytes cs (n + 1 - c.utf8Size)).map fun (a, b) => (c :: a, b)
    else none

/-- `str::split_at` of std: panics unless `mid` is a char boundary. -/
def strSplitAt (s : Str) (mid : Nat) : Run (Str × Str) :=
  match cutBytes s.chars mid with
  | some (a, b) => pure (⟨a⟩, ⟨b⟩)
  | none => Run.fault .charBoundary

/-- `impl SequenceSegment for str` (primitive/str.rs:132-142). -/
instance : SequenceSegment Str where
  len s := byteLen s.chars
  splitAt s mid := strSplitAt s mid

/-! ## The one-segment stream -/

/-- `struct Nodes` (primitive.rs:19-21) together with the borrowed sequence it came from. -/
structure Nodes (S Seg : Type) where
  me : Option Seg
  owner : S

/-- `SegmentStream::next` for `Nodes` (primitive.rs:23-34): `self.me.take()`; the size hint is ignored. -/
def Nodes.next {S Seg : Type} (n : Nodes S Seg) (_hint : Nat) : Run (Option Seg × Nodes S Seg) :=
  pure (n.me, { n with me := none })

/-! ## `&[T]` -/

/-- `std::mem::size_of::<T>()`. -/
class MemSize (T : Type) where
  sizeOf : Nat

/-- `&[T]`: allocation, element offset in it, elements. -/
structure SliceRef (α : Type) where
  alloc : Nat
  off : Nat
  items : List α
  deriving DecidableEq, Repr

/-- `Sequence::advance` for `&[T]` (primitive/slice.rs:20-22): `&self[count..]`. -/
def SliceRef.advance {α : Type} (s : SliceRef α) (count : Nat) : Run (SliceRef α) :=
  if count ≤ s.items.length then
    pure { s with off := s.off + count, items := s.items.drop count }
  else Run.fault .bounds

/-- `impl Sequence for &[T]` (primitive/slice.rs:7-23). -/
instance {α : Type} : Sequence (SliceRef α) (List α) where
  Stream := Nodes (SliceRef α) (List α)
  segments s := { me := some s.items, owner := s }
  next := Nodes.next
  release st := st.owner
  advance := SliceRef.advance

/-- `RewindSequence::rewind` for `&[T]` (primitive/slice.rs:33-42). `offset_from` panics for zero-sized `T` and is
undefined for pointers into different allocations. -/
def SliceRef.rewind {α : Type} [MemSize α] (s a : SliceRef α) : Run (SliceRef α) :=
  if MemSize.sizeOf α = 0 then Run.fault .zeroSized
  else if s.alloc ≠ a.alloc then Run.fault .ub
  else
    let offset : Int := (s.off : Int) - a.off
    if ¬ (offset < 0) ∧ offset.toNat ≤ a.items.length then pure a
    else Run.fault .foreignAnchor

/-- `impl RewindSequence for &[T]` (primitive/slice.rs:25-43); the anchor is a copy of the reference. -/
instance {α : Type} [MemSize α] : RewindSequence (SliceRef α) where
  Anchor := SliceRef α
  anchor s := s
  rewind := SliceRef.rewind

/-! ## `&str` -/

/-- `&str`: allocation, byte offset in it, text. -/
structure StrRef where
  alloc : Nat
  off : Nat
  text : Str
  deriving DecidableEq, Repr

/-- The string literal `""` of primitive/str.rs:22, a static of its own: allocation 0 stands for it. -/
def StrRef.emptyLiteral : StrRef := { alloc := 0, off := 0, text := ⟨[]⟩ }

/-- `str::get(delta..)` of std: the suffix, or `None` out of bounds or off a char boundary. -/
def StrRef.getFrom (s : StrRef) (delta : Nat) : Option StrRef :=
  (cutBytes s.text.chars delta).map fun (_, b) => { alloc := s.alloc, off := s.off + delta, text := ⟨b⟩ }

/-- `Sequence::advance` for `&str` (primitive/str.rs:20-24): `self.get(delta..).unwrap_or("")`. -/
def StrRef.advance (s : StrRef) (delta : Nat) : Run StrRef :=
  pure ((s.getFrom delta).getD StrRef.emptyLiteral)

/-- `impl Sequence for &str` (primitive/str.rs:7-25). -/
instance : Sequence StrRef Str where
  Stream := Nodes StrRef Str
  segments s := { me := some s.text, owner := s }
  next := Nodes.next
  release st := st.owner
  advance := StrRef.advance

/-- `RewindSequence::rewind` for `&str` (primitive/str.rs:35-44). -/
def StrRef.rewind (s a : StrRef) : Run StrRef :=
  if s.alloc ≠ a.alloc then Run.fault .ub
  else
    let offset : Int := (s.off : Int) - a.off
    if ¬ (offset < 0) ∧ offset.toNat ≤ byteLen a.text.chars then pure a
    else Run.fault .foreignAnchor

/-- `impl RewindSequence for &str` (primitive/str.rs:27-45). -/
instance : RewindSequence StrRef where
  Anchor := StrRef
  anchor s := s
  rewind := StrRef.rewind

/-! ## `PeekableSequence` -/

/-- `PeekableSequence::peek` for `&str` (primitive/str.rs:55-64): a copy of the reference. -/
def StrRef.peek (s : StrRef) : StrRef := s

/-- `PeekableSequence::peek` for `&[T]` (primitive/slice.rs:65-74). -/
def SliceRef.peek {α : Type} (s : SliceRef α) : SliceRef α := s

/-! ## `Measured` -/

/-- `struct Measured` over `&str` (primitive/str.rs:66-70). -/
structure MeasuredStr (μ : Type) where
  meter : μ
  base : StrRef
  deriving DecidableEq, Repr

/-- `struct Measured` over `&[T]` (primitive/slice.rs:76-80). -/
structure MeasuredSlice (α μ : Type) where
  meter : μ
  base : SliceRef α
  deriving DecidableEq, Repr

/-- `IntoMeasured::into_measured_with` for `&str` (primitive/str.rs:50-52). -/
def StrRef.intoMeasuredWith {μ : Type} (s : StrRef) (meter : μ) : MeasuredStr μ := { meter, base := s }

/-- `IntoMeasured::into_measured_with` for `&[T]` (primitive/slice.rs:60-62). -/
def SliceRef.intoMeasuredWith {α μ : Type} (s : SliceRef α) (meter : μ) : MeasuredSlice α μ := { meter, base := s }

/-- `&segment[..end]` on a `str`: panics off a char boundary. -/
def strPrefix (s : Str) (e : Nat) : Run Str :=
  match cutBytes s.chars e with
  | some (a, _) => pure ⟨a⟩
  | none => Run.fault .charBoundary

/-- `Sequence::advance` for `Measured` over `&str` (primitive/str.rs:98-104). -/
def MeasuredStr.advance {μ M : Type} [Meter μ Str M] (s : MeasuredStr μ) (delta : Nat) : Run (MeasuredStr μ) := do
  let segment := s.base.text
  let e := min (byteLen segment.chars) delta
  let pre ← strPrefix segment e
  let meter := Meter.advance s.meter pre
  let base ← s.base.advance delta
  return { meter, base }

/-- `impl Sequence for Measured` over `&str` (primitive/str.rs:85-105). -/
instance {μ M : Type} [Meter μ Str M] : Sequence (MeasuredStr μ) Str where
  Stream := Nodes (MeasuredStr μ) Str
  segments s := { me := some s.base.text, owner := s }
  next := Nodes.next
  release st := st.owner
  advance := MeasuredStr.advance

/-- `impl RewindSequence for Measured` over `&str` (primitive/str.rs:107-122): no check, the anchor is a clone. -/
instance {μ : Type} : RewindSequence (MeasuredStr μ) where
  Anchor := MeasuredStr μ
  anchor s := s
  rewind _ a := pure a

/-- `MeasuredSequence::metrics` for `Measured` over `&str` (primitive/str.rs:124-130). -/
def MeasuredStr.metrics {μ M : Type} [Meter μ Str M] (s : MeasuredStr μ) : M := Meter.metrics Str s.meter

/-- `&segment[..end]` on a slice: panics out of bounds. -/
def slicePrefix {α : Type} (s : List α) (e : Nat) : Run (List α) :=
  if e ≤ s.length then pure (s.take e) else Run.fault .bounds

/-- `Sequence::advance` for `Measured` over `&[T]` (primitive/slice.rs:108-114). -/
def MeasuredSlice.advance {α μ M : Type} [Meter μ (List α) M] (s : MeasuredSlice α μ) (delta : Nat) :
    Run (MeasuredSlice α μ) := do
  let segment := s.base.items
  let e := min segment.length delta
  let pre ← slicePrefix segment e
  let meter := Meter.advance s.meter pre
  let base ← s.base.advance delta
  return { meter, base }

/-- `impl Sequence for Measured` over `&[T]` (primitive/slice.rs:95-115). -/
instance {α μ M : Type} [Meter μ (List α) M] : Sequence (MeasuredSlice α μ) (List α) where
  Stream := Nodes (MeasuredSlice α μ) (List α)
  segments s := { me := some s.base.items, owner := s }
  next := Nodes.next
  release st := st.owner
  advance := MeasuredSlice.advance

/-- `impl RewindSequence for Measured` over `&[T]` (primitive/slice.rs:117-132). -/
instance {α μ : Type} : RewindSequence (MeasuredSlice α μ) where
  Anchor := MeasuredSlice α μ
  anchor s := s
  rewind _ a := pure a

/-- `MeasuredSequence::metrics` for `Measured` over `&[T]` (primitive/slice.rs:134-140). -/
def MeasuredSlice.metrics {α μ M : Type} [Meter μ (List α) M] (s : MeasuredSlice α μ) : M :=
  Meter.metrics (List α) s.meter

/-- `impl Meter for usize` with `impl Measureable<usize> for [T]` (sequence/measured.rs:36-57). Overflow of the
counter is modelled in `Model/Counters` (C112). -/
instance {α : Type} : Meter Nat (List α) Nat where
  advance n seg := n + seg.length
  metrics n := n

end Parcom
