import Verif.Model.BinExpr
/-!
# Buffer writers

`crates/parcom-sequence-core/src/buffer_writer.rs`, `crates/parcom-sequence-core/src/lib.rs`,
`crates/parcom-sequence-core/src/load_info.rs`.

A writer hands out raw pointers, so memory is explicit: a `Vec` is an allocation of `cap` cells, each holding an item or
nothing. What Rust leaves undefined is the fault `ub`.

`usize` sums are natural numbers where they are positions inside allocations, which do not overflow. Differences can be
negative; then the outcome depends on the build. Not modelled: `push`, whose trait `WriteTo` is private to the crate
and has no implementation.
-/
namespace Parcom

/-- `usize` subtraction of std. -/
def usizeSub (b : Build) (x y : Nat) : Run Nat :=
  if y ≤ x then pure (x - y)
  else match b with
    | .checked => Run.fault .overflow
    | .wrapping => pure (x + (usizeMax + 1) - y)

/-! ## `Vec` (std) -/

/-- `Vec<T>`: an allocation of `cap` cells of which the first `len` belong to the vector. -/
structure RawVec (T : Type) where
  cap : Nat
  len : Nat
  cells : Nat → Option T

namespace RawVec
variable {T : Type}

/-- `Vec::new` and `Vec::with_capacity`, given the capacity the vector then has. -/
def empty (cap : Nat) : RawVec T := { cap := cap, len := 0, cells := fun _ => none }

/-- `*ptr.add(i)`: the cell must be inside the allocation and hold an item. -/
def read (v : RawVec T) (i : Nat) : Run T :=
  if i < v.cap then
    match v.cells i with
    | some x => pure x
    | none => Run.fault .ub
  else Run.fault .ub

/-- `ptr.add(i).write(x)`: the cell must be inside the allocation. -/
def write (v : RawVec T) (i : Nat) (x : T) : Run (RawVec T) :=
  if i < v.cap then pure { v with cells := fun j => if j = i then some x else v.cells j }
  else Run.fault .ub

/-- `drop_in_place(ptr.add(i))`: the cell must hold an item, and holds none afterwards. -/
def dropAt (v : RawVec T) (i : Nat) : Run (RawVec T) := do
  let _ ← v.read i
  return { v with cells := fun j => if j = i then none else v.cells j }

/-- `Vec::set_len`: the length must be within the capacity and the cells must hold items. -/
def setLen (v : RawVec T) (n : Nat) : Run (RawVec T) :=
  if n ≤ v.cap ∧ (List.range n).all (fun i => (v.cells i).isSome) = true then pure { v with len := n } else Run.fault .ub

/-- The items `a .. a + n`, read one by one. -/
def readMany (v : RawVec T) (a : Nat) : Nat → Run (List T)
  | 0 => pure []
  | n + 1 => do
    let x ← v.read a
    let xs ← v.readMany (a + 1) n
    return x :: xs

/-- `Vec::drain(from..)`, the iterator being dropped at once: panics if `from` is beyond the end. -/
def drain (v : RawVec T) (start : Nat) : Run (RawVec T) :=
  if start ≤ v.len then pure { v with len := start, cells := fun j => if start ≤ j ∧ j < v.len then none else v.cells j }
  else Run.fault .bounds

end RawVec

/-! ## The traits -/

/-- `trait BufferWriter` (buffer_writer.rs:3-20), the methods without a body. The pointers returned by `as_ptr` and
`as_mut_ptr` are only ever used at an offset, so they are modelled by the accesses: `read i` is `*as_ptr().add(i)`,
`write i x` is `as_mut_ptr().add(i).write(x)`, `dropAt i` is `drop_in_place(as_mut_ptr().add(i))`, and `within i n`
checks that `n` cells from `as_mut_ptr().add(i)` are inside the allocation. Methods taking `&mut self` return the new
state. -/
structure BufferWriter (W T R E : Type) where
  capacity : W → Run Nat
  len : W → Run Nat
  read : W → Nat → Run T
  write : W → Nat → T → Run W
  dropAt : W → Nat → Run W
  within : W → Nat → Nat → Run Unit
  setLen : W → Nat → Run W
  advance : W → Run R
  cancel : W → E → Run R

namespace BufferWriter
variable {W T R E : Type} (B : BufferWriter W T R E)

/-- Reading `n` items from offset `a`. -/
def readMany (w : W) (a : Nat) : Nat → Run (List T)
  | 0 => pure []
  | n + 1 => do
    let x ← B.read w a
    let xs ← readMany w (a + 1) n
    return x :: xs

/-- Writing items from offset `a`. -/
def writeMany (w : W) (a : Nat) : List T → Run W
  | [] => pure w
  | x :: xs => do
    let w ← B.write w a x
    writeMany w (a + 1) xs

/-- Dropping `n` items from offset `a`. -/
def dropMany (w : W) (a : Nat) : Nat → Run W
  | 0 => pure w
  | n + 1 => do
    let w ← B.dropAt w a
    dropMany w (a + 1) n

/-- `as_slice` (buffer_writer.rs:22-26), read in full. -/
def asSlice (w : W) : Run (List T) := do
  let len ← B.len w
  B.readMany w 0 len

/-- `as_mut_slice()[i] = x` (`as_mut_slice`: buffer_writer.rs:28-32): what was there is dropped. Panics if `i` is not below
the length. -/
def setItem (w : W) (i : Nat) (x : T) : Run W := do
  let len ← B.len w
  if i < len then
    let w ← B.dropAt w i
    B.write w i x
  else
    Run.fault .bounds

/-- `spare_capacity` (buffer_writer.rs:34-41): where the slice begins and its length. The slice must be inside the
allocation. -/
def spareCapacity (b : Build) (w : W) : Run (Nat × Nat) := do
  let written ← B.len w
  let cap ← B.capacity w
  let len ← usizeSub b cap written
  B.within w written len
  return (written, len)

/-- `push_item` (buffer_writer.rs:50-63): `some item` is `Err(item)`. -/
def pushItem (w : W) (item : T) : Run (Option T × W) := do
  let written ← B.len w
  let cap ← B.capacity w
  if written = cap then
    return (some item, w)
  let w ← B.write w written item
  let w ← B.setLen w (written + 1)
  return (none, w)

/-- `shrink_to` (buffer_writer.rs:65-80). -/
def shrinkTo (w : W) (newLen : Nat) : Run W := do
  let len ← B.len w
  if ¬ newLen ≤ len then
    Run.fault .assertion
  if newLen = len then
    return w
  let w ← B.dropMany w newLen (len - newLen)
  B.setLen w newLen

end BufferWriter

/-- `trait SequenceControl` (parcom-sequence-core/src/lib.rs:84-94). -/
structure SequenceControl (C W T R E : Type) where
  writer : BufferWriter W T R E
  requestWriter : C → Nat → Run W
  cancel : C → E → Run R
  finish : C → Run R

/-- `struct LoadInfo` (load_info.rs:1-6). -/
structure LoadInfo where
  commited : Nat
  uncommited : Nat
  bufferCapacity : Nat
  isDone : Bool
  deriving DecidableEq, Repr

/-- `LoadInfo::new` (load_info.rs:9-16). -/
def LoadInfo.new (commited uncommited bufferCapacity : Nat) : LoadInfo :=
  { commited, uncommited, bufferCapacity, isDone := false }

/-- `LoadInfo::done` (load_info.rs:18-25). -/
def LoadInfo.done (commited : Nat) : LoadInfo :=
  { commited, uncommited := 0, bufferCapacity := 0, isDone := true }

/-! ## Sources -/

/-- What a source does with a writer: `push_item`, filling the slice obtained by `spare_capacity` from its start and
calling `set_len`, `shrink_to`, replacing an item of the slice obtained by `as_mut_slice`, or, not looking at any capacity,
writing through `as_mut_ptr` behind what is written and calling `set_len`. -/
inductive WriterOp (T : Type) where
  | push (item : T)
  | fill (items : List T)
  | shrink (len : Nat)
  | set (i : Nat) (item : T)
  | raw (items : List T)

/-- How it lets go of it. `drop` stands for everything that ends a load before there is a result: the `Load` future is
dropped while the source is waiting, or the source panics. -/
inductive WriterEnd (E : Type) where
  | advance
  | cancel (e : E)
  | drop

/-- What one call of `SequenceSource::next` (parcom-sequence-core/src/lib.rs:72-82) does with its control. Since `next` is
generic in the control, calling these methods is all it can do, and a result can only come from them. What it does may
depend on what the methods return; every such run is some script. In `lost s` it has done `s` and got its result, but the
`Load` future is dropped, or the source panics, before the result is taken from it: `next` may have done everything when
it returns, before its future is polled, and `IteratorSource` has. -/
inductive Script (T E : Type) where
  | request (minSize : Nat) (ops : List (WriterOp T)) (fin : WriterEnd E)
  | cancel (e : E)
  | finish
  | drop
  | lost (s : Script T E)

/-- What became of the control. -/
inductive Outcome (C W R : Type) where
  | done (r : R)
  | droppedWriter (w : W)
  | droppedControl (c : C)
  | droppedResult (r : R)

/-- One operation of a source, with the items it should then assume are written: `told` before, second component after. -/
def WriterOp.run {W T R E : Type} (b : Build) (B : BufferWriter W T R E) (w : W) (told : List T) : WriterOp T → Run (W × List T)
  | .push x => do
    let (r, w) ← B.pushItem w x
    match r with
    | none => return (w, told ++ [x])
    | some _ => return (w, told)
  | .fill xs => do
    let (start, len) ← B.spareCapacity b w
    if xs.length ≤ len then
      let w ← B.writeMany w start xs
      let w ← B.setLen w (start + xs.length)
      return (w, told ++ xs)
    else
      return (w, told)
  | .shrink n => do
    let w ← B.shrinkTo w n
    return (w, told.take n)
  | .set i x => do
    let w ← B.setItem w i x
    return (w, told.set i x)
  | .raw xs => do
    let len ← B.len w
    let w ← B.writeMany w len xs
    let w ← B.setLen w (len + xs.length)
    return (w, told ++ xs)

/-- Several operations. -/
def runOps {W T R E : Type} (b : Build) (B : BufferWriter W T R E) : W → List T → List (WriterOp T) → Run (W × List T)
  | w, told, [] => pure (w, told)
  | w, told, op :: ops => do
    let (w, told) ← op.run b B w told
    runOps b B w told ops

/-- A whole script. The second component is what the source should assume to have written. -/
def Script.run {C W T R E : Type} (b : Build) (S : SequenceControl C W T R E) (c : C) : Script T E → Run (Outcome C W R × List T)
  | .request n ops fin => do
    let w ← S.requestWriter c n
    let (w, told) ← runOps b S.writer w [] ops
    match fin with
    | .advance => do
      let r ← S.writer.advance w
      return (.done r, told)
    | .cancel e => do
      let r ← S.writer.cancel w e
      return (.done r, told)
    | .drop => return (.droppedWriter w, told)
  | .cancel e => do
    let r ← S.cancel c e
    return (.done r, [])
  | .finish => do
    let r ← S.finish c
    return (.done r, [])
  | .drop => return (.droppedControl c, [])
  | .lost s => do
    let (out, told) ← s.run b S c
    match out with
    | .done r => return (.droppedResult r, told)
    | out => return (out, told)

end Parcom
