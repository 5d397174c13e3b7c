import Verif.Model.Loader
/-!
# Writers of items whose destructors panic

`Model/Writer` and the writer of `Model/Loader` again, for items of which `panics` says which panic when they are dropped. Here a
panic is a result, since the source, or whoever polls the load, may catch it. A destructor that panics while a panic unwinds
aborts the process (std: "panic in a destructor during cleanup").
-/
namespace Parcom
variable {T : Type}

/-- `std::ptr::drop_in_place` on the items `i..i+k` (std), in order: whether it panicked, the memory, the items dropped. When the
destructor of one panics, the others are dropped while unwinding. -/
def RawVec.dropItems (panics : T → Bool) (v : RawVec T) (unwinding : Bool) (i : Nat) : Nat → Run (Bool × RawVec T × List T)
  | 0 => pure (unwinding, v, [])
  | k + 1 => do
    let x ← v.read i
    let v ← v.dropAt i
    if panics x ∧ unwinding then
      Run.fault .abort
    let (p, v, xs) ← v.dropItems panics (unwinding || panics x) (i + 1) k
    return (p, v, x :: xs)

/-- `Vec::set_len` (std): the length must be within the capacity and the cells it adds must hold items. `RawVec.setLen` asks that
of all cells, which is the same while no item of the vector has been dropped. -/
def RawVec.setLenTo (v : RawVec T) (n : Nat) : Run (RawVec T) :=
  if n ≤ v.cap ∧ (List.range n).all (fun i => i < v.len || (v.cells i).isSome) = true then pure { v with len := n } else Run.fault .ub

/-- Dropping a `Vec` (std): its items, then, also if that panicked, its memory. -/
def RawVec.dropVec (panics : T → Bool) (v : RawVec T) : Run (Bool × List T) := do
  let (p, _, xs) ← v.dropItems panics false 0 v.len
  return (p, xs)

/-- The loader's writer (control.rs:76-121), with `setLenTo`. -/
def panicWriter (env : Env) : BufferWriter (Request T) T (Response T Unit × RawVec T) Unit :=
  { requestBufferWriter env with
    setLen := fun r n => do
      let buf ← r.buf.setLenTo (n + r.offset)
      return { r with buf } }

/-- What an operation on a writer did, if it returned or panicked: whether it panicked, the writer, the items it dropped, the
items it handed back. -/
structure Settled (T : Type) where
  panicked : Bool
  writer : Request T
  dropped : List T
  back : List T

/-- `shrink_to` (buffer_writer.rs:65-80). A panic in `drop_in_place` leaves it there, before `set_len`. -/
def Request.shrinkTo (panics : T → Bool) (env : Env) (r : Request T) (newLen : Nat) : Run (Settled T) := do
  let len ← (panicWriter env).len r
  if ¬ newLen ≤ len then
    return { panicked := true, writer := r, dropped := [], back := [] }
  if newLen = len then
    return { panicked := false, writer := r, dropped := [], back := [] }
  let (p, buf, dropped) ← r.buf.dropItems panics false (r.offset + newLen) (len - newLen)
  let r := { r with buf }
  if p then
    return { panicked := true, writer := r, dropped, back := [] }
  let r ← (panicWriter env).setLen r newLen
  return { panicked := false, writer := r, dropped, back := [] }

/-- `as_mut_slice()[i] = x` (`as_mut_slice`: buffer_writer.rs:28-32). The new item is there also if dropping the old one panics. If
`i` is out of bounds, unwinding drops `x`. -/
def Request.setItem (panics : T → Bool) (env : Env) (r : Request T) (i : Nat) (x : T) : Run (Settled T) := do
  let len ← (panicWriter env).len r
  if i < len then
    let old ← (panicWriter env).read r i
    let r ← (panicWriter env).dropAt r i
    let r ← (panicWriter env).write r i x
    return { panicked := panics old, writer := r, dropped := [old], back := [] }
  else
    if panics x then
      Run.fault .abort
    return { panicked := true, writer := r, dropped := [x], back := [] }

/-- `Request::cancel` (control.rs:117-120): `Vec::drain` shortens the vector before the items are dropped. Whether it panicked, the
buffer, the items dropped. -/
def Request.cancelled (panics : T → Bool) (r : Request T) : Run (Bool × RawVec T × List T) :=
  if r.offset ≤ r.buf.len then
    ({ r.buf with len := r.offset } : RawVec T).dropItems panics false r.offset (r.buf.len - r.offset)
  else Run.fault .bounds

/-- One operation of a source. `push` and the two ways to write through pointers drop nothing. -/
def WriterOp.runPanicking (panics : T → Bool) (env : Env) (r : Request T) : WriterOp T → Run (Settled T)
  | .push x => do
    let (o, r) ← (panicWriter env).pushItem r x
    return { panicked := false, writer := r, dropped := [], back := o.toList }
  | .fill xs => do
    let (start, len) ← (panicWriter env).spareCapacity env.build r
    if xs.length ≤ len then
      let r ← (panicWriter env).writeMany r start xs
      let r ← (panicWriter env).setLen r (start + xs.length)
      return { panicked := false, writer := r, dropped := [], back := [] }
    else
      return { panicked := false, writer := r, dropped := [], back := xs }
  | .shrink n => r.shrinkTo panics env n
  | .set i x => r.setItem panics env i x
  | .raw xs => do
    let len ← (panicWriter env).len r
    let r ← (panicWriter env).writeMany r len xs
    let r ← (panicWriter env).setLen r (len + xs.length)
    return { panicked := false, writer := r, dropped := [], back := [] }

end Parcom
