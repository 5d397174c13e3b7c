import Verif.Model.Writer
/-!
# The generic sequence: loader and buffer

`crates/parcom-sequences/src/generic.rs`, `generic/control.rs`, `generic/loader.rs`, `generic/buffer.rs`,
`buffer_strategy.rs`.

Loader and buffer share a list of `OnceLock` cells. A cell is set once and read by `get`; both are atomic. Everything else
is private to one side, so an execution is a sequence of loader operations and of `get`s of the buffer's methods.
-/
namespace Parcom
variable {T E : Type}

/-- What a load depends on beside the loader: the build, the `BufferStrategy` (buffer_strategy.rs:3-5), and the allocator:
the capacity of a new `Vec` asked for some capacity, or a panic. It may differ from load to load. -/
structure Env where
  build : Build
  calcCapacity : Nat → Run Nat
  withCapacity : Nat → Run Nat
  /-- `Vec::new().capacity()`: 0, or `usize::MAX` for zero-sized items -/
  newCapacity : Nat

/-! ## The control -/

/-- `struct Control` (control.rs:7-11); `buf` is what is behind the `&mut`. -/
structure Control (T : Type) where
  buf : RawVec T

/-- `enum Response` (control.rs:62-67). -/
inductive Response (T E : Type) where
  | appended (len cap : Nat)
  | advance (buf : RawVec T) (len cap : Nat)
  | finish (buf : RawVec T)
  | cancel (e : E)

/-- `struct Request` (control.rs:69-74). -/
structure Request (T : Type) where
  toAppend : RawVec T
  buf : RawVec T
  offset : Nat

/-- `Control::request_writer` (control.rs:29-51). -/
def Control.requestWriter (env : Env) (c : Control T) (minSize : Nat) : Run (Request T) := do
  let offset := c.buf.len
  let spareCapacity ← usizeSub env.build c.buf.cap offset
  if spareCapacity ≥ minSize then
    return { toAppend := .empty env.newCapacity, buf := c.buf, offset := offset }
  else
    let cap ← env.calcCapacity minSize
    let got ← env.withCapacity cap
    return { toAppend := c.buf, buf := .empty got, offset := 0 }

/-- `Request::advance` (control.rs:102-115), with what it leaves behind the `&mut`. -/
def Request.advance (r : Request T) : Response T E × RawVec T :=
  if r.toAppend.len = 0 then (.appended r.buf.len r.buf.cap, r.buf)
  else (.advance r.toAppend r.buf.len r.buf.cap, r.buf)

/-- `impl BufferWriter for Request` (control.rs:76-121): `capacity` 82-84, `len` 86-88, `as_ptr` and `as_mut_ptr` 90-96,
`set_len` 98-100, `advance` 102-115, `cancel` 117-120. -/
def requestBufferWriter (env : Env) : BufferWriter (Request T) T (Response T E × RawVec T) E where
  capacity r := usizeSub env.build r.buf.cap r.buf.len
  len r := usizeSub env.build r.buf.len r.offset
  read r i := r.buf.read (r.offset + i)
  write r i x := do
    let buf ← r.buf.write (r.offset + i) x
    return { r with buf }
  dropAt r i := do
    let buf ← r.buf.dropAt (r.offset + i)
    return { r with buf }
  within r i n := if r.offset + i + n ≤ r.buf.cap then pure () else Run.fault .ub
  setLen r n := do
    let buf ← r.buf.setLen (n + r.offset)
    return { r with buf }
  advance r := pure r.advance
  cancel r e := do
    let buf ← r.buf.drain r.offset
    return (.cancel e, buf)

/-- `impl SequenceControl for Control` (control.rs:23-60): `cancel` 53-55, `finish` 57-59. -/
def genericControl (env : Env) : SequenceControl (Control T) (Request T) T (Response T E × RawVec T) E where
  writer := requestBufferWriter env
  requestWriter := Control.requestWriter env
  cancel c e := pure (.cancel e, c.buf)
  finish c := pure (.finish c.buf, .empty env.newCapacity)

/-! ## The loader -/

/-- `struct Node` (generic.rs:13-16); `next` is the address of a cell. -/
structure Node (T : Type) where
  buf : RawVec T
  next : Nat

/-- The `OnceLock` cells, by address. -/
structure Cells (T : Type) where
  get : Nat → Option (Node T)
  fresh : Nat

/-- `struct GenericSequenceLoader` (loader.rs:11-16), without the source and the strategy. -/
structure Loader (T : Type) where
  buf : RawVec T
  tail : Nat

/-- `commit_to` (loader.rs:40-48). `Arc::new(OnceLock::new())` takes a fresh address. -/
def commitTo (h : Cells T) (tail : Nat) (buf : RawVec T) : Run (Cells T × Nat) :=
  let next := h.fresh
  match h.get tail with
  | some _ => Run.fault .assertion
  | none => pure ({ get := fun i => if i = tail then some { buf, next } else h.get i, fresh := next + 1 }, next)

/-- `Load::poll` (loader.rs:57-79) once the source is ready. -/
def finishLoad (h : Cells T) (tail : Nat) : Response T E → Run (Except E LoadInfo × Cells T × Nat)
  | .appended len cap => pure (.ok (.new 0 len cap), h, tail)
  | .advance buf len cap => do
    let commited := buf.len
    let (h, tail) ← commitTo h tail buf
    return (.ok (.new commited len cap), h, tail)
  | .finish buf => do
    let commited := buf.len
    let (h, tail) ← commitTo h tail buf
    return (.ok (.done commited), h, tail)
  | .cancel e => pure (.error e, h, tail)

/-- `load` (loader.rs:100-105) and polling it to its end. `none`: it was dropped before. A result it had then is dropped
with it, and the `Vec`s in it. -/
def load (env : Env) (s : Script T E) (h : Cells T) (l : Loader T) :
    Run ((Option (Except E LoadInfo) × List T) × Cells T × Loader T) := do
  let (out, told) ← s.run env.build (genericControl env) { buf := l.buf }
  match out with
  | .done (res, buf) => do
    let (r, h, tail) ← finishLoad h l.tail res
    return ((some r, told), h, { buf, tail })
  | .droppedWriter w => return ((none, told), h, { l with buf := w.buf })
  | .droppedControl c => return ((none, told), h, { l with buf := c.buf })
  | .droppedResult (_, buf) => return ((none, told), h, { l with buf })

/-- `force_commit` (loader.rs:95-98). -/
def forceCommit (env : Env) (h : Cells T) (l : Loader T) : Run (Cells T × Loader T) := do
  let buf := l.buf
  let (h, tail) ← commitTo h l.tail buf
  return (h, { buf := .empty env.newCapacity, tail })

/-! ## The buffer -/

/-- A position: `head_offset` and `head_node` of `GenericSequenceBuffer` (buffer.rs:7-10), the local variables of
`advance`, or an `Iter` (buffer.rs:63-66). -/
structure Cursor where
  offset : Nat
  node : Nat
  deriving DecidableEq

/-- One turn of the loop of `advance` (buffer.rs:37-48), around one `node.get()`: `inl` leaves the loop. -/
def advanceTurn (b : Build) (h : Cells T) (remain : Nat) (c : Cursor) : Run ((Nat × Cursor) ⊕ (Nat × Cursor)) :=
  match h.get c.node with
  | none => pure (.inl (remain, c))
  | some n => do
    let len ← usizeSub b n.buf.len c.offset
    if remain < len then
      return .inl (0, { c with offset := c.offset + remain })
    return .inr (remain - len, { offset := 0, node := n.next })

/-- `Iter::next` (buffer.rs:71-78). -/
def iterNext (h : Cells T) (c : Cursor) : Run (Option (List T) × Cursor) :=
  match h.get c.node with
  | none => pure (none, c)
  | some node =>
    if c.offset ≤ node.buf.len then do
      let seg ← node.buf.readMany c.offset (node.buf.len - c.offset)
      return (some seg, { offset := 0, node := node.next })
    else Run.fault .bounds

/-! ## The system -/

/-- What the thread of the buffer is doing. An `Iter` borrows the buffer, so `advance` is not called meanwhile. -/
inductive Reader where
  | idle
  /-- inside `advance(length)`, before the next `node.get()` -/
  | advancing (length remain : Nat) (c : Cursor)
  /-- has an iterator -/
  | iterating (c : Cursor)

/-- What can be observed. -/
inductive Obs (T E : Type) where
  /-- a load ended so; the items are those the writer accepted -/
  | loaded (told : List T) (r : Option (Except E LoadInfo))
  /-- a node with these items became visible -/
  | committed (items : List T)
  /-- `advance(length)` returned -/
  | advanced (length result : Nat)
  /-- `segments()` was called -/
  | iterates
  /-- `next()` returned `Some(seg)` -/
  | yielded (seg : List T)
  /-- `next()` returned `None` -/
  | exhausted

/-- Loader, buffer and the cells they share. -/
structure Loading (T E : Type) where
  cells : Cells T
  loader : Loader T
  head : Cursor
  reader : Reader
  log : List (Obs T E)

/-- `GenericSequenceBuilder::build` (generic.rs:28-33), with `GenericSequenceBuffer::new` (buffer.rs:13-18) and
`GenericSequenceLoader::new` (loader.rs:19-26). -/
def Loading.init (newCapacity : Nat) : Loading T E where
  cells := { get := fun _ => none, fresh := 1 }
  loader := { buf := .empty newCapacity, tail := 0 }
  head := { offset := 0, node := 0 }
  reader := .idle
  log := []

/-- The steps. -/
inductive Move (T E : Type) where
  | load (env : Env) (s : Script T E)
  | forceCommit (env : Env)
  | advance (length : Nat)
  /-- the next `node.get()` of `advance` and what follows it -/
  | get
  | segments
  /-- `Iter::next` -/
  | next
  /-- the iterator is dropped -/
  | dropIter

/-- The nodes set by a loader operation: at most the old tail. -/
def newlyCommitted (before after : Cells T) (tail : Nat) : Run (List (List T)) :=
  match before.get tail, after.get tail with
  | none, some n => do
    let xs ← n.buf.readMany 0 n.buf.len
    return [xs]
  | _, _ => pure []

/-- One step. A move that is not possible does nothing. `advance` ends with buffer.rs:50-53. -/
def Loading.move (b : Build) (s : Loading T E) : Move T E → Run (Loading T E)
  | .load env script => do
    let ((r, told), cells, loader) ← Parcom.load env script s.cells s.loader
    let new ← newlyCommitted s.cells cells s.loader.tail
    return { s with cells, loader, log := s.log ++ new.map .committed ++ [.loaded told r] }
  | .forceCommit env => do
    let (cells, loader) ← Parcom.forceCommit env s.cells s.loader
    let new ← newlyCommitted s.cells cells s.loader.tail
    return { s with cells, loader, log := s.log ++ new.map .committed }
  | .advance length =>
    match s.reader with
    | .idle => pure { s with reader := .advancing length length s.head }
    | _ => pure s
  | .get =>
    match s.reader with
    | .advancing length remain c => do
      match ← advanceTurn b s.cells remain c with
      | .inl (remain, c) => return { s with head := c, reader := .idle, log := s.log ++ [.advanced length remain] }
      | .inr (remain, c) => return { s with reader := .advancing length remain c }
    | _ => pure s
  | .segments =>
    match s.reader with
    | .idle => pure { s with reader := .iterating s.head, log := s.log ++ [.iterates] }
    | _ => pure s
  | .next =>
    match s.reader with
    | .iterating c => do
      let (o, c) ← iterNext s.cells c
      match o with
      | some seg => return { s with reader := .iterating c, log := s.log ++ [.yielded seg] }
      | none => return { s with reader := .iterating c, log := s.log ++ [.exhausted] }
    | _ => pure s
  | .dropIter =>
    match s.reader with
    | .iterating _ => pure { s with reader := .idle }
    | _ => pure s

/-- A history. -/
def Loading.run (b : Build) : Loading T E → List (Move T E) → Run (Loading T E)
  | s, [] => pure s
  | s, m :: ms => do
    let s ← s.move b m
    s.run b ms

end Parcom
