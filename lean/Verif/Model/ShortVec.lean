import Verif.Model.Act
import Verif.Model.BinExpr
/-!
# ShortVec

`crates/parcom-internals/src/shortvec.rs`, on an explicit memory. A memory cell holds one element or nothing
(`MaybeUninit`); an allocation remembers how many bytes were asked for; the union of inline buffer and pointer remembers
which of its fields was written last. Every access is checked, and what Rust leaves undefined is the fault `ub`:
reading an element that is not there, going outside an allocation, using a freed one, freeing with another layout,
asking the allocator for zero bytes, reading the other field of the union.

The aliasing rules are left to `Verif.Model.Aliasing`: `push` writes through a pointer obtained from `&self`.
-/
namespace Parcom

/-- `isize::MAX` on a 64-bit target. -/
def isizeMax : Nat := 2 ^ 63 - 1

/-- `size_of::<T>()` and `align_of::<T>()`. -/
structure Ty where
  size : Nat
  align : Nat

/-- A heap allocation. `cells i` is the element at offset `i * size_of::<T>()`. -/
structure Block (α : Type) where
  bytes : Nat
  cells : Nat → Option α

/-- The memory shared by all vectors. Addresses are not reused, so that use after free is visible. -/
structure Mem (α : Type) where
  /-- the live allocations -/
  blocks : Nat → Option (Block α)
  /-- the next fresh address -/
  next : Nat
  /-- whether the allocator will serve its `n`th request -/
  grants : Nat → Bool
  /-- the number of requests to the allocator so far -/
  requests : Nat
  /-- the elements whose destructor has run, in order -/
  dropped : List α

/-- `union ShortVecData<T, N>` (shortvec.rs:18-21). -/
inductive VecData (α : Type) where
  | stack (cells : Nat → Option α)
  | heap (ptr : Nat)

/-- `struct ShortVec<T, const N: usize>` (shortvec.rs:8-16), with its `N`. -/
structure SVec (α : Type) where
  n : Nat
  cap : Nat
  len : Nat
  data : VecData α

/-- `&mut self` and the memory. -/
structure World (α : Type) where
  vec : SVec α
  mem : Mem α

variable {α : Type}

/-! ## The allocator and raw pointers -/

/-- `Layout::array::<T>(cap).unwrap()`, as the number of bytes (std: `LayoutError` if the size rounded up to the
alignment exceeds `isize::MAX`). -/
def layoutArray {W : Type} (ty : Ty) (cap : Nat) : Act W Nat :=
  if ty.size * cap ≤ isizeMax - (ty.align - 1) then pure (ty.size * cap) else Act.throw .assertion

/-- `usize` addition. -/
def addUsize {W : Type} (b : Build) (x y : Nat) : Act W Nat :=
  if x + y ≤ usizeMax then pure (x + y)
  else match b with
    | .checked => Act.throw .overflow
    | .wrapping => pure ((x + y) % (usizeMax + 1))

/-- `usize` multiplication. -/
def mulUsize {W : Type} (b : Build) (x y : Nat) : Act W Nat :=
  if x * y ≤ usizeMax then pure (x * y)
  else match b with
    | .checked => Act.throw .overflow
    | .wrapping => pure ((x * y) % (usizeMax + 1))

/-- The memory with the block at `p` replaced. -/
def Mem.set (m : Mem α) (p : Nat) (o : Option (Block α)) : Mem α :=
  { m with blocks := fun q => if q = p then o else m.blocks q }

/-- `alloc::alloc` (std): undefined for zero bytes, null when the allocator cannot serve. -/
def Mem.alloc (bytes : Nat) : Act (Mem α) (Option Nat) := fun m =>
  if bytes = 0 then (.error .ub, m)
  else if m.grants m.requests then
    (.ok (some m.next), { m.set m.next (some { bytes, cells := fun _ => none }) with
      next := m.next + 1
      requests := m.requests + 1 })
  else (.ok none, { m with requests := m.requests + 1 })

/-- `alloc::realloc` (std): the block must be live and of the given layout; it moves with its contents. -/
def Mem.realloc (ty : Ty) (p oldBytes bytes : Nat) : Act (Mem α) (Option Nat) := fun m =>
  match m.blocks p with
  | none => (.error .ub, m)
  | some blk =>
    if blk.bytes = oldBytes ∧ bytes ≠ 0 then
      if m.grants m.requests then
        let cells i := if ty.size * (i + 1) ≤ bytes then blk.cells i else none
        (.ok (some m.next), { (m.set p none).set m.next (some { bytes, cells }) with
          next := m.next + 1
          requests := m.requests + 1 })
      else (.ok none, { m with requests := m.requests + 1 })
    else (.error .ub, m)

/-- `alloc::dealloc` (std): the block must be live and of the given layout. -/
def Mem.dealloc (p bytes : Nat) : Act (Mem α) Unit := fun m =>
  match m.blocks p with
  | none => (.error .ub, m)
  | some blk =>
    if blk.bytes = bytes then (.ok (), m.set p none)
    else (.error .ub, m)

/-- Work on the memory. -/
def onMem {β : Type} (x : Act (Mem α) β) : Act (World α) β := fun w =>
  match x w.mem with
  | (r, m) => (r, { w with mem := m })

/-- A `*mut T`: into the inline buffer of the vector, or to a heap allocation. -/
inductive Ptr where
  | stack
  | heap (p : Nat)

/-- `ptr.add(i).read()`. -/
def Ptr.read (ty : Ty) (p : Ptr) (i : Nat) : Act (World α) α := fun w =>
  match p with
  | .stack => match w.vec.data with
    | .stack cells => if i < w.vec.n then
        match cells i with
        | some a => (.ok a, w)
        | none => (.error .ub, w)
      else (.error .ub, w)
    | .heap _ => (.error .ub, w)
  | .heap p => match w.mem.blocks p with
    | some blk => if ty.size * (i + 1) ≤ blk.bytes then
        match blk.cells i with
        | some a => (.ok a, w)
        | none => (.error .ub, w)
      else (.error .ub, w)
    | none => (.error .ub, w)

/-- `ptr.add(i).write(v)`. -/
def Ptr.write (ty : Ty) (p : Ptr) (i : Nat) (v : α) : Act (World α) Unit := fun w =>
  match p with
  | .stack => match w.vec.data with
    | .stack cells => if i < w.vec.n then
        let cells j := if j = i then some v else cells j
        (.ok (), { w with vec := { w.vec with data := .stack cells } })
      else (.error .ub, w)
    | .heap _ => (.error .ub, w)
  | .heap p => match w.mem.blocks p with
    | some blk => if ty.size * (i + 1) ≤ blk.bytes then
        let cells j := if j = i then some v else blk.cells j
        (.ok (), { w with mem := w.mem.set p (some { blk with cells }) })
      else (.error .ub, w)
    | none => (.error .ub, w)

/-- Run the destructor of an element. -/
def World.drop (a : α) (w : World α) : World α := { w with mem := { w.mem with dropped := w.mem.dropped ++ [a] } }

/-! ## ShortVec -/

/-- `with_capacity` (shortvec.rs:28-57), on the memory alone; `new` (24-26) is `withCapacity 0`. -/
def SVec.withCapacity (ty : Ty) (n cap : Nat) : Act (Mem α) (SVec α) := do
  if cap ≤ isizeMax then
    if cap > n then
      let layout ← layoutArray ty cap
      match ← Mem.alloc layout with
      | some ptr => return { n, cap, len := 0, data := .heap ptr }
      | none => Act.throw .abort
    else return { n, cap := n, len := 0, data := .stack fun _ => none }
  else Act.throw .assertion

/-- `is_heap` (shortvec.rs:162-164). -/
def SVec.isHeap (v : SVec α) : Bool := v.cap > v.n

/-- `as_ptr` (shortvec.rs:59-65), with `as_ptr_stack_unchecked` (166-168) and `as_ptr_heap_unchecked` (170-172). -/
def asPtr : Act (World α) Ptr := fun w =>
  if w.vec.isHeap then
    match w.vec.data with
    | .heap p => (.ok (.heap p), w)
    | .stack _ => (.error .ub, w)
  else
    match w.vec.data with
    | .stack _ => (.ok .stack, w)
    | .heap _ => (.error .ub, w)

/-- Read the elements `i..i+k`. -/
def readRange (ty : Ty) (p : Ptr) (i : Nat) : Nat → Act (World α) (List α)
  | 0 => pure []
  | k + 1 => do
    let a ← p.read ty i
    let rest ← readRange ty p (i + 1) k
    return a :: rest

/-- `as_slice` (shortvec.rs:67-73): a slice over elements that must all be there. The inline buffer is cut with a bounds
check. -/
def asSlice (ty : Ty) : Act (World α) (List α) := do
  let w ← Act.get
  let p ← asPtr
  if w.vec.isHeap then readRange ty p 0 w.vec.len
  else if w.vec.len ≤ w.vec.n then readRange ty p 0 w.vec.len
  else Act.throw .bounds

/-- `std::mem::replace(&mut self.as_slice_mut()[i], item)` (`as_slice_mut` is shortvec.rs:75-81). Out of range it panics
and `item` is dropped. -/
def replaceAt (ty : Ty) (i : Nat) (item : α) : Act (World α) α := do
  let w ← Act.get
  let p ← asPtr
  Act.onUnwind (if w.vec.isHeap ∨ w.vec.len ≤ w.vec.n then pure () else Act.throw .bounds) (World.drop item)
  if i < w.vec.len then
    let old ← p.read ty i
    p.write ty i item
    return old
  else
    Act.modify (World.drop item)
    Act.throw .bounds

/-- `is_empty` (shortvec.rs:83-85). -/
def SVec.isEmpty (v : SVec α) : Bool := v.len = 0

/-- `std::ptr::copy_nonoverlapping(src, dst, len)` (std) from the inline buffer into a fresh heap block: copies cells,
initialised or not. -/
def copyOut (ty : Ty) (dst len : Nat) : Act (World α) Unit := fun w =>
  match w.vec.data, w.mem.blocks dst with
  | .stack cells, some blk =>
    if len ≤ w.vec.n ∧ ty.size * len ≤ blk.bytes then
      let cells j := if j < len then cells j else blk.cells j
      (.ok (), { w with mem := w.mem.set dst (some { blk with cells }) })
    else (.error .ub, w)
  | _, _ => (.error .ub, w)

/-- `reserve_exact` (shortvec.rs:116-158). -/
def reserveExact (ty : Ty) (cap : Nat) : Act (World α) Unit := do
  if cap ≤ isizeMax then
    let w ← Act.get
    if w.vec.cap ≥ cap then return ()
    else
      let layout ← layoutArray ty cap
      if w.vec.isHeap then
        let oldLayout ← layoutArray ty w.vec.cap
        match w.vec.data with
        | .stack _ => Act.throw .ub
        | .heap p =>
          match ← onMem (Mem.realloc ty p oldLayout layout) with
          | none => Act.throw .abort
          | some q => Act.modify fun w => { w with vec := { w.vec with cap := cap, data := .heap q } }
      else
        match ← onMem (Mem.alloc layout) with
        | none => Act.throw .abort
        | some q =>
          copyOut ty q w.vec.len
          Act.modify fun w => { w with vec := { w.vec with cap := cap, data := .heap q } }
  else Act.throw .assertion

/-- `reserve` (shortvec.rs:108-114). -/
def reserve (b : Build) (ty : Ty) (cap : Nat) : Act (World α) Unit := do
  let w ← Act.get
  if w.vec.cap ≥ cap then return ()
  else
    let twice ← mulUsize b w.vec.cap 2
    reserveExact ty (max twice cap)

/-- `push` (shortvec.rs:87-95). If `reserve` panics, unwinding drops `item`. -/
def push (b : Build) (ty : Ty) (item : α) : Act (World α) Unit := do
  let w ← Act.get
  Act.onUnwind (do let len ← addUsize b w.vec.len 1; reserve b ty len) (World.drop item)
  let p ← asPtr
  p.write ty w.vec.len item
  let len ← addUsize b w.vec.len 1
  Act.modify fun w => { w with vec := { w.vec with len := len } }

/-- `pop` (shortvec.rs:97-106). -/
def pop (ty : Ty) : Act (World α) (Option α) := do
  let w ← Act.get
  if w.vec.isEmpty then return none
  else
    let p ← asPtr
    Act.modify fun w => { w with vec := { w.vec with len := w.vec.len - 1 } }
    let value ← p.read ty (w.vec.len - 1)
    return some value

/-- `std::ptr::drop_in_place` on the elements `i..i+k` (std), in order. For destructors that panic see
`dropGlue`. -/
def dropRange (ty : Ty) (p : Ptr) (i : Nat) : Nat → Act (World α) Unit
  | 0 => pure ()
  | k + 1 => do
    let a ← p.read ty i
    Act.modify (World.drop a)
    dropRange ty p (i + 1) k

/-- `Drop::drop` (shortvec.rs:175-190). -/
def dropVec (ty : Ty) : Act (World α) Unit := do
  let w ← Act.get
  let p ← asPtr
  dropRange ty p 0 w.vec.len
  if w.vec.isHeap then
    let layout ← layoutArray ty w.vec.cap
    match p with
    | .heap q => onMem (Mem.dealloc q layout)
    | .stack => Act.throw .ub
  else return ()

/-! ## Programs using any number of vectors -/

/-- What a program can do with the vectors it owns; `k` says which one, in order of creation. -/
inductive VecOp (α : Type) where
  | new (n cap : Nat)
  | push (k : Nat) (item : α)
  | pop (k : Nat)
  | reserve (k cap : Nat)
  | reserveExact (k cap : Nat)
  | slice (k : Nat)
  | replace (k i : Nat) (item : α)
  | drop (k : Nat)

/-- What an operation returns. -/
inductive VecOut (α : Type) where
  | unit
  | item (a : Option α)
  | items (l : List α)

/-- The vectors of a program (`none` once dropped) and the memory. -/
structure Sys (α : Type) where
  vecs : List (Option (SVec α))
  mem : Mem α

/-- Call a method on the `k`th vector. `none` if it is not alive: safe code cannot do that. -/
def Sys.call {β : Type} (sys : Sys α) (k : Nat) (x : Act (World α) β) (out : β → VecOut α) :
    Option (Except Fault (VecOut α) × Sys α) :=
  match sys.vecs[k]? with
  | some (some v) =>
    match x { vec := v, mem := sys.mem } with
    | (r, w) => some (r.map out, { vecs := sys.vecs.set k (some w.vec), mem := w.mem })
  | _ => none

/-- One operation of a program. -/
def Sys.run (b : Build) (ty : Ty) (sys : Sys α) : VecOp α → Option (Except Fault (VecOut α) × Sys α)
  | .new n cap => match SVec.withCapacity ty n cap sys.mem with
    | (.ok v, m) => some (.ok .unit, { vecs := sys.vecs ++ [some v], mem := m })
    | (.error e, m) => some (.error e, { sys with mem := m })
  | .push k item => sys.call k (Parcom.push b ty item) fun _ => .unit
  | .pop k => sys.call k (Parcom.pop ty) .item
  | .reserve k cap => sys.call k (Parcom.reserve b ty cap) fun _ => .unit
  | .reserveExact k cap => sys.call k (Parcom.reserveExact ty cap) fun _ => .unit
  | .slice k => sys.call k (asSlice ty) .items
  | .replace k i item => sys.call k (replaceAt ty i item) fun a => .item (some a)
  | .drop k => match sys.call k (dropVec ty) fun _ => .unit with
    | some (r, sys) => some (r, { sys with vecs := sys.vecs.set k none })
    | none => none

end Parcom
