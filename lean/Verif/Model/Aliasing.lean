/-!
# The aliasing rules of `ShortVec`

`crates/parcom-internals/src/shortvec.rs`, seen only as uses of references and pointers, under Stacked Borrows (Jung, Dang,
Kang, Dreyer, POPL 2020, with the rules for raw pointers that Miri checks). Each byte has a stack of the pointers that may use
it. A reference or pointer has a tag. Using a tag that is not in the stack, or writing by one that may only read, is undefined
behaviour; so is removing the tag of an argument of a call that has not returned.

What is left out: the elements themselves (`Verif.Model.ShortVec` has them), `self.cap * 2` that overflows, allocations that
fail, and moving the vector (which only gives it a new place with a new stack). The caller uses what `as_slice` and
`as_slice_mut` return at once.
-/
namespace Parcom.Aliasing

/-- What a pointer may do. -/
inductive Perm where
  /-- `&mut`, and what owns the memory -/
  | unique
  /-- raw pointers, and `&` to what has interior mutability -/
  | srw
  /-- `&` -/
  | sro
  /-- nothing any more -/
  | disabled
deriving DecidableEq

/-- An entry of a stack. -/
structure Item where
  perm : Perm
  tag : Nat
  /-- the call it is an argument of -/
  prot : Option Nat
deriving DecidableEq

/-- The stack of one byte, the top first. -/
abbrev Stack := List Item

inductive Kind where
  | read
  | write

/-- The entry lets tag `t` read or write. -/
def Item.grants (k : Kind) (t : Nat) (i : Item) : Bool := i.tag == t && match k, i.perm with
  | _, .disabled => false
  | .write, .sro => false
  | _, _ => true

/-- The entry is an argument of a call that has not returned. -/
def Item.guarded (calls : List Nat) (i : Item) : Bool := match i.prot with
  | none => false
  | some c => calls.contains c

/-- Reading by tag `t`: the `&mut`s above it end. -/
def readStack (calls : List Nat) (t : Nat) : Stack → Option Stack
  | [] => none
  | i :: s =>
    if i.grants .read t then some (i :: s)
    else match readStack calls t s with
      | none => none
      | some s' =>
        if i.perm = .unique then if i.guarded calls then none else some ({ i with perm := .disabled } :: s')
        else some (i :: s')

/-- Writing by tag `t`: everything above it ends, but for raw pointers directly above a raw pointer. -/
def writeStack (calls : List Nat) (t : Nat) : Stack → Option Stack
  | [] => none
  | i :: s =>
    if i.grants .write t then some (i :: s)
    else match writeStack calls t s with
      | none => none
      | some s' =>
        if i.perm = .srw ∧ s' = s ∧ s.head?.map Item.perm = some .srw then some (i :: s)
        else if i.guarded calls then none else some s'

/-- A raw pointer made from tag `t` comes directly above it, or above the raw pointers directly above it. -/
def insertStack (new : Item) (t : Nat) : Stack → Option Stack
  | [] => none
  | i :: s =>
    if i.grants .write t then some (new :: i :: s)
    else match insertStack new t s with
      | none => none
      | some s' =>
        if i.perm = .srw ∧ s' = new :: s ∧ s.head?.map Item.perm = some .srw then some (new :: i :: s) else some (i :: s')

/-- Making the pointer `new` from tag `t`. -/
def retagStack (calls : List Nat) (new : Item) (t : Nat) (s : Stack) : Option Stack := match new.perm with
  | .unique => (writeStack calls t s).map (new :: ·)
  | .sro => (readStack calls t s).map (new :: ·)
  | .srw => insertStack new t s
  | .disabled => none

/-- A byte of the vector, or an element on the heap. -/
inductive Loc where
  | cap
  | len
  /-- a byte of the union -/
  | data (k : Nat)
  /-- an element of a block -/
  | heap (block i : Nat)
deriving DecidableEq

/-- `ShortVec<T, N>`. -/
structure Cfg where
  N : Nat
  /-- `size_of::<T>()` -/
  size : Nat
  /-- `T` has no interior mutability -/
  freeze : Bool

structure St where
  stacks : Loc → Stack
  /-- the next tag, and the next call -/
  next : Nat
  calls : List Nat
  /-- the values of the fields (shortvec.rs:8-16) -/
  cap : Nat
  len : Nat
  /-- `data.heap`: the block and the tag of the pointer -/
  block : Nat
  ptr : Nat

/-- A program that uses pointers; `none` is undefined behaviour. -/
abbrev M := StateT St Option

/-- Where something is. -/
abbrev Range := Loc → Prop

open Classical in
/-- Every stack of the range changes; undefined behaviour if one cannot. -/
noncomputable def eachAt (r : Range) (f : Loc → List Nat → Stack → Option Stack) : M Unit := fun st =>
  if ∀ l, r l → f l st.calls (st.stacks l) ≠ none then
    some ((), { st with stacks := fun l => if r l then (f l st.calls (st.stacks l)).getD [] else st.stacks l })
  else none

noncomputable def touch (k : Kind) (t : Nat) (r : Range) : M Unit := eachAt r fun _ calls s => match k with
  | .read => readStack calls t s
  | .write => writeStack calls t s

/-- A new tag. -/
def fresh : M Nat := fun st => some (st.next, { st with next := st.next + 1 })

/-- A call, from when its arguments are passed until it returns. -/
def call {α : Type} (f : Nat → M α) : M α := do
  let c ← fresh
  modify fun st => { st with calls := c :: st.calls }
  let a ← f c
  modify fun st => { st with calls := st.calls.erase c }
  return a

variable (v : Cfg)

/-- The bytes of the vector (shortvec.rs:8-16): the union is as large as its larger variant. -/
def own : Range
  | .cap => True
  | .len => True
  | .data k => k < max (v.N * v.size) 8
  | .heap _ _ => False

/-- `data.heap` (shortvec.rs:20). -/
def ptrBytes : Range
  | .data k => k < 8
  | _ => False

/-- `data.stack` (shortvec.rs:19). -/
def bufBytes : Range
  | .data k => k < v.N * v.size
  | _ => False

/-- The elements from `a` to `b` in the inline buffer. -/
def inlineElems (a b : Nat) : Range
  | .data k => a * v.size ≤ k ∧ k < b * v.size
  | _ => False

/-- The elements from `a` to `b` on the heap; elements of no size are nowhere. -/
def heapElems (block a b : Nat) : Range
  | .heap bl i => bl = block ∧ a ≤ i ∧ i < b ∧ 0 < v.size
  | _ => False

/-- What `&` gives: it may write where there is interior mutability. -/
def sharedPerm : Loc → Perm
  | .cap | .len => .sro
  | .data _ | .heap _ _ => if v.freeze then .sro else .srw

/-- `&*p`, or `p as *const _`, for a `p` with tag `t`. -/
noncomputable def shared (t : Nat) (r : Range) (prot : Option Nat) : M Nat := do
  let n ← fresh
  eachAt r fun l calls s => retagStack calls ⟨sharedPerm v l, n, prot⟩ t s
  return n

/-- `&mut *p` for a `p` with tag `t`. -/
noncomputable def exclusive (t : Nat) (r : Range) (prot : Option Nat) : M Nat := do
  let n ← fresh
  eachAt r fun _ calls s => retagStack calls ⟨.unique, n, prot⟩ t s
  return n

/-- `is_heap(&self)` (shortvec.rs:162-164). -/
noncomputable def isHeap (t : Nat) : M Bool := call fun c => do
  let self ← shared v t (own v) (some c)
  touch .read self (· = .cap)
  return v.N < (← get).cap

/-- `as_ptr_stack_unchecked(&self)` (shortvec.rs:166-168): `ManuallyDrop::deref` and `<[_]>::as_ptr` are calls with `&`. -/
noncomputable def asPtrStack (t : Nat) : M Nat := call fun c => do
  let self ← shared v t (own v) (some c)
  let stack ← call fun c => do shared v (← shared v self (bufBytes v) (some c)) (bufBytes v) none
  call fun c => do shared v (← shared v stack (bufBytes v) (some c)) (bufBytes v) none

/-- `as_ptr_heap_unchecked(&self)` (shortvec.rs:170-172). -/
noncomputable def asPtrHeap (t : Nat) : M Nat := call fun c => do
  let self ← shared v t (own v) (some c)
  let heap ← call fun c => do shared v (← shared v self ptrBytes (some c)) ptrBytes none
  touch .read heap ptrBytes
  return (← get).ptr

/-- `as_ptr(&self)` (shortvec.rs:59-65). -/
noncomputable def asPtr (t : Nat) : M Nat := call fun c => do
  let self ← shared v t (own v) (some c)
  if ← isHeap v self then asPtrHeap v self else asPtrStack v self

/-- Where the elements from `a` to `b` are, for the pointer that `as_ptr` gives. -/
def elems (st : St) (a b : Nat) : Range := if v.N < st.cap then heapElems v st.block a b else inlineElems v a b

/-- `is_empty(&self)` (shortvec.rs:83-85). -/
noncomputable def isEmpty (t : Nat) : M Bool := call fun c => do
  let self ← shared v t (own v) (some c)
  touch .read self (· = .len)
  return (← get).len = 0

/-- `as_slice(&self)` (shortvec.rs:67-73), and the caller reads all elements. -/
noncomputable def asSlice (t : Nat) : M Unit := do
  let slice ← call fun c => do
    let self ← shared v t (own v) (some c)
    if ← isHeap v self then
      let heap ← call fun c => do shared v (← shared v self ptrBytes (some c)) ptrBytes none
      touch .read heap ptrBytes
      touch .read self (· = .len)
      shared v (← get).ptr (heapElems v (← get).block 0 (← get).len) none
    else
      let stack ← call fun c => do shared v (← shared v self (bufBytes v) (some c)) (bufBytes v) none
      touch .read self (· = .len)
      shared v stack (inlineElems v 0 (← get).len) none
  touch .read slice (elems v (← get) 0 (← get).len)

/-- `as_slice_mut(&mut self)` (shortvec.rs:75-81), and the caller writes all elements. -/
noncomputable def asSliceMut (t : Nat) : M Unit := do
  let slice ← call fun c => do
    let self ← exclusive t (own v) (some c)
    if ← isHeap v self then
      let heap ← call fun c => do shared v (← shared v self ptrBytes (some c)) ptrBytes none
      touch .read heap ptrBytes
      touch .read self (· = .len)
      exclusive (← get).ptr (heapElems v (← get).block 0 (← get).len) none
    else
      let stack ← call fun c => do exclusive (← exclusive self (bufBytes v) (some c)) (bufBytes v) none
      touch .read self (· = .len)
      exclusive stack (inlineElems v 0 (← get).len) none
  touch .write slice (elems v (← get) 0 (← get).len)

/-- `alloc::alloc` (shortvec.rs:36, 142-148): a new block, which nobody else points to. -/
def allocate : M (Nat × Nat) := fun st =>
  some ((st.next, st.next), { st with
    next := st.next + 1
    stacks := fun
      | .heap b i => if b = st.next then [⟨.unique, st.next, none⟩] else st.stacks (.heap b i)
      | l => st.stacks l })

/-- `reserve_exact(&mut self, cap)` (shortvec.rs:116-158). -/
noncomputable def reserveExact (t cap : Nat) : M Unit := call fun c => do
  let self ← exclusive t (own v) (some c)
  touch .read self (· = .cap)
  if cap ≤ (← get).cap then return
  if ← isHeap v self then
    touch .read self (· = .cap)
    let heap ← call fun c => do shared v (← shared v self ptrBytes (some c)) ptrBytes none
    touch .read heap ptrBytes
    let st ← get
    touch .write st.ptr (heapElems v st.block 0 st.cap)
    let (block, ptr) ← allocate
    touch .write self (· = .cap)
    modify fun st => { st with cap }
    touch .write self ptrBytes
    modify fun st => { st with block, ptr }
  else
    let (block, ptr) ← allocate
    let src ← asPtrStack v self
    touch .read self (· = .len)
    let st ← get
    touch .read src (inlineElems v 0 st.len)
    touch .write ptr (heapElems v block 0 st.len)
    touch .write self (· = .cap)
    modify fun st => { st with cap }
    touch .write self ptrBytes
    modify fun st => { st with block, ptr }

/-- `reserve(&mut self, cap)` (shortvec.rs:108-114). -/
noncomputable def reserve (t cap : Nat) : M Unit := call fun c => do
  let self ← exclusive t (own v) (some c)
  touch .read self (· = .cap)
  if cap ≤ (← get).cap then return
  touch .read self (· = .cap)
  reserveExact v self (max ((← get).cap * 2) cap)

/-- `push(&mut self, item)` (shortvec.rs:87-95). -/
noncomputable def push (t : Nat) : M Unit := call fun c => do
  let self ← exclusive t (own v) (some c)
  touch .read self (· = .len)
  let len := (← get).len
  reserve v self (len + 1)
  let ptr ← asPtr v self
  touch .write ptr (elems v (← get) len (len + 1))
  touch .write self (· = .len)
  modify fun st => { st with len := len + 1 }

/-- `pop(&mut self)` (shortvec.rs:97-106). -/
noncomputable def pop (t : Nat) : M Unit := call fun c => do
  let self ← exclusive t (own v) (some c)
  if ← isEmpty v self then return
  let ptr ← asPtr v self
  touch .read self (· = .len)
  touch .write self (· = .len)
  modify fun st => { st with len := st.len - 1 }
  touch .read self (· = .len)
  touch .read ptr (elems v (← get) (← get).len ((← get).len + 1))

/-- `drop(&mut self)` (shortvec.rs:176-189): dropping an element and freeing the block need to write. -/
noncomputable def drop (t : Nat) : M Unit := call fun c => do
  let self ← exclusive t (own v) (some c)
  let ptr ← asPtr v self
  touch .read self (· = .len)
  touch .write ptr (elems v (← get) 0 (← get).len)
  if ← isHeap v self then
    touch .read self (· = .cap)
    touch .write ptr (heapElems v (← get).block 0 (← get).cap)

/-- What a caller can do. -/
inductive Op where
  | push
  | pop
  | reserve (cap : Nat)
  | reserveExact (cap : Nat)
  | isEmpty
  | asPtr
  | asSlice
  | asSliceMut

/-- The owner calls a method: the tag of the place where the vector is, is 0. -/
noncomputable def Op.run : Op → M Unit
  | .push => Aliasing.push v 0
  | .pop => Aliasing.pop v 0
  | .reserve cap => Aliasing.reserve v 0 cap
  | .reserveExact cap => Aliasing.reserveExact v 0 cap
  | .isEmpty => do discard <| Aliasing.isEmpty v 0
  | .asPtr => do discard <| Aliasing.asPtr v 0
  | .asSlice => Aliasing.asSlice v 0
  | .asSliceMut => Aliasing.asSliceMut v 0

/-- `with_capacity(cap)` (shortvec.rs:28-57), `new()` being `with_capacity(0)`; the heap pointer, if any, has tag 1. -/
def init (cap : Nat) : St where
  stacks
    | .heap b _ => if b = 1 ∧ v.N < cap then [⟨.unique, 1, none⟩] else []
    | _ => [⟨.unique, 0, none⟩]
  next := 2
  calls := []
  cap := if v.N < cap then cap else v.N
  len := 0
  block := 1
  ptr := 1

/-- The owner makes some calls, then drops the vector. -/
noncomputable def use : List Op → M Unit
  | [] => drop v 0
  | op :: ops => do
    op.run v
    use ops

/-- A vector is made, used, and dropped. -/
noncomputable def life (cap : Nat) (ops : List Op) : Option St := (use v ops (init v cap)).map Prod.snd

end Parcom.Aliasing
