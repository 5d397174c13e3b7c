import Verif.Model.Act
/-!
# The `Wait` inside an `Advance`

`DefaultSequenceAdvance` (`crates/parcom-runners/src/default_runner/sequence/advance.rs`) keeps a `Wait<'static>` whose
reference points into the sequence it owns: `unsafe` turns off the borrow checker, and a comment claims that the reference
does not dangle. Here the sequences are addresses, and a sequence is gone as soon as its owner drops it; using or dropping
a `Wait` whose sequence is gone is the fault `ub`. (The signal is in an `Arc`, so it may live longer. The claim does not
rely on that, and neither does this model.)

What the futures do otherwise is `Verif.Model.Runner`; here the outcomes of the wait and of `buffer.advance` are inputs.
-/
namespace Parcom.AdvanceCell

/-- `struct DefaultSequenceAdvance` (advance.rs:8-17): `fut` is the address its `Wait` refers to. -/
structure Cell where
  fut : Option Nat
  sequence : Option Nat

/-- The sequences that exist, the ones the user holds, and the futures. Addresses are not reused. -/
structure Heap where
  alive : Nat → Bool
  next : Nat
  held : List Nat
  cells : List Cell

/-- What `buffer.advance` and the flag come to (advance.rs:51-53). -/
inductive Progress where
  | panics
  | more
  | finished

/-- What the user does. -/
inductive Use where
  /-- make a sequence -/
  | new
  /-- `advance` on the `i`th sequence held -/
  | advance (i : Nat)
  /-- poll the `i`th future; `waited` is what its `Wait`, if any, returns -/
  | poll (i : Nat) (waited : Bool) (progress : Progress)
  /-- drop the `i`th future -/
  | dropCell (i : Nat)
  /-- drop the `i`th sequence held -/
  | dropSequence (i : Nat)

/-- Use a reference to the signal of a sequence. -/
def touch (a : Nat) : Act Heap Unit := fun h =>
  if h.alive a then (.ok (), h) else (.error .ub, h)

/-- Use, or drop, what is in `fut`. -/
def useFut : Option Nat → Act Heap Unit
  | none => pure ()
  | some a => touch a

/-- Drop a sequence. -/
def release (a : Nat) : Act Heap Unit := Act.modify fun h => { h with alive := fun q => if q = a then false else h.alive q }

/-- Write the `i`th future. -/
def put (i : Nat) (c : Cell) : Act Heap Unit := Act.modify fun h => { h with cells := h.cells.set i c }

/-- `DefaultSequenceAdvance::poll` (advance.rs:38-65). -/
def poll (i : Nat) (waited : Bool) (progress : Progress) (c : Cell) : Act Heap Unit :=
  match c.sequence with
  | none => Act.throw .assertion
  | some s => do
    -- advance.rs:41
    useFut c.fut
    if c.fut.isSome ∧ ¬ waited then return ()
    -- advance.rs:44-48
    touch s
    useFut c.fut
    put i { fut := some s, sequence := some s }
    match progress with
    | .panics => Act.throw .assertion
    | .more => return ()
    | .finished =>
      -- advance.rs:55-59
      useFut (some s)
      put i { fut := none, sequence := some s }
      put i { fut := none, sequence := none }
      Act.modify fun h => { h with held := h.held ++ [s] }

/-- Drop a future: `fut`, then `sequence` (advance.rs:10-15). -/
def dropCell (c : Cell) : Act Heap Unit := do
  useFut c.fut
  match c.sequence with
  | none => pure ()
  | some s => release s

/-- One thing the user does; nothing happens if there is no such sequence or future. -/
def Use.run : Use → Act Heap Unit
  | .new => Act.modify fun h =>
    { h with alive := fun q => if q = h.next then true else h.alive q, next := h.next + 1, held := h.held ++ [h.next] }
  | .advance i => do
    -- sequence.rs:70-72, advance.rs:20-29
    let h ← Act.get
    match h.held[i]? with
    | none => pure ()
    | some s => Act.modify fun h => { h with held := h.held.eraseIdx i, cells := h.cells ++ [{ fut := none, sequence := some s }] }
  | .poll i waited progress => do
    let h ← Act.get
    match h.cells[i]? with
    | none => pure ()
    | some c => AdvanceCell.poll i waited progress c
  | .dropCell i => do
    let h ← Act.get
    match h.cells[i]? with
    | none => pure ()
    | some c => do
      Act.modify fun h => { h with cells := h.cells.eraseIdx i }
      AdvanceCell.dropCell c
  | .dropSequence i => do
    let h ← Act.get
    match h.held[i]? with
    | none => pure ()
    | some s => do
      Act.modify fun h => { h with held := h.held.eraseIdx i }
      release s

/-- Nothing yet. -/
def Heap.empty : Heap := { alive := fun _ => false, next := 0, held := [], cells := [] }

/-- The outcomes of doing these in turn; a panic is caught. -/
def uses : List Use → Heap → List (Except Fault Unit) × Heap
  | [], h => ([], h)
  | u :: us, h =>
    let (r, h) := u.run h
    let (rs, h) := uses us h
    (r :: rs, h)

end Parcom.AdvanceCell
