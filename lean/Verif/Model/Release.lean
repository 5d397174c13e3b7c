import Verif.Model.Loader
/-!
# The generic sequence: who keeps the nodes

The nodes of the generic sequence are kept by reference counts: `head_node` of the buffer, `tail_node` of the loader and
`next` of each node are `Arc`s (generic.rs:13-16, buffer.rs:7-10, loader.rs:11-16). Beside the machine of `Model/Loader`
there are now the counts, and both sides can be dropped.

A commit is visible before the loader lets go of the cell it has set (`*tail_node = next`, loader.rs:47), so these are
two steps. Letting go of an `Arc`, with all that follows from it, is one step: what is freed by it nobody else can reach.

Not modelled: the `Vec`s that loads replace, cancel or drop (see C56, C77); the strategy's and the source's own `drop`.
-/
namespace Parcom
variable {T E : Type}

/-- The `Arc`s (std): how many there are to each cell, which cells have been freed, and the items dropped with them. -/
structure Arcs (T : Type) where
  strong : Nat → Nat
  freed : List Nat
  dropped : List T

/-- The number of `Arc`s to cell `a` becomes `n`. -/
def Arcs.count (m : Arcs T) (a n : Nat) : Arcs T := { m with strong := fun i => if i = a then n else m.strong i }

/-- Using a cell: it must be there. -/
def Arcs.access (m : Arcs T) (a : Nat) : Run Unit := if m.strong a = 0 then Run.fault .ub else pure ()

/-- `Arc::clone`. -/
def Arcs.clone (m : Arcs T) (a : Nat) : Run (Arcs T) := do
  m.access a
  return m.count a (m.strong a + 1)

/-- `Arc::drop`: the last one drops the `OnceLock` and the `Node` in it, field by field (generic.rs:13-16): the items, and
then the `Arc` to the next cell. Only then is the memory given back. With the number of cells being freed at once, one
inside the other. -/
def Arcs.release (h : Cells T) (m : Arcs T) (a : Nat) : Run (Arcs T × Nat) :=
  match m.strong a with
  | 0 => Run.fault .ub
  | n + 1 =>
    if n = 0 then
      match h.get a with
      | none => pure ({ m.count a 0 with freed := m.freed ++ [a] }, 1)
      | some node => do
        let xs ← node.buf.readMany 0 node.buf.len
        let (m, d) ← Arcs.release h { m.count a 0 with dropped := m.dropped ++ xs } node.next
        return ({ m with freed := m.freed ++ [a] }, d + 1)
    else pure (m.count a n, 0)
partial_fixpoint

/-- Loader, buffer, and what keeps the cells. -/
structure Owned (T E : Type) where
  sys : Loading T E
  arcs : Arcs T
  /-- the loader is still there -/
  loader : Bool
  /-- the buffer is still there -/
  buffer : Bool
  /-- the cell the loader has set and not let go of yet (loader.rs:42-47) -/
  releasing : Option Nat
  /-- the items in `buf` of the loader when it was dropped -/
  last : List T
  /-- the most cells freed at once, one inside the other -/
  depth : Nat

/-- `GenericSequenceBuilder::build` (generic.rs:28-33). -/
def Owned.init (newCapacity : Nat) : Owned T E where
  sys := .init newCapacity
  arcs := { strong := fun i => if i = 0 then 2 else 0, freed := [], dropped := [] }
  loader := true
  buffer := true
  releasing := none
  last := []
  depth := 0

/-- An `Arc` to cell `a` is dropped. -/
def Owned.release (s : Owned T E) (a : Nat) : Run (Owned T E) := do
  let (arcs, d) ← s.arcs.release s.sys.cells a
  return { s with arcs, depth := max s.depth d }

/-- The steps. -/
inductive OwnedMove (T E : Type) where
  /-- a step of `Model/Loader` -/
  | sys (m : Move T E)
  /-- the loader lets go of the cell it has set -/
  | release
  | dropLoader
  | dropBuffer

/-- A step of the loader. If it commits, `commit_to` (loader.rs:40-48) has made the new cell and an `Arc` to it for the
node and one for itself. -/
def Owned.loaderMove (b : Build) (s : Owned T E) (m : Move T E) : Run (Owned T E) := do
  if s.loader = true ∧ s.releasing = none then
    let sys ← s.sys.move b m
    if sys.loader.tail = s.sys.loader.tail then return { s with sys }
    else
      s.arcs.access s.sys.loader.tail
      return { s with sys, arcs := s.arcs.count sys.loader.tail 2, releasing := some s.sys.loader.tail }
  else return s

/-- A step of the buffer. Those that look at a cell need it to be there; `advance` ends with
`self.head_node = Arc::clone(&node)` (buffer.rs:51), which drops the old one. -/
def Owned.bufferMove (b : Build) (s : Owned T E) (m : Move T E) : Run (Owned T E) := do
  if s.buffer = true then
    match m, s.sys.reader with
    | .get, .advancing _ _ c => do
      s.arcs.access c.node
      let sys ← s.sys.move b m
      match sys.reader with
      | .idle => do
        let arcs ← s.arcs.clone sys.head.node
        { s with sys, arcs }.release s.sys.head.node
      | _ => return { s with sys }
    | .next, .iterating c => do
      s.arcs.access c.node
      let sys ← s.sys.move b m
      return { s with sys }
    | _, _ => do
      let sys ← s.sys.move b m
      return { s with sys }
  else return s

/-- One step. A step that is not possible does nothing: who is dropped does nothing more, an iterator borrows the buffer,
and a load borrows the loader. -/
def Owned.move (b : Build) (s : Owned T E) : OwnedMove T E → Run (Owned T E)
  | .sys m =>
    match m with
    | .load _ _ | .forceCommit _ => s.loaderMove b m
    | _ => s.bufferMove b m
  | .release =>
    match s.releasing with
    | some a => { s with releasing := none }.release a
    | none => pure s
  | .dropLoader => do
    if s.loader = true ∧ s.releasing = none then
      let last ← s.sys.loader.buf.readMany 0 s.sys.loader.buf.len
      { s with loader := false, last }.release s.sys.loader.tail
    else return s
  | .dropBuffer =>
    match s.sys.reader with
    | .idle => if s.buffer = true then { s with buffer := false }.release s.sys.head.node else pure s
    | _ => pure s

/-- A history. -/
def Owned.run (b : Build) : Owned T E → List (OwnedMove T E) → Run (Owned T E)
  | s, [] => pure s
  | s, m :: ms => do
    let s ← s.move b m
    s.run b ms

end Parcom
