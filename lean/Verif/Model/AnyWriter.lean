import Verif.Model.Writer
/-!
# Any implementation of `BufferWriter`

`BufferWriter` (parcom-sequence-core/src/buffer_writer.rs) is a trait that safe code may implement. The methods without a body
can then return anything; those with a body (22-80) go through the pointer and trust what `len` and `capacity` said. Here is
an implementation of which nothing is known, except that it looks at no more than its own state: `len`, `capacity` and `set_len` do
anything with it, and the pointer points to some memory. Destructors do not panic here; items whose destructors do are in
`Model/WriterPanic`.
-/
namespace Parcom
variable {σ T : Type}

/-- An implementation of the methods without a body (buffer_writer.rs:9-17). -/
structure Impl (σ : Type) where
  capacity : σ → Nat
  len : σ → Nat
  setLen : σ → Nat → σ

/-- A value of that type: what `as_ptr` and `as_mut_ptr` point to is an allocation of `mem.cap` cells. (`mem.len` is not used.) -/
structure AnyWriter (σ T : Type) where
  state : σ
  mem : RawVec T

/-- `impl BufferWriter` (buffer_writer.rs:3-20). What `advance` and `cancel` do does not matter. -/
def Impl.writer (I : Impl σ) : BufferWriter (AnyWriter σ T) T Unit Unit where
  capacity w := pure (I.capacity w.state)
  len w := pure (I.len w.state)
  read w i := w.mem.read i
  write w i x := do
    let mem ← w.mem.write i x
    return { w with mem }
  dropAt w i := do
    let mem ← w.mem.dropAt i
    return { w with mem }
  within w i n := if i + n ≤ w.mem.cap then pure () else Run.fault .ub
  setLen w n := pure { w with state := I.setLen w.state n }
  advance _ := pure ()
  cancel _ _ := pure ()

/-- What safe code can do with a writer, through the methods with a body. -/
inductive SafeOp (T : Type) where
  /-- `as_slice` -/
  | view
  /-- `as_mut_slice()[i] = item` -/
  | assign (i : Nat) (item : T)
  /-- `spare_capacity`, then `MaybeUninit::write` to its first elements -/
  | prepare (items : List T)
  /-- `push_item` -/
  | push (item : T)
  /-- `shrink_to` -/
  | shrink (len : Nat)

/-- Doing so (buffer_writer.rs:22-80). The items of a slice must be there when it is made. Writing an `items` longer than the
spare capacity panics at the first that does not fit. -/
def SafeOp.run (b : Build) (I : Impl σ) (w : AnyWriter σ T) : SafeOp T → Run (AnyWriter σ T)
  | .view => do
    let _ ← I.writer.asSlice w
    return w
  | .assign i x => do
    let _ ← I.writer.asSlice w
    I.writer.setItem w i x
  | .prepare xs => do
    let (start, len) ← I.writer.spareCapacity b w
    if xs.length ≤ len then I.writer.writeMany w start xs
    else Run.fault .bounds
  | .push x => do
    let (_, w) ← I.writer.pushItem w x
    return w
  | .shrink n => I.writer.shrinkTo w n

/-- The operations in turn; a panic is caught, undefined behaviour is not. The panics of these methods come before they have
changed anything. -/
def SafeOp.runAll (b : Build) (I : Impl σ) : AnyWriter σ T → List (SafeOp T) → Run (AnyWriter σ T)
  | w, [] => pure w
  | w, op :: ops =>
    match op.run b I w with
    | none => none
    | some (.ok w') => SafeOp.runAll b I w' ops
    | some (.error .ub) => Run.fault .ub
    | some (.error _) => SafeOp.runAll b I w ops

end Parcom
