import Verif.Model.AnyWriter
/-!
# What an implementation of `BufferWriter` must keep to
-/
namespace Parcom.Spec
open Parcom
variable {σ T : Type}

/-- There is an item at this offset. -/
def There (w : AnyWriter σ T) (i : Nat) : Prop := i < w.mem.cap ∧ ∃ x, w.mem.cells i = some x

/-- What is undefined, by what the implementation says of itself. -/
def Undefined (b : Build) (I : Impl σ) (w : AnyWriter σ T) : SafeOp T → Prop
  | .view | .assign _ _ => ∃ i, i < I.len w.state ∧ ¬ There w i
  | .prepare _ => if I.len w.state ≤ I.capacity w.state then w.mem.cap < I.capacity w.state else b = .wrapping
  | .push _ => I.len w.state ≠ I.capacity w.state ∧ w.mem.cap ≤ I.len w.state
  | .shrink n => ∃ i, n ≤ i ∧ i < I.len w.state ∧ ¬ There w i

/-- All numbers are `usize`s, and no allocation is larger than the address space. -/
structure WriterFits (I : Impl σ) (w : AnyWriter σ T) : Prop where
  len : I.len w.state ≤ usizeMax
  capacity : I.capacity w.state ≤ usizeMax
  room : w.mem.cap ≤ usizeMax

/-- What the documentation of the trait (buffer_writer.rs:9-16) says: `capacity` items fit, `len` of them are written, namely
these. -/
structure Honest (I : Impl σ) (w : AnyWriter σ T) (xs : List T) : Prop where
  len : I.len w.state = xs.length
  fits : xs.length ≤ I.capacity w.state
  room : I.capacity w.state ≤ w.mem.cap
  items : ∀ i : Nat, i < xs.length → w.mem.cells i = xs[i]?

/-- `set_len` sets the length and nothing else. -/
def SetsLen (I : Impl σ) : Prop :=
  ∀ s n, n ≤ I.capacity s → I.len (I.setLen s n) = n ∧ I.capacity (I.setLen s n) = I.capacity s

/-- What an operation should do to the items written, with room for `cap` of them; `none` if it panics. -/
def effectOf (cap : Nat) (xs : List T) : SafeOp T → Option (List T)
  | .view => some xs
  | .assign i x => if i < xs.length then some (xs.set i x) else none
  | .prepare ys => if xs.length + ys.length ≤ cap then some xs else none
  | .push x => some (if xs.length < cap then xs ++ [x] else xs)
  | .shrink n => if n ≤ xs.length then some (xs.take n) else none

/-- The items written after some operations; panics are caught. -/
def effects (cap : Nat) : List T → List (SafeOp T) → List T
  | xs, [] => xs
  | xs, op :: ops => effects cap ((effectOf cap xs op).getD xs) ops

end Parcom.Spec
