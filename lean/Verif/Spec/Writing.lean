import Verif.Model.Loader
/-!
# What a buffer writer should do

A writer gives access to a stretch of memory with room for a number of items, of which the first ones are written.
-/
namespace Parcom.Spec
open Parcom

/-- The vector consists of these items, and no other item is in its memory: an item behind the length would never be
dropped. -/
structure Holds {T : Type} (v : RawVec T) (xs : List T) : Prop where
  len : v.len = xs.length
  fits : xs.length ≤ v.cap
  cells : ∀ i : Nat, v.cells i = xs[i]?

/-- The writer behaves as a buffer; `View w xs room` says that it has room for `room` items and `xs` are written. This
leaves out `capacity`. -/
structure Lawful {W T R E : Type} (B : BufferWriter W T R E) (View : W → List T → Nat → Prop) : Prop where
  fits {w : W} {xs : List T} {room : Nat} : View w xs room → xs.length ≤ room
  len {w : W} {xs : List T} {room : Nat} : View w xs room → B.len w = Run.ret xs.length
  read {w : W} {xs : List T} {room : Nat} : View w xs room → ∀ i (h : i < xs.length), B.read w i = Run.ret xs[i]
  /-- Writing behind the written items and then setting the length works within the room. -/
  fill {w : W} {xs : List T} {room : Nat} (ys : List T) : View w xs room → xs.length + ys.length ≤ room →
    ∃ w', (B.writeMany w xs.length ys >>= fun w => B.setLen w (xs.length + ys.length)) = Run.ret w' ∧ View w' (xs ++ ys) room
  /-- Writing beyond the room is undefined. -/
  overrun {w : W} {xs : List T} {room : Nat} (ys : List T) : View w xs room → room < xs.length + ys.length →
    B.writeMany w xs.length ys = Run.fault .ub
  /-- Replacing an item works. -/
  replace {w : W} {xs : List T} {room : Nat} {i : Nat} (x : T) : View w xs room → i < xs.length →
    ∃ w', (B.dropAt w i >>= fun w => B.write w i x) = Run.ret w' ∧ View w' (xs.set i x) room
  /-- Dropping the last items and then setting the length works. -/
  cut {w : W} {xs : List T} {room : Nat} {n : Nat} : View w xs room → n ≤ xs.length →
    ∃ w', (B.dropMany w n (xs.length - n) >>= fun w => B.setLen w n) = Run.ret w' ∧ View w' (xs.take n) room

/-- `capacity` is what its documentation says: the capacity of the underlying buffer, so the number of items the writer
can hold. -/
def TruthfulCapacity {W T R E : Type} (B : BufferWriter W T R E) (View : W → List T → Nat → Prop) : Prop :=
  ∀ {w : W} {xs : List T} {room : Nat}, View w xs room → B.capacity w = Run.ret room

/-- Pushing items one by one; which were accepted. -/
def pushAll {W T R E : Type} (B : BufferWriter W T R E) : W → List T → Run (List Bool × W)
  | w, [] => pure ([], w)
  | w, x :: xs => do
    let (r, w) ← B.pushItem w x
    let (rs, w) ← pushAll B w xs
    return (r.isNone :: rs, w)

/-- A strategy gives at least what is asked for, and so does the allocator. -/
structure LawfulEnv (env : Env) : Prop where
  strategy : ∀ n c, env.calcCapacity n = Run.ret c → n ≤ c
  alloc : ∀ n c, env.withCapacity n = Run.ret c → n ≤ c

end Parcom.Spec
