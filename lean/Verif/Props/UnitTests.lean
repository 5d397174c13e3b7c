import Verif.Props.ShortVecCost
/-!
# The unit tests of `ShortVec`, on the model

`parcom-internals/src/shortvec.rs:199-276`. The tests count allocations and frees of the vector and of the boxes in it. Here the
boxes are numbers: one box is allocated per number pushed, and freed when it is popped or dropped. What the tests show on an
example, C44, C45 and C102 say for all programs; these runs only compare the model with what the authors expect.

The unit tests of `LineColumn` are in C114, and those of `bin_expr` in C115; what the tests of `Notify` show are instances of
C47 to C49.
-/
namespace Parcom

/-- `items` boxes are pushed on a vector with `n` inline slots, half of them are popped, and the vector is dropped. -/
def boxTest (n items : Nat) : List (VecOp Nat) :=
  .new n 0 :: (List.range items).map (.push 0) ++ List.replicate (items / 2) (.pop 0) ++ [.drop 0]

/-- What a test observes: whether every call returned, the allocations of the vector, whether its block is freed, the boxes that
came back by `pop`, and those that were dropped with the vector. -/
def boxRun (n items : Nat) : Option (Bool × Nat × Bool × List Nat × List Nat) :=
  (Sys.runAll .checked ⟨8, 8⟩ { vecs := [], mem := Mem.blank } (boxTest n items)).map fun p =>
    (p.1.all Except.isOk, p.2.mem.requests, (List.range p.2.mem.next).all (fun q => (p.2.mem.blocks q).isNone),
      Spec.handedOut ((boxTest n items).zip p.1), p.2.mem.dropped)

/-- `never_allocation` (shortvec.rs:206-216). -/
example : boxRun 4 0 = some (true, 0, true, [], []) := by decide +kernel
/-- `should_spill_to_heap_on_push_to_size_zero_vec` (shortvec.rs:218-236): one allocation more than boxes. -/
example : boxRun 0 1 = some (true, 1, true, [], [0]) := by decide +kernel
/-- `should_not_spill_with_enough_capacity` (shortvec.rs:238-255). -/
example : boxRun 4 4 = some (true, 0, true, [3, 2], [0, 1]) := by decide +kernel
/-- `should_spill_when_stack_buffer_overflowed` (shortvec.rs:257-275). -/
example : boxRun 4 5 = some (true, 1, true, [4, 3], [0, 1, 2]) := by decide +kernel

end Parcom
