import Verif.Model.ShortVec
/-!
# ShortVec of elements whose destructors panic

`Model/ShortVec` again, for an element type of which `panics` says which elements panic when they are dropped. Such a panic is
the fault `assertion`. A destructor that panics while a panic unwinds aborts the process (std: "panic in a destructor during
cleanup").
-/
namespace Parcom

variable {α : Type}

/-- `std::ptr::drop_in_place` on the elements `i..i+k` (std), in order. When the destructor of one panics, the others are dropped
while unwinding. -/
def dropGlue (panics : α → Bool) (ty : Ty) (p : Ptr) : Bool → Nat → Nat → Act (World α) Unit
  | unwinding, _, 0 => if unwinding then Act.throw .assertion else pure ()
  | unwinding, i, k + 1 => do
    let a ← p.read ty i
    Act.modify (World.drop a)
    if panics a then
      if unwinding then Act.throw .abort else dropGlue panics ty p true (i + 1) k
    else dropGlue panics ty p unwinding (i + 1) k

/-- `Drop::drop` (shortvec.rs:175-190). A panic in `drop_in_place` leaves it there. -/
def dropVecPanicking (panics : α → Bool) (ty : Ty) : Act (World α) Unit := do
  let w ← Act.get
  let p ← asPtr
  dropGlue panics ty p false 0 w.vec.len
  if w.vec.isHeap then
    let layout ← layoutArray ty w.vec.cap
    match p with
    | .heap q => onMem (Mem.dealloc q layout)
    | .stack => Act.throw .ub
  else return ()

/-- One operation of a program. When `push` (shortvec.rs:87-95) or an assignment through `as_slice_mut` (75-81) panics, unwinding
drops the element. -/
def Sys.runPanicking (panics : α → Bool) (b : Build) (ty : Ty) (sys : Sys α) : VecOp α → Option (Except Fault (VecOut α) × Sys α)
  | .push k item => (sys.run b ty (.push k item)).map (unwound item)
  | .replace k i item => (sys.run b ty (.replace k i item)).map (unwound item)
  | .drop k => match sys.call k (dropVecPanicking panics ty) fun _ => .unit with
    | some (r, sys) => some (r, { sys with vecs := sys.vecs.set k none })
    | none => none
  | op => sys.run b ty op
where
  /-- The element is dropped if the operation panicked. -/
  unwound (item : α) : Except Fault (VecOut α) × Sys α → Except Fault (VecOut α) × Sys α
  | (.error e, sys) => if panics item ∧ e ≠ .ub then (.error .abort, sys) else (.error e, sys)
  | (.ok o, sys) => (.ok o, sys)

end Parcom
