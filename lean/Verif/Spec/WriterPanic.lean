import Verif.Model.WriterPanic
/-!
# Histories of a writer whose items panic when dropped
-/
namespace Parcom.Spec
open Parcom
variable {T : Type}

/-- What happened to a writer: its operations, and what each did. A panic was caught each time. -/
inductive Handled (panics : T → Bool) (env : Env) (start : Request T) : List (WriterOp T × Settled T) → Request T → Prop where
  | start : Handled panics env start [] start
  | step {hist : List (WriterOp T × Settled T)} {r : Request T} {op : WriterOp T} {s : Settled T} : Handled panics env start hist r →
      op.runPanicking panics env r = Run.ret s → Handled panics env start (hist ++ [(op, s)]) s.writer

/-- The items an operation is given. -/
def suppliedTo : WriterOp T → List T
  | .push x => [x]
  | .fill xs => xs
  | .shrink _ => []
  | .set _ x => [x]
  | .raw xs => xs

/-- The items given to all operations. -/
def suppliedOf : List (WriterOp T × Settled T) → List T
  | [] => []
  | (op, _) :: hist => suppliedTo op ++ suppliedOf hist

/-- The items dropped. -/
def droppedOf : List (WriterOp T × Settled T) → List T
  | [] => []
  | (_, s) :: hist => s.dropped ++ droppedOf hist

/-- The items handed back. -/
def backOf : List (WriterOp T × Settled T) → List T
  | [] => []
  | (_, s) :: hist => s.back ++ backOf hist

/-- Some `shrink_to` panicked after it had begun to drop items. -/
def Torn (hist : List (WriterOp T × Settled T)) : Prop :=
  ∃ n s, (WriterOp.shrink n, s) ∈ hist ∧ s.panicked = true ∧ s.dropped ≠ []

end Parcom.Spec
