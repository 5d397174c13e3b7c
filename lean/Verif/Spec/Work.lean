import Verif.Model.BinExprSteps
/-!
# How much `parse_impl` does
-/
namespace Parcom.Spec
open Parcom

variable {S T Op EOp ETerm Expr : Type} [RewindSequence S]

/-- `parse_impl` has returned. -/
def returned : BinState S T Op EOp ETerm Expr → Bool
  | .ret _ _ => true
  | _ => false

/-- Two expressions are being combined. -/
def combines : BinState S T Op EOp ETerm Expr → Bool
  | .combine .. | .lastCombine .. => true
  | _ => false

/-- Two operators are being compared. -/
def compares : BinState S T Op EOp ETerm Expr → Bool
  | .compare .. => true
  | _ => false

/-- The parser of operands is being run. -/
def wantsTerm : BinState S T Op EOp ETerm Expr → Bool
  | .first .. | .atTerm .. => true
  | _ => false

/-- The parser of operators is being run. -/
def wantsOp : BinState S T Op EOp ETerm Expr → Bool
  | .atOp .. => true
  | _ => false

/-- The number of operators that were read. -/
def operators : List (BinEvent T Op Expr) → Nat
  | [] => 0
  | .readOp _ :: evs => operators evs + 1
  | _ :: evs => operators evs

section
variable [Operator Op] [ParseError EOp] [ParseError ETerm] (b : Build) (ty : Ty)
  (term : S → Run (PResult S T ETerm)) (op : S → Run (PResult S Op EOp))
  (mk : Expr → Op → Expr → Expr) (ofTerm : T → Expr) (prec : Nat)

/-- A run so far: where it has been, where it is, and what it has shown. -/
inductive BinTrace (start : BinState S T Op EOp ETerm Expr) :
    List (BinState S T Op EOp ETerm Expr) → BinState S T Op EOp ETerm Expr → List (BinEvent T Op Expr) → Prop where
  | start : BinTrace start [] start []
  | step {visited : List (BinState S T Op EOp ETerm Expr)} {st st' : BinState S T Op EOp ETerm Expr}
      {evs evs' : List (BinEvent T Op Expr)} : BinTrace start visited st evs → returned st = false →
      BinState.step b ty term op mk ofTerm prec st = pure (st', evs') →
      BinTrace start (visited ++ [st]) st' (evs ++ evs')

end
end Parcom.Spec
