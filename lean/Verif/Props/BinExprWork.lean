import Verif.Spec.Work
import Verif.Props.BinExprSteps
/-!
# C103: binary expressions take linear time
-/
namespace Parcom
open Spec

variable {S T Op EOp ETerm Expr : Type} [RewindSequence S] [Operator Op] [ParseError EOp] [ParseError ETerm]
  {b : Build} {ty : Ty} {mk : Expr → Op → Expr → Expr} {ofTerm : T → Expr} {term : S → Run (PResult S T ETerm)}
  {op : S → Run (PResult S Op EOp)} {prec : Nat}

/-! ## The height of the stack -/

theorem Act.bind_inv {W β γ : Type} {x : Act W β} {f : β → Act W γ} {w w'' : W} {c : γ} (h : (x >>= f) w = (.ok c, w'')) :
    ∃ a w', x w = (.ok a, w') ∧ f a w' = (.ok c, w'') := by
  cases hx : x w with
  | mk r w' => cases r with
    | error e => rw [Act.bind_error hx] at h; simp at h
    | ok a => rw [Act.bind_ok hx] at h; exact ⟨a, w', rfl, h⟩

theorem exec_ok {α β : Type} {w w' : World α} {x : Act (World α) β} {a : β} (h : w.exec x = Run.ret (a, w')) :
    x w = (.ok a, w') := by
  unfold World.exec at h
  split at h
  · next h1 => simp only [Run.pure_eq_ret, Prod.mk.injEq] at h; rw [h1, h.1, h.2]
  · simp at h

theorem height_pop {α : Type} {w w' : World α} {o : Option α} (h : w.exec (pop ty) = Run.ret (o, w')) :
    w'.vec.len + (if o.isSome then 1 else 0) = w.vec.len := by
  have h := exec_ok h
  unfold pop at h
  rw [Act.get_bind_run] at h
  split at h
  · simp at h
    obtain ⟨rfl, rfl⟩ := h
    rfl
  · rename_i hne
    have hlen : w.vec.len ≠ 0 := by simpa [SVec.isEmpty] using hne
    obtain ⟨p, w₁, h1, h⟩ := Act.bind_inv h
    rw [Act.modify_bind_run] at h
    obtain ⟨a, w₂, h2, h⟩ := Act.bind_inv h
    simp at h
    obtain ⟨rfl, rfl⟩ := h
    have e1 : w₁ = w := by
      unfold asPtr at h1
      repeat' split at h1
      all_goals simp at h1
      all_goals exact h1.2.symm
    have e2 : w₂.vec.len = w₁.vec.len - 1 := by
      unfold Ptr.read at h2
      repeat' split at h2
      all_goals simp at h2
      all_goals rw [← h2.2]
    rw [e2, e1]
    simp
    omega

theorem height_push {α : Type} {w w' : World α} {item : α} (h : w.exec (push b ty item) = Run.ret ((), w')) :
    w'.vec.len ≤ w.vec.len + 1 := by
  have h := exec_ok h
  unfold push at h
  rw [Act.get_bind_run] at h
  obtain ⟨-, w₁, -, h⟩ := Act.bind_inv h
  obtain ⟨p, w₂, -, h⟩ := Act.bind_inv h
  obtain ⟨-, w₃, -, h⟩ := Act.bind_inv h
  obtain ⟨n, w₄, h1, h⟩ := Act.bind_inv h
  simp at h
  subst h
  show n ≤ _
  unfold addUsize at h1
  split at h1
  · simp at h1; omega
  · cases b
    · simp at h1
    · simp at h1
      rw [← h1.1]
      exact Nat.mod_le _ _

/-! ## What is paid for -/

/-- Steps still paid for. -/
def BinState.paid : BinState S T Op EOp ETerm Expr → Nat
  | .first _ _ => 6
  | .convert _ _ _ => 5
  | .atOp w _ _ => 3 * w.vec.len + 4
  | .gotOp w _ _ _ _ => 3 * w.vec.len + 14
  | .opFailed w _ _ _ _ => 3 * w.vec.len + 3
  | .rewindOp w _ _ _ _ => 3 * w.vec.len + 2
  | .atTerm w _ _ _ _ => 3 * w.vec.len + 13
  | .convertTerm w _ _ _ _ => 3 * w.vec.len + 12
  | .termFailed w _ _ _ _ _ => 3 * w.vec.len + 3
  | .rewindTerm w _ _ _ _ _ => 3 * w.vec.len + 2
  | .inner w _ _ _ _ => 3 * w.vec.len + 11
  | .compare w _ _ _ _ _ _ => 3 * w.vec.len + 13
  | .pushBack w _ _ _ _ _ _ => 3 * w.vec.len + 12
  | .push w _ _ _ _ => 3 * w.vec.len + 8
  | .combine w _ _ _ _ _ _ => 3 * w.vec.len + 12
  | .last w _ _ _ => 3 * w.vec.len + 1
  | .lastCombine w _ _ _ _ _ => 3 * w.vec.len + 3
  | .ret _ _ => 0

/-- Operators held. -/
def BinState.operatorsHeld : BinState S T Op EOp ETerm Expr → Nat
  | .first _ _ | .convert _ _ _ | .ret _ _ => 0
  | .atOp w _ _ | .opFailed w _ _ _ _ | .rewindOp w _ _ _ _ | .termFailed w _ _ _ _ _ | .rewindTerm w _ _ _ _ _ | .last w _ _ _ =>
    w.vec.len
  | .gotOp w _ _ _ _ | .atTerm w _ _ _ _ | .convertTerm w _ _ _ _ | .inner w _ _ _ _ | .push w _ _ _ _ | .lastCombine w _ _ _ _ _ =>
    w.vec.len + 1
  | .compare w _ _ _ _ _ _ | .pushBack w _ _ _ _ _ _ | .combine w _ _ _ _ _ _ => w.vec.len + 2

/-- Comparisons still paid for. -/
def BinState.paidCompares : BinState S T Op EOp ETerm Expr → Nat
  | .first _ _ | .convert _ _ _ | .ret _ _ => 0
  | .atOp w _ _ | .opFailed w _ _ _ _ | .rewindOp w _ _ _ _ | .termFailed w _ _ _ _ _ | .rewindTerm w _ _ _ _ _ | .last w _ _ _
  | .lastCombine w _ _ _ _ _ => w.vec.len
  | .gotOp w _ _ _ _ | .atTerm w _ _ _ _ | .convertTerm w _ _ _ _ | .inner w _ _ _ _ => w.vec.len + 2
  | .push w _ _ _ _ => w.vec.len + 1
  | .compare w _ _ _ _ _ _ => w.vec.len + 3
  | .pushBack w _ _ _ _ _ _ | .combine w _ _ _ _ _ _ => w.vec.len + 2

/-- Operands still to come. -/
def BinState.paidTerms : BinState S T Op EOp ETerm Expr → Nat
  | .first .. | .gotOp .. | .atTerm .. => 1
  | _ => 0

/-- Calls for an operator still to come. -/
def BinState.paidOps : BinState S T Op EOp ETerm Expr → Nat
  | .first .. | .convert .. | .atOp .. | .gotOp .. | .atTerm .. | .convertTerm .. | .inner .. | .compare .. | .pushBack .. | .push ..
  | .combine .. => 1
  | _ => 0

omit [Operator Op] in
theorem operators_append (evs evs' : List (BinEvent T Op Expr)) : operators (evs ++ evs') = operators evs + operators evs' := by
  induction evs with
  | nil => simp [operators]
  | cons e evs ih => cases e <;> simp [operators, ih] <;> omega

omit [Operator Op] in
theorem operators_dropped (l : List (BinVal T Op Expr)) : operators (l.map BinEvent.dropped) = 0 := by
  induction l with
  | nil => rfl
  | cons _ l ih => simpa [operators] using ih

/-- One or none. -/
def one (p : Bool) : Nat := if p then 1 else 0

/-- A step is paid for. -/
structure Paid (st st' : BinState S T Op EOp ETerm Expr) (new : Nat) : Prop where
  steps : 1 + st'.paid ≤ st.paid + 11 * new
  combines : one (combines st) + st'.operatorsHeld ≤ st.operatorsHeld + new
  compares : one (compares st) + st'.paidCompares ≤ st.paidCompares + 2 * new
  terms : one (wantsTerm st) + st'.paidTerms ≤ st.paidTerms + new
  ops : one (wantsOp st) + st'.paidOps ≤ st.paidOps + new
  few : new ≤ 1

omit [Operator Op] [ParseError EOp] [ParseError ETerm] in
theorem leave_inv {w : World (Expr × Op)} {later : List (BinVal T Op Expr)} {rhs : Expr} {e : Either EOp ETerm}
    {r : UnknownLocation S} {st' : BinState S T Op EOp ETerm Expr} {evs : List (BinEvent T Op Expr)}
    (h : BinState.leave ty w later rhs e r = pure (st', evs)) : ∃ mem, st' = .ret mem (fail e r) ∧ operators evs = 0 := by
  unfold BinState.leave at h
  rw [Run.bind_eq_pure] at h
  obtain ⟨⟨_, w'⟩, _, h⟩ := h
  simp only [Run.pure_eq_ret, Prod.mk.injEq] at h
  obtain ⟨rfl, rfl⟩ := h
  exact ⟨_, rfl, operators_dropped _⟩

theorem step_paid {st st' : BinState S T Op EOp ETerm Expr} {evs : List (BinEvent T Op Expr)} (hn : returned st = false)
    (hs : BinState.step b ty term op mk ofTerm prec st = pure (st', evs)) : Paid st st' (operators evs) := by
  cases st with
  | first m input =>
    simp only [BinState.step] at hs
    rw [Run.bind_eq_pure] at hs
    obtain ⟨res, h1, h2⟩ := hs
    cases res with
    | _ =>
      simp only [Run.pure_eq_ret, Prod.mk.injEq] at h2
      obtain ⟨rfl, rfl⟩ := h2
      constructor <;> simp [BinState.paid, BinState.operatorsHeld, BinState.paidCompares, BinState.paidTerms, BinState.paidOps,
        combines, compares, wantsTerm, wantsOp, one, operators]
  | convert m v rest =>
    obtain ⟨vec, h5, h6, h7, h8⟩ := new_rel (ty := ty) (mem := m)
    have := h6.len
    simp only [BinState.step, h5, Run.pure_inj', Prod.mk.injEq] at hs
    obtain ⟨rfl, rfl⟩ := hs
    constructor <;> simp_all [BinState.paid, BinState.operatorsHeld, BinState.paidCompares, BinState.paidTerms, BinState.paidOps,
        combines, compares, wantsTerm, wantsOp, one, operators]
  | atOp w rhs rest =>
    simp only [BinState.step] at hs
    rw [Run.bind_eq_pure] at hs
    obtain ⟨res, h1, h2⟩ := hs
    cases res with
    | _ =>
      simp only [Run.pure_eq_ret, Prod.mk.injEq] at h2
      obtain ⟨rfl, rfl⟩ := h2
      constructor <;> simp [BinState.paid, BinState.operatorsHeld, BinState.paidCompares, BinState.paidTerms, BinState.paidOps,
        combines, compares, wantsTerm, wantsOp, one, operators] <;> omega
  | gotOp w rhs anchor o r =>
    simp only [BinState.step] at hs
    split at hs
    all_goals
      simp only [Run.pure_inj', Prod.mk.injEq] at hs
      obtain ⟨rfl, rfl⟩ := hs
      constructor <;> simp [BinState.paid, BinState.operatorsHeld, BinState.paidCompares, BinState.paidTerms, BinState.paidOps,
        combines, compares, wantsTerm, wantsOp, one, operators] <;> omega
  | opFailed w rhs anchor e r =>
    simp only [BinState.step] at hs
    split at hs
    · obtain ⟨mem, rfl, h⟩ := leave_inv hs
      constructor <;> simp [h, BinState.paid, BinState.operatorsHeld, BinState.paidCompares, BinState.paidTerms, BinState.paidOps,
        combines, compares, wantsTerm, wantsOp, one]
    · simp only [Run.pure_inj', Prod.mk.injEq] at hs
      obtain ⟨rfl, rfl⟩ := hs
      constructor <;> simp [BinState.paid, BinState.operatorsHeld, BinState.paidCompares, BinState.paidTerms, BinState.paidOps,
        combines, compares, wantsTerm, wantsOp, one, operators] <;> omega
  | rewindOp w rhs anchor e r =>
    simp only [BinState.step] at hs
    rw [Run.bind_eq_pure] at hs
    obtain ⟨rest, h1, h2⟩ := hs
    simp only [Run.pure_eq_ret, Prod.mk.injEq] at h2
    obtain ⟨rfl, rfl⟩ := h2
    constructor <;> simp [BinState.paid, BinState.operatorsHeld, BinState.paidCompares, BinState.paidTerms, BinState.paidOps,
        combines, compares, wantsTerm, wantsOp, one, operators] <;> omega
  | atTerm w rhs anchor o r =>
    simp only [BinState.step] at hs
    rw [Run.bind_eq_pure] at hs
    obtain ⟨res, h1, h2⟩ := hs
    cases res with
    | _ =>
      simp only [Run.pure_eq_ret, Prod.mk.injEq] at h2
      obtain ⟨rfl, rfl⟩ := h2
      constructor <;> simp [BinState.paid, BinState.operatorsHeld, BinState.paidCompares, BinState.paidTerms, BinState.paidOps,
        combines, compares, wantsTerm, wantsOp, one, operators] <;> omega
  | convertTerm w rhs o v r =>
    simp only [BinState.step, Run.pure_inj', Prod.mk.injEq] at hs
    obtain ⟨rfl, rfl⟩ := hs
    constructor <;> simp [BinState.paid, BinState.operatorsHeld, BinState.paidCompares, BinState.paidTerms, BinState.paidOps,
        combines, compares, wantsTerm, wantsOp, one, operators] <;> omega
  | termFailed w rhs anchor o e r =>
    simp only [BinState.step] at hs
    split at hs
    · simp only [Run.pure_inj', Prod.mk.injEq] at hs
      obtain ⟨rfl, rfl⟩ := hs
      constructor <;> simp [BinState.paid, BinState.operatorsHeld, BinState.paidCompares, BinState.paidTerms, BinState.paidOps,
        combines, compares, wantsTerm, wantsOp, one, operators] <;> omega
    · obtain ⟨mem, rfl, h⟩ := leave_inv hs
      constructor <;> simp [h, BinState.paid, BinState.operatorsHeld, BinState.paidCompares, BinState.paidTerms, BinState.paidOps,
        combines, compares, wantsTerm, wantsOp, one]
  | rewindTerm w rhs anchor o e r =>
    simp only [BinState.step] at hs
    rw [Run.bind_eq_pure] at hs
    obtain ⟨rest, h1, h2⟩ := hs
    simp only [Run.pure_eq_ret, Prod.mk.injEq] at h2
    obtain ⟨rfl, rfl⟩ := h2
    constructor <;> simp [BinState.paid, BinState.operatorsHeld, BinState.paidCompares, BinState.paidTerms, BinState.paidOps,
        combines, compares, wantsTerm, wantsOp, one, operators] <;> omega
  | inner w rhs o t rest =>
    simp only [BinState.step] at hs
    rw [Run.bind_eq_pure] at hs
    obtain ⟨⟨x, w'⟩, h1, h2⟩ := hs
    have hl := height_pop h1
    cases x with
    | none =>
      simp only [Run.pure_eq_ret, Prod.mk.injEq] at h2
      obtain ⟨rfl, rfl⟩ := h2
      simp at hl
      constructor <;> simp [BinState.paid, BinState.operatorsHeld, BinState.paidCompares, BinState.paidTerms, BinState.paidOps,
        combines, compares, wantsTerm, wantsOp, one, operators] <;> omega
    | some p =>
      simp only [Run.pure_eq_ret, Prod.mk.injEq] at h2
      obtain ⟨rfl, rfl⟩ := h2
      simp at hl
      constructor <;> simp [BinState.paid, BinState.operatorsHeld, BinState.paidCompares, BinState.paidTerms, BinState.paidOps,
        combines, compares, wantsTerm, wantsOp, one, operators] <;> omega
  | compare w lhs lastOp rhs o t rest =>
    simp only [BinState.step] at hs
    rw [Run.bind_eq_pure] at hs
    obtain ⟨p, h1, h2⟩ := hs
    split at h2
    all_goals
      simp only [Run.pure_eq_ret, Prod.mk.injEq] at h2
      obtain ⟨rfl, rfl⟩ := h2
      constructor <;> simp [BinState.paid, BinState.operatorsHeld, BinState.paidCompares, BinState.paidTerms, BinState.paidOps,
        combines, compares, wantsTerm, wantsOp, one, operators] <;> omega
  | pushBack w lhs lastOp rhs o t rest =>
    simp only [BinState.step] at hs
    rw [Run.bind_eq_pure] at hs
    obtain ⟨⟨x, w'⟩, h1, h2⟩ := hs
    have hl := height_push h1
    simp only [Run.pure_eq_ret, Prod.mk.injEq] at h2
    obtain ⟨rfl, rfl⟩ := h2
    constructor <;> simp [BinState.paid, BinState.operatorsHeld, BinState.paidCompares, BinState.paidTerms, BinState.paidOps,
        combines, compares, wantsTerm, wantsOp, one, operators] <;> omega
  | push w rhs o t rest =>
    simp only [BinState.step] at hs
    rw [Run.bind_eq_pure] at hs
    obtain ⟨⟨x, w'⟩, h1, h2⟩ := hs
    have hl := height_push h1
    simp only [Run.pure_eq_ret, Prod.mk.injEq] at h2
    obtain ⟨rfl, rfl⟩ := h2
    constructor <;> simp [BinState.paid, BinState.operatorsHeld, BinState.paidCompares, BinState.paidTerms, BinState.paidOps,
        combines, compares, wantsTerm, wantsOp, one, operators] <;> omega
  | combine w lhs lastOp rhs o t rest =>
    simp only [BinState.step, Run.pure_inj', Prod.mk.injEq] at hs
    obtain ⟨rfl, rfl⟩ := hs
    constructor <;> simp [BinState.paid, BinState.operatorsHeld, BinState.paidCompares, BinState.paidTerms, BinState.paidOps,
        combines, compares, wantsTerm, wantsOp, one, operators] <;> omega
  | last w rhs reason rest =>
    simp only [BinState.step] at hs
    rw [Run.bind_eq_pure] at hs
    obtain ⟨⟨x, w'⟩, h1, h2⟩ := hs
    have hl := height_pop h1
    cases x with
    | none =>
      simp only at h2
      rw [Run.bind_eq_ret] at h2
      obtain ⟨⟨_, w₂⟩, _, h2⟩ := h2
      simp only [Run.pure_eq_ret, Prod.mk.injEq] at h2
      obtain ⟨rfl, rfl⟩ := h2
      constructor <;> simp [BinState.paid, BinState.operatorsHeld, BinState.paidCompares, BinState.paidTerms, BinState.paidOps,
        combines, compares, wantsTerm, wantsOp, one, operators_dropped]
    | some p =>
      simp only [Run.pure_eq_ret, Prod.mk.injEq] at h2
      obtain ⟨rfl, rfl⟩ := h2
      simp at hl
      constructor <;> simp [BinState.paid, BinState.operatorsHeld, BinState.paidCompares, BinState.paidTerms, BinState.paidOps,
        combines, compares, wantsTerm, wantsOp, one, operators] <;> omega
  | lastCombine w lhs o rhs reason rest =>
    simp only [BinState.step, Run.pure_inj', Prod.mk.injEq] at hs
    obtain ⟨rfl, rfl⟩ := hs
    constructor <;> simp [BinState.paid, BinState.operatorsHeld, BinState.paidCompares, BinState.paidTerms, BinState.paidOps,
        combines, compares, wantsTerm, wantsOp, one, operators] <;> omega
  | ret mem res => simp [returned] at hn

section
variable (b : Build) (ty : Ty) (term : S → Run (PResult S T ETerm)) (op : S → Run (PResult S Op EOp))
  (mk : Expr → Op → Expr → Expr) (ofTerm : T → Expr) (prec : Nat)

/-- What has been done is paid for by the operators that were read. -/
structure PaidSoFar (start : BinState S T Op EOp ETerm Expr) (visited : List (BinState S T Op EOp ETerm Expr))
    (st : BinState S T Op EOp ETerm Expr) (n : Nat) : Prop where
  steps : visited.length + st.paid ≤ start.paid + 11 * n
  combines : visited.countP combines + st.operatorsHeld ≤ start.operatorsHeld + n
  compares : visited.countP compares + st.paidCompares ≤ start.paidCompares + 2 * n
  terms : visited.countP wantsTerm + st.paidTerms ≤ start.paidTerms + n
  ops : visited.countP wantsOp + st.paidOps ≤ start.paidOps + n
  few : n ≤ visited.length
end

theorem countP_snoc {α : Type} (p : α → Bool) (l : List α) (a : α) : (l ++ [a]).countP p = l.countP p + one (p a) := by
  simp [List.countP_append, List.countP_singleton, one]

theorem trace_paid {start st : BinState S T Op EOp ETerm Expr} {visited : List (BinState S T Op EOp ETerm Expr)}
    {evs : List (BinEvent T Op Expr)} (h : BinTrace b ty term op mk ofTerm prec start visited st evs) :
    PaidSoFar start visited st (operators evs) := by
  induction h with
  | start => constructor <;> simp [operators]
  | step _ hn hs ih =>
    have hp := step_paid hn hs
    rw [operators_append]
    obtain ⟨a1, a2, a3, a4, a5, a6⟩ := ih
    obtain ⟨b1, b2, b3, b4, b5, b6⟩ := hp
    constructor <;> simp only [countP_snoc, List.length_append, List.length_singleton] <;> omega

/-! ## C103 -/

/-- C103: for all parsers, operators, makers of expressions, layouts and states of memory, wherever `parse_impl` is: the number of
steps it has taken is linear in the number of operators it has read. -/
theorem C103_steps {mem : Mem (Expr × Op)} {s : S} {st : BinState S T Op EOp ETerm Expr}
    {visited : List (BinState S T Op EOp ETerm Expr)} {evs : List (BinEvent T Op Expr)}
    (h : BinTrace b ty term op mk ofTerm prec (.first mem s) visited st evs) : visited.length ≤ 11 * operators evs + 6 := by
  have := (trace_paid h).steps
  simp only [BinState.paid] at this
  omega

/-- C103: it has combined at most one pair of expressions for each operator, made at most two comparisons for each, and asked
for at most one operand and one operator more. -/
theorem C103_calls {mem : Mem (Expr × Op)} {s : S} {st : BinState S T Op EOp ETerm Expr}
    {visited : List (BinState S T Op EOp ETerm Expr)} {evs : List (BinEvent T Op Expr)}
    (h : BinTrace b ty term op mk ofTerm prec (.first mem s) visited st evs) :
    visited.countP combines ≤ operators evs ∧ visited.countP compares ≤ 2 * operators evs ∧
    visited.countP wantsTerm ≤ operators evs + 1 ∧ visited.countP wantsOp ≤ operators evs + 1 := by
  obtain ⟨-, h2, h3, h4, h5, -⟩ := trace_paid h
  simp only [BinState.operatorsHeld, BinState.paidCompares, BinState.paidTerms, BinState.paidOps] at h2 h3 h4 h5
  omega

theorem trace_run {start st : BinState S T Op EOp ETerm Expr} {visited : List (BinState S T Op EOp ETerm Expr)}
    {evs : List (BinEvent T Op Expr)} (h : BinTrace b ty term op mk ofTerm prec start visited st evs) :
    BinState.run b ty term op mk ofTerm prec start = BinState.run b ty term op mk ofTerm prec st := by
  induction h with
  | start => rfl
  | step _ hn hs ih => rw [ih, run_step, hs, Run.pure_bind']

theorem trace_first {start st : BinState S T Op EOp ETerm Expr} {visited : List (BinState S T Op EOp ETerm Expr)}
    {evs : List (BinEvent T Op Expr)} (h : BinTrace b ty term op mk ofTerm prec start visited st evs) : visited = [] ∨
    ∃ st₁ evs₁ visited₁ evs₂, returned start = false ∧ BinState.step b ty term op mk ofTerm prec start = pure (st₁, evs₁) ∧
      BinTrace b ty term op mk ofTerm prec st₁ visited₁ st evs₂ ∧ visited = start :: visited₁ := by
  induction h with
  | start => exact .inl rfl
  | @step visited st st' evs evs' h hn hs ih =>
    right
    rcases ih with rfl | ⟨st₁, evs₁, visited₁, evs₂, h1, h2, h3, rfl⟩
    · generalize hv : ([] : List (BinState S T Op EOp ETerm Expr)) = v at h
      cases h with
      | start => exact ⟨st', evs', [], [], hn, hs, .start, rfl⟩
      | step => simp at hv
    · exact ⟨st₁, evs₁, _, _, h1, h2, h3.step hn hs, rfl⟩

theorem trace_bounded (st : BinState S T Op EOp ETerm Expr) (h : BinState.run b ty term op mk ofTerm prec st ≠ Run.diverge) :
    ∃ n, ∀ visited st' evs, BinTrace b ty term op mk ofTerm prec st visited st' evs → visited.length ≤ n := by
  revert st
  refine BinState.run.fixpoint_induct (b := b) (ty := ty) (parserTerm := term) (parserOp := op) (mk := mk)
    (ofTerm := ofTerm) (prec := prec)
    (motive := fun g => ∀ st, g st ≠ Run.diverge →
      ∃ n, ∀ visited st' evs, BinTrace b ty term op mk ofTerm prec st visited st' evs → visited.length ≤ n)
    (Run.admissible_fun (fun (st : BinState S T Op EOp ETerm Expr) x => x ≠ Run.diverge →
      ∃ n, ∀ visited st' evs, BinTrace b ty term op mk ofTerm prec st visited st' evs → visited.length ≤ n)
      fun _ h => absurd rfl h) ?_
  intro g ih st h
  have hstep : ∀ st, (∀ st₁ evs₁, BinState.step b ty term op mk ofTerm prec st = pure (st₁, evs₁) → g st₁ ≠ Run.diverge) →
      ∃ n, ∀ visited st' evs, BinTrace b ty term op mk ofTerm prec st visited st' evs → visited.length ≤ n := by
    intro st h
    cases hs : BinState.step b ty term op mk ofTerm prec st using Run.casesRun with
    | ret x =>
      obtain ⟨n, hn⟩ := ih x.1 (h x.1 x.2 hs)
      refine ⟨n + 1, fun visited st' evs ht => ?_⟩
      rcases trace_first ht with rfl | ⟨st₁, evs₁, visited₁, evs₂, -, h2, h3, rfl⟩
      · simp
      · rw [hs] at h2
        simp only [Run.ret_eq_pure] at h2
        subst h2
        simpa using hn _ _ _ h3
    | fault e =>
      refine ⟨0, fun visited st' evs ht => ?_⟩
      rcases trace_first ht with rfl | ⟨st₁, evs₁, visited₁, evs₂, -, h2, h3, rfl⟩
      · simp
      · rw [hs] at h2; simp at h2
    | diverge =>
      refine ⟨0, fun visited st' evs ht => ?_⟩
      rcases trace_first ht with rfl | ⟨st₁, evs₁, visited₁, evs₂, -, h2, h3, rfl⟩
      · simp
      · rw [hs] at h2; simp at h2
  cases st
  case ret =>
    refine ⟨0, fun visited st' evs ht => ?_⟩
    rcases trace_first ht with rfl | ⟨st₁, evs₁, visited₁, evs₂, h1, -⟩
    · simp
    · simp [returned] at h1
  all_goals
    refine hstep _ fun st₁ evs₁ hs hg => h ?_
    dsimp only
    rw [hs, Run.pure_bind']
    exact hg

/-- C103, exactly when it does not return: one of the parsers or a rewind does not, or there is no end of operators. -/
theorem C103_returns {mem : Mem (Expr × Op)} {s : S} : binExprImplVec b ty term op mk ofTerm mem s prec = Run.diverge ↔
    (∃ visited st evs, BinTrace b ty term op mk ofTerm prec (.first mem s) visited st evs ∧
      BinState.step b ty term op mk ofTerm prec st = Run.diverge) ∨
    ∀ n, ∃ visited st evs, BinTrace b ty term op mk ofTerm prec (.first mem s) visited st evs ∧ n ≤ operators evs := by
  rw [← C92_steps]
  constructor
  · intro hd
    apply Classical.byContradiction
    intro hc
    rw [not_or] at hc
    obtain ⟨hstuck, hops⟩ := hc
    obtain ⟨n, hn⟩ := Classical.not_forall.mp hops
    have long : ∀ k, ∃ visited st evs, BinTrace b ty term op mk ofTerm prec (.first mem s) visited st evs ∧ visited.length = k := by
      intro k
      induction k with
      | zero => exact ⟨[], _, [], .start, rfl⟩
      | succ k ih =>
        obtain ⟨visited, st, evs, ht, rfl⟩ := ih
        have hr := hd
        rw [trace_run ht, run_step] at hr
        cases hs : BinState.step b ty term op mk ofTerm prec st using Run.casesRun with
        | ret x =>
          refine ⟨_, x.1, _, ht.step ?_ hs, by simp⟩
          cases st with
          | ret m r => rw [trace_run ht, run_ret] at hd; simp at hd
          | _ => rfl
        | fault e => rw [hs] at hr; simp at hr
        | diverge => exact absurd ⟨_, _, _, ht, hs⟩ hstuck
    obtain ⟨visited, st, evs, ht, hl⟩ := long (11 * n + 7)
    refine hn ⟨visited, st, evs, ht, ?_⟩
    have := C103_steps ht
    omega
  · rintro (⟨visited, st, evs, ht, hs⟩ | hops)
    · rw [trace_run ht, run_step, hs, Run.diverge_bind]
    · apply Classical.byContradiction
      intro h
      obtain ⟨n, hn⟩ := trace_bounded _ h
      obtain ⟨visited, st, evs, ht, hl⟩ := hops (n + 1)
      have h1 := hn _ _ _ ht
      have h2 := (trace_paid ht).few
      omega

/-! ## Inputs of finite size -/

/-- The input still to be read, if any will be. -/
def BinState.ahead : BinState S T Op EOp ETerm Expr → Option S
  | .first _ s | .convert _ _ s | .atOp _ _ s | .gotOp _ _ _ _ s | .atTerm _ _ _ _ s | .convertTerm _ _ _ _ s | .inner _ _ _ _ s
  | .compare _ _ _ _ _ _ s | .pushBack _ _ _ _ _ _ s | .push _ _ _ _ s | .combine _ _ _ _ _ _ s => some s
  | _ => none

theorem ahead_step {size : S → Nat} (hop : ∀ s o r, op s = pure (.ok o r) → size r < size s)
    (hterm : ∀ s v r, term s = pure (.ok v r) → size r ≤ size s) {st st' : BinState S T Op EOp ETerm Expr}
    {evs : List (BinEvent T Op Expr)} (hs : BinState.step b ty term op mk ofTerm prec st = pure (st', evs)) :
    (operators evs = 0 ∧ st'.ahead = none) ∨
      ∃ s s', st.ahead = some s ∧ st'.ahead = some s' ∧ operators evs + size s' ≤ size s := by
  cases st with
  | first m input =>
    simp only [BinState.step] at hs
    rw [Run.bind_eq_pure] at hs
    obtain ⟨res, h1, h2⟩ := hs
    cases res with
    | err e r =>
      simp only [Run.pure_eq_ret, Prod.mk.injEq] at h2
      obtain ⟨rfl, rfl⟩ := h2
      exact .inl ⟨rfl, rfl⟩
    | ok v r =>
      simp only [Run.pure_eq_ret, Prod.mk.injEq] at h2
      obtain ⟨rfl, rfl⟩ := h2
      exact .inr ⟨_, _, rfl, rfl, by simpa [operators] using hterm _ _ _ h1⟩
  | convert m v rest =>
    obtain ⟨vec, h5, -⟩ := new_rel (ty := ty) (mem := m)
    simp only [BinState.step, h5, Run.pure_inj', Prod.mk.injEq] at hs
    obtain ⟨rfl, rfl⟩ := hs
    exact .inr ⟨_, _, rfl, rfl, by simp [operators]⟩
  | atOp w rhs rest =>
    simp only [BinState.step] at hs
    rw [Run.bind_eq_pure] at hs
    obtain ⟨res, h1, h2⟩ := hs
    cases res with
    | err e r =>
      simp only [Run.pure_eq_ret, Prod.mk.injEq] at h2
      obtain ⟨rfl, rfl⟩ := h2
      exact .inl ⟨rfl, rfl⟩
    | ok v r =>
      simp only [Run.pure_eq_ret, Prod.mk.injEq] at h2
      obtain ⟨rfl, rfl⟩ := h2
      have := hop _ _ _ h1
      exact .inr ⟨_, _, rfl, rfl, by simp [operators]; omega⟩
  | gotOp w rhs anchor o r =>
    simp only [BinState.step] at hs
    split at hs
    · simp only [Run.pure_inj', Prod.mk.injEq] at hs
      obtain ⟨rfl, rfl⟩ := hs
      exact .inr ⟨_, _, rfl, rfl, by simp [operators]⟩
    · simp only [Run.pure_inj', Prod.mk.injEq] at hs
      obtain ⟨rfl, rfl⟩ := hs
      exact .inl ⟨rfl, rfl⟩
  | opFailed w rhs anchor e r =>
    simp only [BinState.step] at hs
    split at hs
    · obtain ⟨mem, rfl, h⟩ := leave_inv hs
      exact .inl ⟨h, rfl⟩
    · simp only [Run.pure_inj', Prod.mk.injEq] at hs
      obtain ⟨rfl, rfl⟩ := hs
      exact .inl ⟨rfl, rfl⟩
  | rewindOp w rhs anchor e r =>
    simp only [BinState.step] at hs
    rw [Run.bind_eq_pure] at hs
    obtain ⟨rest, h1, h2⟩ := hs
    simp only [Run.pure_eq_ret, Prod.mk.injEq] at h2
    obtain ⟨rfl, rfl⟩ := h2
    exact .inl ⟨rfl, rfl⟩
  | atTerm w rhs anchor o r =>
    simp only [BinState.step] at hs
    rw [Run.bind_eq_pure] at hs
    obtain ⟨res, h1, h2⟩ := hs
    cases res with
    | err e r =>
      simp only [Run.pure_eq_ret, Prod.mk.injEq] at h2
      obtain ⟨rfl, rfl⟩ := h2
      exact .inl ⟨rfl, rfl⟩
    | ok v r =>
      simp only [Run.pure_eq_ret, Prod.mk.injEq] at h2
      obtain ⟨rfl, rfl⟩ := h2
      exact .inr ⟨_, _, rfl, rfl, by simpa [operators] using hterm _ _ _ h1⟩
  | termFailed w rhs anchor o e r =>
    simp only [BinState.step] at hs
    split at hs
    · simp only [Run.pure_inj', Prod.mk.injEq] at hs
      obtain ⟨rfl, rfl⟩ := hs
      exact .inl ⟨rfl, rfl⟩
    · obtain ⟨mem, rfl, h⟩ := leave_inv hs
      exact .inl ⟨h, rfl⟩
  | rewindTerm w rhs anchor o e r =>
    simp only [BinState.step] at hs
    rw [Run.bind_eq_pure] at hs
    obtain ⟨rest, h1, h2⟩ := hs
    simp only [Run.pure_eq_ret, Prod.mk.injEq] at h2
    obtain ⟨rfl, rfl⟩ := h2
    exact .inl ⟨rfl, rfl⟩
  | inner w rhs o t rest =>
    simp only [BinState.step] at hs
    rw [Run.bind_eq_pure] at hs
    obtain ⟨⟨x, w'⟩, h1, h2⟩ := hs
    cases x with
    | _ =>
      simp only [Run.pure_eq_ret, Prod.mk.injEq] at h2
      obtain ⟨rfl, rfl⟩ := h2
      exact .inr ⟨_, _, rfl, rfl, by simp [operators]⟩
  | compare w lhs lastOp rhs o t rest =>
    simp only [BinState.step] at hs
    rw [Run.bind_eq_pure] at hs
    obtain ⟨p, h1, h2⟩ := hs
    split at h2
    all_goals
      simp only [Run.pure_eq_ret, Prod.mk.injEq] at h2
      obtain ⟨rfl, rfl⟩ := h2
      exact .inr ⟨_, _, rfl, rfl, by simp [operators]⟩
  | pushBack w lhs lastOp rhs o t rest =>
    simp only [BinState.step] at hs
    rw [Run.bind_eq_pure] at hs
    obtain ⟨⟨x, w'⟩, h1, h2⟩ := hs
    simp only [Run.pure_eq_ret, Prod.mk.injEq] at h2
    obtain ⟨rfl, rfl⟩ := h2
    exact .inr ⟨_, _, rfl, rfl, by simp [operators]⟩
  | push w rhs o t rest =>
    simp only [BinState.step] at hs
    rw [Run.bind_eq_pure] at hs
    obtain ⟨⟨x, w'⟩, h1, h2⟩ := hs
    simp only [Run.pure_eq_ret, Prod.mk.injEq] at h2
    obtain ⟨rfl, rfl⟩ := h2
    exact .inr ⟨_, _, rfl, rfl, by simp [operators]⟩
  | last w rhs reason rest =>
    simp only [BinState.step] at hs
    rw [Run.bind_eq_pure] at hs
    obtain ⟨⟨x, w'⟩, h1, h2⟩ := hs
    cases x with
    | none =>
      simp only at h2
      rw [Run.bind_eq_ret] at h2
      obtain ⟨⟨_, w₂⟩, _, h2⟩ := h2
      simp only [Run.pure_eq_ret, Prod.mk.injEq] at h2
      obtain ⟨rfl, rfl⟩ := h2
      exact .inl ⟨operators_dropped _, rfl⟩
    | some p =>
      simp only [Run.pure_eq_ret, Prod.mk.injEq] at h2
      obtain ⟨rfl, rfl⟩ := h2
      exact .inl ⟨rfl, rfl⟩
  | ret mem res =>
    simp only [BinState.step, Run.pure_inj', Prod.mk.injEq] at hs
    obtain ⟨rfl, rfl⟩ := hs
    exact .inl ⟨rfl, rfl⟩
  | _ =>
    simp only [BinState.step, Run.pure_inj', Prod.mk.injEq] at hs
    obtain ⟨rfl, rfl⟩ := hs
    first
      | exact .inr ⟨_, _, rfl, rfl, by simp [operators]⟩
      | exact .inl ⟨rfl, rfl⟩

/-- C103, on input of finite size: if each operator makes the input smaller and operands do not make it larger, at most as many
operators are read as the size of the input. -/
theorem C103_operators {size : S → Nat} (hop : ∀ s o r, op s = pure (.ok o r) → size r < size s)
    (hterm : ∀ s v r, term s = pure (.ok v r) → size r ≤ size s) {mem : Mem (Expr × Op)} {s : S}
    {st : BinState S T Op EOp ETerm Expr} {visited : List (BinState S T Op EOp ETerm Expr)} {evs : List (BinEvent T Op Expr)}
    (h : BinTrace b ty term op mk ofTerm prec (.first mem s) visited st evs) : operators evs ≤ size s := by
  have key : operators evs ≤ size s ∧ ∀ s', st.ahead = some s' → operators evs + size s' ≤ size s := by
    induction h with
    | start => exact ⟨by simp [operators], fun s' hs => by simp [BinState.ahead] at hs; subst hs; simp [operators]⟩
    | step _ hn hs ih =>
      rw [operators_append]
      rcases ahead_step hop hterm hs with ⟨h1, h2⟩ | ⟨s₁, s₂, h1, h2, h3⟩
      · refine ⟨by omega, fun s' hs' => ?_⟩
        rw [h2] at hs'
        simp at hs'
      · have := ih.2 s₁ h1
        refine ⟨by omega, fun s' hs' => ?_⟩
        rw [h2] at hs'
        simp at hs'
        subst hs'
        omega
  exact key.1

theorem exec_ne_diverge {α β : Type} (w : World α) (x : Act (World α) β) : w.exec x ≠ Run.diverge := by
  unfold World.exec
  split <;> simp

theorem bind_ne_diverge {α β : Type} {x : Run α} {f : α → Run β} (hx : x ≠ Run.diverge) (hf : ∀ a, f a ≠ Run.diverge) :
    (x >>= f) ≠ Run.diverge := by
  cases x using Run.casesRun with
  | ret a => simpa using hf a
  | fault e => simp
  | diverge => exact absurd rfl hx

/-- C103: so it returns or panics, if the parsers and rewinding do. -/
theorem C103_finite {size : S → Nat} (hop : ∀ s o r, op s = pure (.ok o r) → size r < size s)
    (hterm : ∀ s v r, term s = pure (.ok v r) → size r ≤ size s) (dop : ∀ s, op s ≠ Run.diverge) (dterm : ∀ s, term s ≠ Run.diverge)
    (drew : ∀ (s : S) a, rewind s a ≠ Run.diverge) (mem : Mem (Expr × Op)) (s : S) :
    binExprImplVec b ty term op mk ofTerm mem s prec ≠ Run.diverge := by
  rw [Ne, C103_returns]
  rintro (⟨visited, st, evs, -, hs⟩ | hops)
  · have leave : ∀ (w : World (Expr × Op)) (later : List (BinVal T Op Expr)) rhs (e : Either EOp ETerm) (r : UnknownLocation S),
        BinState.leave ty w later rhs e r ≠ Run.diverge :=
      fun w later rhs e r => bind_ne_diverge (exec_ne_diverge _ _) fun _ => by simp
    refine absurd hs ?_
    cases st with
    | first m input => exact bind_ne_diverge (dterm _) fun res => by cases res <;> simp
    | convert m v rest =>
      obtain ⟨vec, h5, -⟩ := new_rel (ty := ty) (mem := m)
      simp [BinState.step, h5]
    | atOp w rhs rest => exact bind_ne_diverge (dop _) fun res => by cases res <;> simp
    | gotOp => simp only [BinState.step]; split <;> simp
    | opFailed =>
      simp only [BinState.step]
      split
      · exact leave _ _ _ _ _
      · simp
    | rewindOp => exact bind_ne_diverge (drew _ _) fun res => by simp
    | atTerm => exact bind_ne_diverge (dterm _) fun res => by cases res <;> simp
    | termFailed =>
      simp only [BinState.step]
      split
      · simp
      · exact leave _ _ _ _ _
    | rewindTerm => exact bind_ne_diverge (drew _ _) fun res => by simp
    | inner => exact bind_ne_diverge (exec_ne_diverge _ _) fun ⟨x, w⟩ => by cases x <;> simp
    | compare =>
      refine bind_ne_diverge ?_ fun p => by split <;> simp
      unfold nextPrecedence usizeAdd
      repeat' split
      all_goals simp
    | pushBack => exact bind_ne_diverge (exec_ne_diverge _ _) fun _ => by simp
    | push => exact bind_ne_diverge (exec_ne_diverge _ _) fun _ => by simp
    | last =>
      refine bind_ne_diverge (exec_ne_diverge _ _) ?_
      rintro ⟨_ | p, w⟩
      · exact bind_ne_diverge (exec_ne_diverge _ _) fun _ => by simp
      · simp
    | _ => simp [BinState.step]
  · obtain ⟨visited, st, evs, ht, hn⟩ := hops (size s + 1)
    have := C103_operators hop hterm ht
    omega

/-! ## A case -/

theorem theChar_shrinks (c : Char) (s : StrRef) : (∃ u, (theChar c).parse s = pure (.err ⟨()⟩ u)) ∨
    ∃ r, (theChar c).parse s = pure (.ok () r) ∧ (content r).length < (content s).length := by
  obtain ⟨h1, h2⟩ := C10_the_char c s
  cases hc : content s with
  | nil =>
    obtain ⟨u, h, -⟩ := h2 (by simp [hc])
    exact .inl ⟨u, h⟩
  | cons x xs =>
    by_cases hx : x = c
    · subst hx
      obtain ⟨r, h, e⟩ := h1 xs hc
      exact .inr ⟨r, h, by simp [e]⟩
    · obtain ⟨u, h, -⟩ := h2 (by simp [hc, hx])
      exact .inl ⟨u, h⟩

/-- `x>x>…` is read in linear time, and to its end, on every text. -/
example (b : Build) (mem : Mem (BTree Arrow Unit × Arrow)) (s : StrRef) :
    binExprImplVec b ⟨8, 8⟩ xTerm.parse arrowOp.parse BTree.node BTree.leaf mem s 0 ≠ Run.diverge ∧
    ∀ visited st evs, BinTrace b ⟨8, 8⟩ xTerm.parse arrowOp.parse BTree.node BTree.leaf 0 (.first mem s) visited st evs →
      visited.length ≤ 11 * (content s).length + 6 := by
  have hop : ∀ (s : StrRef) o r, arrowOp.parse s = pure (.ok o r) → (content r).length < (content s).length := by
    intro s o r h
    rcases theChar_shrinks '>' s with ⟨u, h1⟩ | ⟨r', h1, h2⟩
    · simp [arrowOp, Parser.map, h1] at h
    · simp [arrowOp, Parser.map, h1] at h
      rw [← h]
      exact h2
  have hterm : ∀ (s : StrRef) v r, xTerm.parse s = pure (.ok v r) → (content r).length ≤ (content s).length := by
    intro s v r h
    rcases theChar_shrinks 'x' s with ⟨u, h1⟩ | ⟨r', h1, h2⟩
    · simp [xTerm, h1] at h
    · simp [xTerm, h1] at h
      rw [← h]
      omega
  refine ⟨C103_finite hop hterm ?_ ?_ ?_ _ _, fun visited st evs h => ?_⟩
  · intro s
    rcases theChar_shrinks '>' s with ⟨u, h1⟩ | ⟨r', h1, h2⟩ <;> simp [arrowOp, Parser.map, h1]
  · intro s
    rcases theChar_shrinks 'x' s with ⟨u, h1⟩ | ⟨r', h1, h2⟩ <;> simp [xTerm, h1]
  · intro s a
    show StrRef.rewind s a ≠ _
    unfold StrRef.rewind
    split
    · simp
    · dsimp only
      split <;> simp
  · have h1 := C103_steps h
    have h2 := C103_operators hop hterm h
    omega

end Parcom
