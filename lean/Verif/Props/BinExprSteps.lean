import Verif.Lemmas.BinExprSteps
import Verif.Props.BinExprVec
/-!
# C92: binary expressions cut off half way
-/
namespace Parcom
open Spec

variable {S T Op EOp ETerm Expr : Type} [RewindSequence S] [Operator Op] [ParseError EOp] [ParseError ETerm]
  {b : Build} {ty : Ty} {mk : Expr → Op → Expr → Expr} {ofTerm : T → Expr} {term : S → Run (PResult S T ETerm)}
  {op : S → Run (PResult S Op EOp)} {prec : Nat}

/-! ## The steps are the function -/

section
variable (b : Build) (ty : Ty) (term : S → Run (PResult S T ETerm)) (op : S → Run (PResult S Op EOp))
  (mk : Expr → Op → Expr → Expr) (ofTerm : T → Expr) (prec : Nat)

/-- What remains to be done, in terms of `Verif.Model.BinExprVec`. -/
def BinState.remaining : BinState S T Op EOp ETerm Expr →
    Run (PResult S (Expr × StopReason S Op EOp ETerm) (Either EOp ETerm) × Mem (Expr × Op))
  | .first mem input => binExprImplVec b ty term op mk ofTerm mem input prec
  | .convert mem v rest =>
    match SVec.withCapacity ty 4 0 mem with
    | (.error e, _) => Run.fault e
    | (.ok vec, mem) => binExprLoopVec b ty term op mk ofTerm prec { vec, mem } (ofTerm v) rest
  | .atOp w rhs rest => binExprLoopVec b ty term op mk ofTerm prec w rhs rest
  | .gotOp w rhs anchor o r =>
    if precedence o ≥ prec then do
      match ← term r with
      | .ok t r =>
        let (w, rhs) ← reduceForVec b ty mk o (ofTerm t) w rhs
        binExprLoopVec b ty term op mk ofTerm prec w rhs r
      | .err e r =>
        if ¬ shouldTerminate e then
          let rest ← r.rewind anchor
          finishVec ty mk w rhs (.error (.last e)) rest
        else leaveVec ty w (.last e) r
    else finishVec ty mk w rhs (.ok (o, anchor)) r
  | .opFailed w rhs anchor e r =>
    if shouldTerminate e then leaveVec ty w (.first e) r
    else do
      let rest ← r.rewind anchor
      finishVec ty mk w rhs (.error (.first e)) rest
  | .rewindOp w rhs anchor e r => do
    let rest ← r.rewind anchor
    finishVec ty mk w rhs (.error (.first e)) rest
  | .atTerm w rhs anchor o r => do
    match ← term r with
    | .ok t r =>
      let (w, rhs) ← reduceForVec b ty mk o (ofTerm t) w rhs
      binExprLoopVec b ty term op mk ofTerm prec w rhs r
    | .err e r =>
      if ¬ shouldTerminate e then
        let rest ← r.rewind anchor
        finishVec ty mk w rhs (.error (.last e)) rest
      else leaveVec ty w (.last e) r
  | .convertTerm w rhs o v r => do
    let (w, rhs) ← reduceForVec b ty mk o (ofTerm v) w rhs
    binExprLoopVec b ty term op mk ofTerm prec w rhs r
  | .termFailed w rhs anchor _ e r =>
    if ¬ shouldTerminate e then do
      let rest ← r.rewind anchor
      finishVec ty mk w rhs (.error (.last e)) rest
    else leaveVec ty w (.last e) r
  | .rewindTerm w rhs anchor _ e r => do
    let rest ← r.rewind anchor
    finishVec ty mk w rhs (.error (.last e)) rest
  | .inner w rhs o t rest => do
    let (w, rhs) ← reduceForVec b ty mk o t w rhs
    binExprLoopVec b ty term op mk ofTerm prec w rhs rest
  | .compare w lhs lastOp rhs o t rest => do
    let p ← nextPrecedence b lastOp
    if precedence o ≥ p then
      let (_, w) ← w.exec (Parcom.push b ty (lhs, lastOp))
      let (_, w) ← w.exec (Parcom.push b ty (rhs, o))
      binExprLoopVec b ty term op mk ofTerm prec w t rest
    else
      let (w, rhs) ← reduceForVec b ty mk o t w (mk lhs lastOp rhs)
      binExprLoopVec b ty term op mk ofTerm prec w rhs rest
  | .pushBack w lhs lastOp rhs o t rest => do
    let (_, w) ← w.exec (Parcom.push b ty (lhs, lastOp))
    let (_, w) ← w.exec (Parcom.push b ty (rhs, o))
    binExprLoopVec b ty term op mk ofTerm prec w t rest
  | .push w rhs o t rest => do
    let (_, w) ← w.exec (Parcom.push b ty (rhs, o))
    binExprLoopVec b ty term op mk ofTerm prec w t rest
  | .combine w lhs lastOp rhs o t rest => do
    let (w, rhs) ← reduceForVec b ty mk o t w (mk lhs lastOp rhs)
    binExprLoopVec b ty term op mk ofTerm prec w rhs rest
  | .last w rhs reason rest => finishVec ty mk w rhs reason rest
  | .lastCombine w lhs o rhs reason rest => finishVec ty mk w (mk lhs o rhs) reason rest
  | .ret mem res => pure (res, mem)

/-- A step does not change what remains to be done. -/
theorem remaining_step (st : BinState S T Op EOp ETerm Expr) :
    (BinState.step b ty term op mk ofTerm prec st >>= fun x => x.1.remaining b ty term op mk ofTerm prec) =
      st.remaining b ty term op mk ofTerm prec := by
  cases st with
  | first mem input =>
    simp only [BinState.step, BinState.remaining, binExprImplVec, Run.bind_assoc']
    congr 1
    funext res
    cases res <;> rfl
  | convert mem v rest =>
    obtain ⟨vec, h, -⟩ := new_rel (ty := ty) (mem := mem)
    simp only [BinState.step, h, Run.pure_bind']
    simp only [BinState.remaining, h]
  | atOp w rhs rest =>
    simp only [BinState.step, Run.bind_assoc']
    rw [BinState.remaining, binExprLoopVec]
    congr 1
    funext res
    cases res <;> rfl
  | gotOp w rhs anchor o r =>
    simp only [BinState.step, BinState.remaining]
    split <;> rfl
  | opFailed w rhs anchor e r =>
    simp only [BinState.step, BinState.remaining]
    split
    · simp only [BinState.leave, leaveVec, Run.bind_assoc']
      rfl
    · rfl
  | rewindOp w rhs anchor e r => simp only [BinState.step, Run.bind_assoc', Run.pure_bind']; rfl
  | atTerm w rhs anchor o r =>
    simp only [BinState.step, BinState.remaining, Run.bind_assoc']
    congr 1
    funext res
    cases res <;> rfl
  | convertTerm w rhs o v r => rfl
  | termFailed w rhs anchor o e r =>
    simp only [BinState.step, BinState.remaining]
    split
    · rfl
    · simp only [BinState.leave, leaveVec, Run.bind_assoc']
      rfl
  | rewindTerm w rhs anchor o e r => simp only [BinState.step, Run.bind_assoc', Run.pure_bind']; rfl
  | inner w rhs o t rest =>
    simp only [BinState.step, Run.bind_assoc']
    rw [BinState.remaining, reduceForVec]
    simp only [Run.bind_assoc']
    congr 1
    funext ⟨x, w⟩
    cases x with
    | none => simp only [Run.pure_bind', BinState.remaining, Run.bind_assoc']
    | some p =>
      obtain ⟨lhs, lastOp⟩ := p
      simp only [Run.pure_bind', BinState.remaining, Run.bind_assoc']
      congr 1
      funext p
      split <;> simp only [Run.bind_assoc', Run.pure_bind']
  | compare w lhs lastOp rhs o t rest =>
    simp only [BinState.step, BinState.remaining, Run.bind_assoc']
    congr 1
    funext p
    split <;> rfl
  | pushBack w lhs lastOp rhs o t rest => simp only [BinState.step, Run.bind_assoc', Run.pure_bind']; rfl
  | push w rhs o t rest => simp only [BinState.step, Run.bind_assoc', Run.pure_bind']; rfl
  | combine w lhs lastOp rhs o t rest => rfl
  | last w rhs reason rest =>
    simp only [BinState.step, Run.bind_assoc']
    rw [BinState.remaining, finishVec, reduceAllVec]
    simp only [Run.bind_assoc']
    congr 1
    funext ⟨x, w⟩
    cases x with
    | none => simp only [Run.pure_bind', BinState.remaining, Run.bind_assoc']
    | some p =>
      obtain ⟨lhs, o⟩ := p
      rfl
  | lastCombine w lhs o rhs reason rest => rfl
  | ret mem res => rfl

/-- Running the steps does no more than the function. -/
theorem run_below (st : BinState S T Op EOp ETerm Expr) :
    Run.Below (BinState.run b ty term op mk ofTerm prec st) (st.remaining b ty term op mk ofTerm prec) := by
  revert st
  refine BinState.run.fixpoint_induct (b := b) (ty := ty) (parserTerm := term) (parserOp := op) (mk := mk)
    (ofTerm := ofTerm) (prec := prec)
    (motive := fun g => ∀ st, Run.Below (g st) (st.remaining b ty term op mk ofTerm prec))
    (Run.admissible_fun (fun (st : BinState S T Op EOp ETerm Expr) x => Run.Below x (st.remaining b ty term op mk ofTerm prec))
      fun _ => Run.below_diverge) ?_
  intro g ih st
  cases st
  case ret => exact Run.below_refl
  all_goals
    rw [← remaining_step]
    exact Run.below_bind fun x _ => ih x.1

theorem run_step (st : BinState S T Op EOp ETerm Expr) : BinState.run b ty term op mk ofTerm prec st =
    BinState.step b ty term op mk ofTerm prec st >>= fun x => BinState.run b ty term op mk ofTerm prec x.1 := by
  cases st
  case ret mem res => simp only [BinState.step, Run.pure_bind']
  all_goals
    rw [BinState.run]
    intro _ _ h
    cases h

theorem run_ret (mem : Mem (Expr × Op)) (res : PResult S (Expr × StopReason S Op EOp ETerm) (Either EOp ETerm)) :
    BinState.run (T := T) b ty term op mk ofTerm prec (.ret mem res) = pure (res, mem) := by rw [BinState.run]

theorem below_finish (reason : StopReason S Op EOp ETerm) (rest : S) (w : World (Expr × Op)) (rhs : Expr) :
    Run.Below (finishVec ty mk w rhs reason rest) (BinState.run b ty term op mk ofTerm prec (.last w rhs reason rest)) := by
  unfold finishVec
  revert w rhs
  refine reduceAllVec.fixpoint_induct (ty := ty) (mk := mk)
    (motive := fun g => ∀ w rhs, Run.Below (g w rhs >>= fun x => do
        let (_, w) ← x.1.exec (dropVec ty)
        return (done (x.2, reason) rest, w.mem))
      (BinState.run b ty term op mk ofTerm prec (.last w rhs reason rest)))
    (Run.admissible_fun₂ (fun (w : World (Expr × Op)) (rhs : Expr) (x : Run (World (Expr × Op) × Expr)) => Run.Below (x >>= fun x => do
        let (_, w) ← x.1.exec (dropVec ty)
        return (done (x.2, reason) rest, w.mem))
      (BinState.run b ty term op mk ofTerm prec (.last w rhs reason rest))) fun _ _ => by simp [Run.below_diverge]) ?_
  intro g ih w rhs
  rw [run_step]
  simp only [BinState.step, Run.bind_assoc']
  refine Run.below_bind fun ⟨x, w'⟩ _ => ?_
  cases x with
  | none =>
    simp only [Run.pure_bind', Run.bind_assoc']
    refine Run.below_bind fun ⟨_, w''⟩ _ => ?_
    rw [run_ret]
    exact Run.below_refl
  | some p =>
    obtain ⟨lhs, o⟩ := p
    simp only [Run.pure_bind']
    rw [run_step]
    exact ih w' (mk lhs o rhs)

theorem below_inner (g : World (Expr × Op) → Expr → S →
      Run (PResult S (Expr × StopReason S Op EOp ETerm) (Either EOp ETerm) × Mem (Expr × Op)))
    (hg : ∀ w rhs s, Run.Below (g w rhs s) (BinState.run b ty term op mk ofTerm prec (.atOp w rhs s)))
    (o : Op) (t : Expr) (r : S) (w : World (Expr × Op)) (rhs : Expr) :
    Run.Below (reduceForVec b ty mk o t w rhs >>= fun x => g x.1 x.2 r)
      (BinState.run b ty term op mk ofTerm prec (.inner w rhs o t r)) := by
  revert w rhs
  refine reduceForVec.fixpoint_induct (b := b) (ty := ty) (mk := mk) (op := o) (term := t)
    (motive := fun f => ∀ w rhs, Run.Below (f w rhs >>= fun x => g x.1 x.2 r)
      (BinState.run b ty term op mk ofTerm prec (.inner w rhs o t r)))
    (Run.admissible_fun₂ (fun (w : World (Expr × Op)) (rhs : Expr) (x : Run (World (Expr × Op) × Expr)) => Run.Below (x >>= fun x => g x.1 x.2 r)
      (BinState.run b ty term op mk ofTerm prec (.inner w rhs o t r))) fun _ _ => by simp [Run.below_diverge]) ?_
  intro f ih w rhs
  rw [run_step]
  simp only [BinState.step, Run.bind_assoc']
  refine Run.below_bind fun ⟨x, w'⟩ _ => ?_
  have hpush : ∀ w : World (Expr × Op), Run.Below (w.exec (Parcom.push b ty (rhs, o)) >>= fun x => g x.2 t r)
      (BinState.run b ty term op mk ofTerm prec (.push w rhs o t r)) := by
    intro w
    rw [run_step]
    simp only [BinState.step, Run.bind_assoc', Run.pure_bind']
    exact Run.below_bind fun ⟨_, w''⟩ _ => hg _ _ _
  cases x with
  | none =>
    simp only [Run.pure_bind', Run.bind_assoc']
    exact hpush w'
  | some p =>
    obtain ⟨lhs, lastOp⟩ := p
    simp only [Run.pure_bind', Run.bind_assoc']
    rw [run_step]
    simp only [BinState.step, Run.bind_assoc']
    refine Run.below_bind fun p _ => ?_
    split
    · simp only [Run.bind_assoc', Run.pure_bind']
      rw [run_step]
      simp only [BinState.step, Run.bind_assoc', Run.pure_bind']
      exact Run.below_bind fun ⟨_, w''⟩ _ => hpush w''
    · rw [Run.pure_bind', run_step]
      exact ih w' (mk lhs lastOp rhs)

theorem below_leave (later : List (BinVal T Op Expr)) (w : World (Expr × Op)) (rhs : Expr) (e : Either EOp ETerm)
    (r : UnknownLocation S) : Run.Below (leaveVec (Expr := Expr) ty w e r)
      (BinState.leave (T := T) ty w later rhs e r >>= fun x => BinState.run b ty term op mk ofTerm prec x.1) := by
  simp only [BinState.leave, leaveVec, Run.bind_assoc', Run.pure_bind']
  refine Run.below_bind fun _ _ => ?_
  rw [run_ret]
  exact Run.below_refl

theorem below_loop (w : World (Expr × Op)) (rhs : Expr) (s : S) :
    Run.Below (binExprLoopVec b ty term op mk ofTerm prec w rhs s)
      (BinState.run b ty term op mk ofTerm prec (.atOp w rhs s)) := by
  revert w rhs s
  refine binExprLoopVec.fixpoint_induct (b := b) (ty := ty) (parserTerm := term) (parserOp := op) (mk := mk)
    (ofTerm := ofTerm) (prec := prec)
    (motive := fun g => ∀ w rhs s, Run.Below (g w rhs s) (BinState.run b ty term op mk ofTerm prec (.atOp w rhs s)))
    (Run.admissible_fun₃ (fun (w : World (Expr × Op)) (rhs : Expr) (s : S) x =>
      Run.Below x (BinState.run b ty term op mk ofTerm prec (.atOp w rhs s))) fun _ _ _ => Run.below_diverge) ?_
  intro g ih w rhs s
  rw [run_step]
  simp only [BinState.step, Run.bind_assoc']
  refine Run.below_bind fun res _ => ?_
  cases res with
  | ok o r =>
    simp only [Run.pure_bind']
    rw [run_step]
    simp only [BinState.step]
    split
    · rw [Run.pure_bind', run_step]
      simp only [BinState.step, Run.bind_assoc']
      refine Run.below_bind fun res _ => ?_
      cases res with
      | ok t r =>
        simp only [Run.pure_bind']
        rw [run_step]
        exact below_inner b ty term op mk ofTerm prec g ih o (ofTerm t) r w rhs
      | err e r =>
        simp only [Run.pure_bind']
        rw [run_step]
        simp only [BinState.step]
        split
        · rw [Run.pure_bind', run_step]
          simp only [BinState.step, Run.bind_assoc', Run.pure_bind']
          exact Run.below_bind fun rest _ => below_finish b ty term op mk ofTerm prec _ _ _ _
        · exact below_leave b ty term op mk ofTerm prec _ _ _ _ _
    · exact below_finish b ty term op mk ofTerm prec _ _ _ _
  | err e r =>
    simp only [Run.pure_bind']
    rw [run_step]
    simp only [BinState.step]
    split
    · exact below_leave b ty term op mk ofTerm prec _ _ _ _ _
    · rw [Run.pure_bind', run_step]
      simp only [BinState.step, Run.bind_assoc', Run.pure_bind']
      exact Run.below_bind fun rest _ => below_finish b ty term op mk ofTerm prec _ _ _ _

/-- C92, the steps: running them to the end is `parse_impl`. -/
theorem C92_steps (mem : Mem (Expr × Op)) (s : S) :
    BinState.run b ty term op mk ofTerm prec (.first mem s) = binExprImplVec b ty term op mk ofTerm mem s prec := by
  refine Run.below_antisymm (run_below b ty term op mk ofTerm prec (.first mem s)) ?_
  rw [run_step]
  simp only [BinState.step, binExprImplVec, Run.bind_assoc']
  refine Run.below_bind fun res _ => ?_
  cases res with
  | err e r =>
    simp only [Run.pure_bind']
    rw [run_ret]
    exact Run.below_refl
  | ok v rest =>
    obtain ⟨vec, h, -⟩ := new_rel (ty := ty) (mem := mem)
    simp only [Run.pure_bind', h]
    rw [run_step]
    simp only [BinState.step, h, Run.pure_bind']
    exact below_loop b ty term op mk ofTerm prec _ _ _

end

/-! ## C92 -/

/-- C92: for all parsers, sequences and makers of expressions, all layouts of the pairs of expression and operator (other
than zero) and all states of memory: wherever the future of `parse_impl` is dropped, and wherever code it calls panics,
what is alive is dropped without a fault, memory is as before, and each operand and operator read so far has been dropped
exactly once, by itself or in the expression it went into. -/
theorem C92_cut_off {mem : Mem (Expr × Op)} (hz : 0 < ty.size) (hf : Fresh mem) {s : S}
    {st : BinState S T Op EOp ETerm Expr} {evs : List (BinEvent T Op Expr)}
    (h : BinReach b ty term op mk ofTerm prec (.first mem s) st evs) {c : BinCut T Op Expr} (hc : st.cut b ty = some c) :
    ∃ mem' vals, c.drop ty = pure (mem', vals) ∧ (∀ m, mem' = some m → ∀ q, m.blocks q = mem.blocks q) ∧
      Accounts mk ofTerm (drops evs ++ vals) (reads evs) :=
  cut_drops hz hf (reach_sound hz hf h) hc

/-- C92, to the end: when `parse_impl` returns, memory is as before, and each operand and operator read is in what it
returns or has been dropped, and exactly once. -/
theorem C92_to_the_end {mem mem' : Mem (Expr × Op)} (hz : 0 < ty.size) (hf : Fresh mem) {s : S}
    {res : PResult S (Expr × StopReason S Op EOp ETerm) (Either EOp ETerm)} {evs : List (BinEvent T Op Expr)}
    (h : BinReach b ty term op mk ofTerm prec (.first mem s) (.ret mem' res) evs) :
    (∀ q, mem'.blocks q = mem.blocks q) ∧ Accounts mk ofTerm (drops evs ++ heldBy res) (reads evs) := by
  obtain ⟨l, ⟨h1, rfl⟩, h2⟩ := reach_sound hz hf h
  exact ⟨h1, by simpa [BinState.alive, ownedPairs] using h2⟩

theorem exec_error {α β : Type} {w : World α} {x : Act (World α) β} {f : Fault} (h : w.exec x = Run.fault f) :
    ∃ w', x w = (.error f, w') := by
  unfold World.exec at h
  split at h
  · simp at h
  · next e w' h1 => simp at h; subst h; exact ⟨w', h1⟩

/-- C92 covers every panic: a step that does not come to an end either aborts the process, for want of memory, or is at a
place where `parse_impl` can be cut off. -/
theorem C92_every_panic {mem : Mem (Expr × Op)} (hz : 0 < ty.size) (hf : Fresh mem) {s : S}
    {st : BinState S T Op EOp ETerm Expr} {evs : List (BinEvent T Op Expr)}
    (h : BinReach b ty term op mk ofTerm prec (.first mem s) st evs) {f : Fault}
    (hs : BinState.step b ty term op mk ofTerm prec st = Run.fault f) :
    (f = .abort ∧ (∃ k, mem.grants k = false)) ∨ ∃ c, st.cut b ty = some c := by
  obtain ⟨l, h1, -⟩ := reach_sound hz hf h
  have hpush : ∀ (w : World (Expr × Op)) (item : Expr × Op) (later earlier : List (BinVal T Op Expr)),
      (BinStore.stack w).Keeps ty mem l → w.exec (push b ty item) = Run.fault f →
      (f = .abort ∧ (∃ k, mem.grants k = false)) ∨ ∃ c, cutPush b ty w item later earlier = some c := by
    rintro w item later earlier ⟨h2, w₀, rfl, h3, h4, h5⟩ h6
    obtain ⟨w', h7⟩ := exec_error h6
    obtain ⟨⟨w'', h8, -⟩ | ⟨h8, -⟩ | ⟨w'', h8, h9, -⟩, -⟩ := push_rel (b := b) h2 h5.fresh item (.inl hz)
    · rw [h7] at h8; simp at h8
    · rw [h7] at h8; simp at h8
      obtain ⟨rfl, -⟩ := h8
      exact .inr ⟨_, by unfold cutPush; rw [h7]⟩
    · rw [h7] at h8; simp at h8
      rw [h5.grants] at h9
      exact .inl ⟨h8.1, _, h9⟩
  cases st
  case inner w rhs o t rest =>
    exfalso
    simp only [BinState.step] at hs
    rcases Keeps.pop h1 with ⟨-, w', h5, -⟩ | ⟨-, ⟨lhs, lastOp⟩, -, w', h5, -⟩
    · simp [h5] at hs
    · simp [h5] at hs
  case last w rhs reason rest =>
    exfalso
    simp only [BinState.step] at hs
    rcases Keeps.pop h1 with ⟨-, w', h5, h6, w₀, rfl, h7, -, h8⟩ | ⟨-, ⟨lhs, lastOp⟩, -, w', h5, -⟩
    · obtain ⟨w₂, h10, -⟩ := exec_dropStack h6 h7 hf h8
      simp [h5, h10] at hs
    · simp [h5] at hs
  case ret => simp [BinState.step] at hs
  case pushBack w lhs lastOp rhs o t rest =>
    refine hpush w (lhs, lastOp) _ _ h1 ?_
    simp only [BinState.step] at hs
    cases hw : w.exec (push b ty (lhs, lastOp)) using Run.casesRun with
    | ret a => simp [hw] at hs
    | fault e => rw [hw, Run.fault_bind] at hs; simpa using hs
    | diverge => simp [hw] at hs
  case push w rhs o t rest =>
    refine hpush w (rhs, o) _ _ h1 ?_
    simp only [BinState.step] at hs
    cases hw : w.exec (push b ty (rhs, o)) using Run.casesRun with
    | ret a => simp [hw] at hs
    | fault e => rw [hw, Run.fault_bind] at hs; simpa using hs
    | diverge => simp [hw] at hs
  all_goals exact .inr ⟨_, rfl⟩

/-! ### A concrete expression cut off -/

/-- From waiting for an operator before `>x`, to the same place after it, with one more pair on the stack. -/
theorem arrow_turn (b : Build) {l : List (BTree Arrow Unit × Arrow)} (hl : l.length ≤ 100)
    {w : World (BTree Arrow Unit × Arrow)} {rhs : BTree Arrow Unit} {s : StrRef} {n : Nat}
    {st₀ : BinState StrRef Unit Arrow (Miss Unit) (Miss Unit) (BTree Arrow Unit)} {evs : List (BinEvent Unit Arrow (BTree Arrow Unit))}
    (hw : (BinStore.stack w).Keeps ⟨8, 8⟩ Mem.blank l) (hs : content s = arrowTail (n + 1))
    (h : BinReach b ⟨8, 8⟩ xTerm.parse arrowOp.parse BTree.node BTree.leaf 0 st₀ (.atOp w rhs s) evs) :
    ∃ w' s' evs', content s' = arrowTail n ∧ (BinStore.stack w').Keeps ⟨8, 8⟩ Mem.blank (l ++ [(rhs, ⟨⟩)]) ∧
      BinReach b ⟨8, 8⟩ xTerm.parse arrowOp.parse BTree.node BTree.leaf 0 st₀ (.atOp w' (.leaf ()) s') evs' ∧
      reads evs' = reads evs ++ [.op ⟨⟩, .term ()] := by
  obtain ⟨r, h1, c1⟩ := (C10_the_char '>' s).1 ('x' :: arrowTail n) hs
  obtain ⟨s', h2, c2⟩ := (C10_the_char 'x' r).1 (arrowTail n) c1
  have h1' : arrowOp.parse s = pure (.ok ⟨⟩ r) := by simp [arrowOp, Parser.map, h1]
  have h2' : xTerm.parse r = pure (.ok () s') := h2
  have hpush : ∀ (l' : List (BTree Arrow Unit × Arrow)) (w : World (BTree Arrow Unit × Arrow)) item, l'.length ≤ 100 →
      (BinStore.stack w).Keeps ⟨8, 8⟩ Mem.blank l' →
      ∃ w', w.exec (push b ⟨8, 8⟩ item) = pure ((), w') ∧ (BinStore.stack w').Keeps ⟨8, 8⟩ Mem.blank (l' ++ [item]) := by
    rintro l' w item hl' ⟨h3, w₀, h4, h5, h6, h7⟩
    rcases exec_push (b := b) h3 h7.fresh item (h7.sameN.trans h6) (.inl (by decide)) with ⟨w', h8, h9, h10, -⟩ | ⟨f, -, h8, -⟩
    · exact ⟨w', h8, h9, w₀, h4, h5, h6, h7.trans h10⟩
    · exfalso
      rcases h8 with ⟨-, k, h8⟩ | ⟨-, h8⟩
      · rw [h7.grants, h4] at h8; simp [Mem.blank] at h8
      · refine h8 ⟨?_, ?_⟩
        · have : 200 ≤ isizeMax := by decide
          omega
        · have : 1600 ≤ isizeMax - (8 - 1) := by decide
          show 8 * (2 * l'.length) ≤ isizeMax - (8 - 1)
          omega
  have hr := h.step (show _ = pure (.gotOp w rhs (anchor s) ⟨⟩ r, [.readOp ⟨⟩]) by simp [BinState.step, h1'])
  have hr := hr.step (show _ = pure (.atTerm w rhs (anchor s) ⟨⟩ r, []) by simp [BinState.step])
  have hr := hr.step (show _ = pure (.convertTerm w rhs ⟨⟩ () s', [.readTerm ()]) by simp [BinState.step, h2'])
  have hr := hr.step (show _ = pure (.inner w rhs ⟨⟩ (.leaf ()) s', []) by simp [BinState.step])
  rcases Keeps.pop hw with ⟨rfl, w₁, h3, h4⟩ | ⟨l', ⟨lhs, lastOp⟩, rfl, w₁, h3, h4⟩
  · have hr := hr.step (show _ = pure (.push w₁ rhs ⟨⟩ (.leaf ()) s', []) by simp [BinState.step, h3])
    obtain ⟨w₂, h5, h6⟩ := hpush _ w₁ (rhs, ⟨⟩) (by simp) h4
    have hr := hr.step (show _ = pure (.atOp w₂ (.leaf ()) s', []) by simp [BinState.step, h5])
    exact ⟨w₂, s', _, c2, h6, hr, by simp [reads_append, reads]⟩
  · have hr := hr.step (show _ = pure (.compare w₁ lhs lastOp rhs ⟨⟩ (.leaf ()) s', []) by simp [BinState.step, h3])
    have hr := hr.step (show _ = pure (.pushBack w₁ lhs lastOp rhs ⟨⟩ (.leaf ()) s', []) by
      simp [BinState.step, nextPrecedence, associativity, precedence])
    simp only [List.length_append, List.length_singleton] at hl
    obtain ⟨w₂, h5, h6⟩ := hpush _ w₁ (lhs, lastOp) (by omega) h4
    have hr := hr.step (show _ = pure (.push w₂ rhs ⟨⟩ (.leaf ()) s', []) by simp [BinState.step, h5])
    obtain ⟨w₃, h7, h8⟩ := hpush _ w₂ (rhs, ⟨⟩) (by simp; omega) h6
    have hr := hr.step (show _ = pure (.atOp w₃ (.leaf ()) s', []) by simp [BinState.step, h7])
    exact ⟨w₃, s', _, c2, h8, hr, by simp [reads_append, reads]⟩

/-- `x>x>…` as far as wanted. -/
theorem arrows_reach (b : Build) (m n : Nat) (hn : n ≤ 100) :
    ∃ w s evs, content s = arrowTail m ∧
      (BinStore.stack w).Keeps ⟨8, 8⟩ Mem.blank (List.replicate n (BTree.leaf (), ⟨⟩)) ∧
      BinReach b ⟨8, 8⟩ xTerm.parse arrowOp.parse BTree.node BTree.leaf 0 (.first Mem.blank (arrows (m + n)))
        (.atOp w (.leaf ()) s) evs ∧
      reads evs = .term () :: (List.replicate n [Token.op ⟨⟩, .term ()]).flatten := by
  induction n generalizing m with
  | zero =>
    obtain ⟨r, h1, c1⟩ := (C10_the_char 'x' (arrows m)).1 (arrowTail m) rfl
    have h1' : xTerm.parse (arrows m) = pure (.ok () r) := h1
    obtain ⟨vec, h2, h3, h4, h5⟩ := new_rel (ty := ⟨8, 8⟩) (mem := (Mem.blank : Mem (BTree Arrow Unit × Arrow)))
    have hr := (BinReach.refl (b := b) (ty := ⟨8, 8⟩) (parserTerm := xTerm.parse) (parserOp := arrowOp.parse) (mk := BTree.node)
      (ofTerm := BTree.leaf) (prec := 0) (st := .first Mem.blank (arrows m))).step
      (show _ = pure (.convert Mem.blank () r, [.readTerm ()]) by simp [BinState.step, h1'])
    have hr := hr.step (show _ = pure (.atOp { vec, mem := Mem.blank } (.leaf ()) r, []) by simp [BinState.step, h2])
    exact ⟨_, r, _, c1, ⟨h3, { vec, mem := Mem.blank }, rfl, h5, h4, .refl fun _ _ => rfl⟩, hr, by simp [reads]⟩
  | succ n ih =>
    obtain ⟨w, s, evs, h1, h2, h3, h4⟩ := ih (m + 1) (by omega)
    obtain ⟨w', s', evs', h5, h6, h7, h8⟩ := arrow_turn b (by simp; omega) h2 h1 h3
    refine ⟨w', s', evs', h5, ?_, ?_, ?_⟩
    · rw [List.replicate_succ']; exact h6
    · rw [show m + (n + 1) = m + 1 + n by omega]; exact h7
    · rw [h8, h4, List.replicate_succ']; simp

/-- Non-vacuity of C92: waiting for the next operator after `x>x>x>x>x>x`, with five pairs on a stack that has moved to
the heap, the future can be dropped; the eleven values read are dropped with it. -/
example (b : Build) : ∃ w rhs s evs c,
    BinReach b ⟨8, 8⟩ xTerm.parse arrowOp.parse BTree.node BTree.leaf 0 (.first Mem.blank (arrows 5)) (.atOp w rhs s) evs ∧
    w.vec.isHeap = true ∧ (BinState.atOp w rhs s : BinState StrRef Unit Arrow (Miss Unit) (Miss Unit) _).cut b ⟨8, 8⟩ = some c ∧
    (reads evs).length = 11 ∧
    ∃ mem vals, c.drop ⟨8, 8⟩ = pure (some mem, vals) ∧ (∀ q, mem.blocks q = none) ∧ vals.length = 11 := by
  obtain ⟨w, s, evs, h1, h2, h3, h4⟩ := arrows_reach b 0 5 (by decide)
  refine ⟨w, _, s, evs, _, h3, ?_, rfl, by rw [h4]; rfl, ?_⟩
  · obtain ⟨h5, w₀, -, -, h6, h7⟩ := h2
    have hlen := h5.len
    have hle := h5.len_le
    have hn := h7.sameN
    simp only [List.length_replicate] at hlen
    simp only [SVec.isHeap, decide_eq_true_eq]
    omega
  · obtain ⟨h5, w₀, h8, h9, h6, h7⟩ := h2
    obtain ⟨w', h10, h11, h12⟩ := exec_dropStack h5 h9 (by rw [h8]; exact fun _ _ => rfl) h7
    refine ⟨w'.mem, _, by simp [BinCut.drop, h10]; rfl, ?_, ?_⟩
    · intro q; rw [h11, h8]; rfl
    · rw [h12]; rfl

end Parcom
