import Verif.Lemmas.BinExprPanic
import Verif.Props.BinExprSteps
/-!
# C127: binary expressions of values that panic when dropped
-/
namespace Parcom
open Spec

/-! ## The claim -/

/-- C127 in full. Wherever the future of `parse_impl` is dropped (`unwinding = false`), and wherever code it calls panics
(`unwinding = true`): a second panic aborts the process; otherwise each operand and operator read so far is dropped
exactly once, by itself or in the expression it went into, and memory is as before. -/
def C127Statement : Prop :=
  ∀ (S T Op EOp ETerm Expr : Type) [RewindSequence S] [Operator Op] [ParseError EOp] [ParseError ETerm] (b : Build) (ty : Ty)
    (mk : Expr → Op → Expr → Expr) (ofTerm : T → Expr) (term : S → Run (PResult S T ETerm))
    (op : S → Run (PResult S Op EOp)) (prec : Nat) (panics : BinVal T Op Expr → Bool) (mem : Mem (Expr × Op)) (s : S)
    (st : BinState S T Op EOp ETerm Expr) (evs : List (BinEvent T Op Expr)) (c : BinCut T Op Expr) (unwinding : Bool),
    0 < ty.size → Fresh mem → BinReachPanicking panics b ty term op mk ofTerm prec (.first mem s) st evs →
    st.cut b ty = some c →
    ∃ vals, Accounts mk ofTerm (drops evs ++ vals) (reads evs) ∧
      (2 ≤ unwinding.toNat + (vals.filter panics).length → c.dropPanicking panics ty unwinding = Run.fault .abort) ∧
      (unwinding.toNat + (vals.filter panics).length ≤ 1 →
        ∃ mem', c.dropPanicking panics ty unwinding = pure (unwinding || vals.any panics, mem', vals) ∧
          ∀ m, mem' = some m → ∀ q, m.blocks q = mem.blocks q)

variable {S T Op EOp ETerm Expr : Type} [RewindSequence S] [Operator Op] [ParseError EOp] [ParseError ETerm]
  {b : Build} {ty : Ty} {mk : Expr → Op → Expr → Expr} {ofTerm : T → Expr} {term : S → Run (PResult S T ETerm)}
  {op : S → Run (PResult S Op EOp)} {prec : Nat} {panics : BinVal T Op Expr → Bool}

omit [Operator Op] in
theorem any_filter (vals : List (BinVal T Op Expr)) : (!(vals.filter panics).isEmpty) = vals.any panics := by
  induction vals with
  | nil => rfl
  | cons x xs ih =>
    by_cases hx : panics x = true
    · simp [hx]
    · simp [hx, ih]

omit [Operator Op] in
theorem filter_nil_iff {vals : List (BinVal T Op Expr)} : vals.filter panics = [] ↔ vals.any panics = false := by
  rw [← any_filter]
  cases vals.filter panics <;> simp

omit [Operator Op] [ParseError EOp] [ParseError ETerm] in
/-- Where nothing panics, dropping at the end of a step is as in `Model/BinExprSteps`. -/
theorem leavePanicking_next {mem : Mem (Expr × Op)} (hf : Fresh mem) {w : World (Expr × Op)} {l : List (Expr × Op)}
    (h : (BinStore.stack w).Keeps ty mem l) {later : List (BinVal T Op Expr)} {rhs : Expr} {e : Either EOp ETerm}
    {r : UnknownLocation S} {st' : BinState S T Op EOp ETerm Expr} {evs' : List (BinEvent T Op Expr)} :
    BinState.leavePanicking panics ty w later rhs e r = pure (.next st' evs') ↔
      BinState.leave ty w later rhs e r = pure (st', evs') ∧ (drops evs').any panics = false := by
  obtain ⟨m, h1, h2, h3, -⟩ := dropPanicking_stack (panics := panics) hf h false [] later [.expr rhs]
  obtain ⟨w', h4, -, h5⟩ := exec_dropStack h.1 h.2.choose_spec.2.1 (by rw [h.2.choose_spec.1]; exact hf)
    h.2.choose_spec.2.2.2
  unfold BinState.leavePanicking BinState.leave
  rw [h1, h4]
  simp only [Run.pure_bind', Run.pure_inj', Prod.mk.injEq, h5, List.nil_append, Run.bind_assoc']
  rcases Nat.lt_trichotomy ((later ++ ownedPairs l ++ [BinVal.expr rhs]).filter panics).length 1 with hn | hn | hn
  · have hc : (later ++ ownedPairs l ++ [BinVal.expr rhs]).filter panics = [] := List.length_eq_zero_iff.mp (by omega)
    have hc' : (ownedPairs l : List (BinVal T Op Expr)).filter panics = [] := by
      simp only [List.filter_append, List.append_eq_nil_iff] at hc
      exact hc.1.2
    rw [dropValues_none _ hc]
    obtain ⟨⟨w'', h6, h7⟩, -⟩ := h3 hc'
    rw [h4] at h6
    simp only [Run.pure_inj', Prod.mk.injEq, true_and] at h6
    subst h6
    simp only [Run.pure_bind', Run.pure_inj', BinOutcome.next.injEq, h7]
    constructor
    · rintro ⟨rfl, rfl⟩
      exact ⟨⟨rfl, rfl⟩, by rw [drops_dropped]; exact filter_nil_iff.mp hc⟩
    · rintro ⟨⟨rfl, rfl⟩, -⟩
      exact ⟨rfl, rfl⟩
  · rw [dropValues_one hn]
    simp only [Run.pure_bind', Run.pure_inj', reduceCtorEq, false_iff, not_and]
    rintro ⟨-, rfl⟩ ha
    rw [drops_dropped, ← filter_nil_iff] at ha
    rw [ha] at hn
    simp at hn
  · rw [dropValues_more (by simp only [Bool.toNat_false]; omega)]
    simp only [Run.fault_bind, Run.fault_ne_pure, false_iff, not_and]
    rintro ⟨-, rfl⟩ ha
    rw [drops_dropped, ← filter_nil_iff] at ha
    rw [ha] at hn
    simp at hn

/-- The places where a step drops values. -/
def BinState.letsGo : BinState S T Op EOp ETerm Expr → Bool
  | .opFailed .. => true
  | .termFailed .. => true
  | .rewindTerm .. => true
  | _ => false

theorem stepPanicking_plain {st : BinState S T Op EOp ETerm Expr} (h : st.letsGo = false) :
    BinState.stepPanicking panics b ty term op mk ofTerm prec st =
      BinState.step b ty term op mk ofTerm prec st >>= fun y => pure (.next y.1 y.2) := by
  cases st <;> first | rfl | simp [BinState.letsGo] at h

/-- Elsewhere nothing is dropped. -/
theorem step_plain {mem : Mem (Expr × Op)} (hf : Fresh mem) {st st' : BinState S T Op EOp ETerm Expr}
    {l : List (Expr × Op)} {evs' : List (BinEvent T Op Expr)} (h : st.store.Keeps ty mem l) (hp : st.letsGo = false)
    (hs : BinState.step b ty term op mk ofTerm prec st = pure (st', evs')) : drops evs' = [] := by
  cases st
  case opFailed => simp [BinState.letsGo] at hp
  case termFailed => simp [BinState.letsGo] at hp
  case rewindTerm => simp [BinState.letsGo] at hp
  case last w rhs reason rest =>
    simp only [BinState.step] at hs
    rcases Keeps.pop h with ⟨-, w', h5, h6, w₀, rfl, h7, -, h8⟩ | ⟨-, ⟨lhs, lastOp⟩, -, w', h5, -⟩
    · obtain ⟨w₂, h10, -, h11⟩ := exec_dropStack h6 h7 hf h8
      simp only [h5, h10, Run.pure_bind', h11, Run.pure_inj', Prod.mk.injEq] at hs
      rw [← hs.2]; rfl
    · simp only [h5, Run.pure_bind', Run.pure_inj', Prod.mk.injEq] at hs
      rw [← hs.2]; rfl
  case convert mem v rest =>
    simp only [BinState.step] at hs
    split at hs
    · simp at hs
    · simp only [Run.pure_inj', Prod.mk.injEq] at hs
      rw [← hs.2]; rfl
  case gotOp =>
    simp only [BinState.step] at hs
    split at hs <;> (simp only [Run.pure_inj', Prod.mk.injEq] at hs; rw [← hs.2]; rfl)
  case convertTerm => simp only [BinState.step, Run.pure_inj', Prod.mk.injEq] at hs; rw [← hs.2]; rfl
  case combine => simp only [BinState.step, Run.pure_inj', Prod.mk.injEq] at hs; rw [← hs.2]; rfl
  case lastCombine => simp only [BinState.step, Run.pure_inj', Prod.mk.injEq] at hs; rw [← hs.2]; rfl
  case ret => simp only [BinState.step, Run.pure_inj', Prod.mk.injEq] at hs; rw [← hs.2]; rfl
  all_goals
    simp only [BinState.step, Run.bind_eq_pure] at hs
    obtain ⟨x, -, hs⟩ := hs
    try split at hs
    all_goals
      simp only [Run.pure_eq_ret, Prod.mk.injEq] at hs
      rw [← hs.2]; rfl

omit [Operator Op] in
theorem any_reads_nil {evs : List (BinEvent T Op Expr)} (h : drops evs = []) : (drops evs).any panics = false := by rw [h]; rfl

/-- A step that comes to the next place is a step of `Model/BinExprSteps` in which no destructor panicked. -/
theorem stepPanicking_next {mem : Mem (Expr × Op)} (hf : Fresh mem) {st st' : BinState S T Op EOp ETerm Expr}
    {l : List (Expr × Op)} {evs' : List (BinEvent T Op Expr)} (h : st.store.Keeps ty mem l) :
    BinState.stepPanicking panics b ty term op mk ofTerm prec st = pure (.next st' evs') ↔
      BinState.step b ty term op mk ofTerm prec st = pure (st', evs') ∧ (drops evs').any panics = false := by
  have plain : ∀ {x : Run (BinState S T Op EOp ETerm Expr × List (BinEvent T Op Expr))},
      (x = pure (st', evs') → drops evs' = []) →
      ((x >>= fun y => (pure (.next y.1 y.2) : Run (BinOutcome S T Op EOp ETerm Expr))) = pure (.next st' evs') ↔
        x = pure (st', evs') ∧ (drops evs').any panics = false) := by
    intro x hx
    cases x using Run.casesRun with
    | ret a =>
      obtain ⟨st₁, evs₁⟩ := a
      simp only [Run.ret_bind, Run.pure_inj', BinOutcome.next.injEq, Run.ret_eq_pure, Prod.mk.injEq]
      constructor
      · rintro ⟨rfl, rfl⟩
        exact ⟨⟨rfl, rfl⟩, any_reads_nil (hx rfl)⟩
      · exact fun h => h.1
    | fault e => simp
    | diverge => simp
  by_cases hp : st.letsGo = false
  · rw [stepPanicking_plain hp]
    exact plain fun hs => step_plain hf h hp hs
  · cases st
    case opFailed w rhs anchor e r =>
      simp only [BinState.stepPanicking, BinState.step]
      split
      · exact leavePanicking_next hf h
      · exact plain (x := pure (.rewindOp w rhs anchor e r, [])) fun h => by
          simp only [Run.pure_inj', Prod.mk.injEq] at h; rw [← h.2]; rfl
    case termFailed w rhs anchor o e r =>
      simp only [BinState.stepPanicking, BinState.step]
      split
      · exact plain (x := pure (.rewindTerm w rhs anchor o e r, [])) fun h => by
          simp only [Run.pure_inj', Prod.mk.injEq] at h; rw [← h.2]; rfl
      · exact leavePanicking_next hf h
    case rewindTerm w rhs anchor o e r =>
      simp only [BinState.stepPanicking, BinState.step, Run.bind_eq_pure]
      by_cases hx : panics (.op o) = true
      · simp only [dropValues, hx, if_true, Run.pure_bind', Bool.false_eq_true, if_false]
        constructor
        · rintro ⟨rest, -, h2⟩
          rw [Run.bind_eq_ret] at h2
          obtain ⟨y, -, h3⟩ := h2
          simp at h3
        · rintro ⟨⟨rest, -, h2⟩, h3⟩
          simp only [Run.pure_eq_ret, Prod.mk.injEq] at h2
          rw [← h2.2] at h3
          simp [drops, hx] at h3
      · simp only [dropValues, hx, Run.pure_bind', Bool.false_eq_true, if_false, Run.pure_eq_ret, BinOutcome.next.injEq,
          Prod.mk.injEq]
        constructor
        · rintro ⟨rest, h1, h2, rfl⟩
          exact ⟨⟨rest, h1, h2, rfl⟩, by simp [drops, hx]⟩
        · exact fun h => h.1
    all_goals exact absurd rfl hp

theorem reachPanicking {mem : Mem (Expr × Op)} (hz : 0 < ty.size) (hf : Fresh mem) {s : S}
    {st : BinState S T Op EOp ETerm Expr} {evs : List (BinEvent T Op Expr)}
    (h : BinReachPanicking panics b ty term op mk ofTerm prec (.first mem s) st evs) :
    BinReach b ty term op mk ofTerm prec (.first mem s) st evs := by
  induction h with
  | refl => exact .refl
  | step _ hs ih =>
    obtain ⟨l, h1, -⟩ := reach_sound hz hf ih
    exact ih.step ((stepPanicking_next hf h1).mp hs).1

/-! ## C127 -/

/-- C127, all but the memory, and that: for all parsers, sequences and makers of expressions, all layouts of the pairs of
expression and operator (other than zero), all states of memory and all sets of values whose destructors panic: wherever
the future of `parse_impl` is dropped, and wherever code it calls panics, a second panic aborts the process; otherwise
each operand and operator read so far has been dropped exactly once; all blocks but that of the stack are as before; and
that is given back if and only if there is none or no destructor of a value on the stack panicked. -/
theorem C127_exact {mem : Mem (Expr × Op)} (hz : 0 < ty.size) (hf : Fresh mem) {s : S}
    {st : BinState S T Op EOp ETerm Expr} {evs : List (BinEvent T Op Expr)}
    (h : BinReachPanicking panics b ty term op mk ofTerm prec (.first mem s) st evs) {c : BinCut T Op Expr}
    (hc : st.cut b ty = some c) (unwinding : Bool) :
    ∃ vals, Accounts mk ofTerm (drops evs ++ vals) (reads evs) ∧
      (2 ≤ unwinding.toNat + (vals.filter panics).length → c.dropPanicking panics ty unwinding = Run.fault .abort) ∧
      (unwinding.toNat + (vals.filter panics).length ≤ 1 →
        ∃ mem', c.dropPanicking panics ty unwinding = pure (unwinding || vals.any panics, mem', vals) ∧
          (mem'.isSome ↔ c.stack.isSome) ∧ ∀ m w, mem' = some m → c.stack = some w →
          ∃ l, m.dropped = w.mem.dropped ++ l ∧ vals = c.handed ++ c.later ++ ownedPairs l ++ c.earlier ∧
            (∀ q, w.vec.block ≠ some q → m.blocks q = mem.blocks q) ∧
            ((∀ q, m.blocks q = mem.blocks q) ↔ ¬ (w.vec.isHeap = true ∧ (ownedPairs l : List (BinVal T Op Expr)).any panics = true))) := by
  obtain ⟨l, h1, h2⟩ := reach_sound hz hf (reachPanicking hz hf h)
  obtain ⟨handed, later, stack, earlier⟩ := c
  rcases cut_alive hz h1 hc with ⟨h3, rfl, h4⟩ | ⟨w, h3, h4, h5⟩
  · dsimp only at h3 h4
    subst h3
    have he : BinCut.dropPanicking panics ty unwinding { handed, later, stack := none, earlier } =
        dropValues panics unwinding (handed ++ later ++ earlier) >>= fun u => pure (u, none, handed ++ later ++ earlier) := by
      rw [dropValues_append, Run.bind_assoc']
      rfl
    refine ⟨handed ++ later ++ earlier, h2.perm (List.Perm.append_left _ ?_) (.refl _), fun hn => ?_, fun hn => ⟨none, ?_, by simp, by simp⟩⟩
    · simpa [ownedPairs] using h4.symm
    · rw [he, dropValues_more hn]; rfl
    · rw [he, dropValues_ok hn, any_filter]; rfl
  · dsimp only at h3 h5
    subst h3
    obtain ⟨m, h6, h7, h8, h9⟩ := dropPanicking_stack (panics := panics) hf h4 unwinding handed later earlier
    obtain ⟨h10, h11, h12⟩ := Keeps.blocks hf h4
    refine ⟨handed ++ later ++ ownedPairs l ++ earlier, h2.perm (List.Perm.append_left _ ?_) (.refl _), fun hn => ?_,
      fun hn => ⟨some m, ?_, by simp, ?_⟩⟩
    · refine (List.Perm.append_right _ h5.symm).trans (perm_counts fun a => ?_)
      simp only [List.count_append]
      omega
    · rw [h6, dropValues_more hn]; rfl
    · rw [h6, dropValues_ok hn, any_filter]; rfl
    · rintro m' w' hm hw
      simp only [Option.some.injEq] at hm hw
      subst hm hw
      refine ⟨l, h7, rfl, ?_, ?_⟩
      · intro q hq
        by_cases hp : (ownedPairs l : List (BinVal T Op Expr)).filter panics = []
        · exact (h8 hp).2 q
        · rw [h9 hp]; exact h10 q hq
      · by_cases hp : (ownedPairs l : List (BinVal T Op Expr)).filter panics = []
        · rw [filter_nil_iff] at hp
          simp only [hp, Bool.false_eq_true, and_false, not_false_eq_true, iff_true]
          exact (h8 (filter_nil_iff.mpr hp)).2
        · have hp' : (ownedPairs l : List (BinVal T Op Expr)).any panics = true := by
            rw [filter_nil_iff] at hp; simpa using hp
          simp only [hp', and_true, h12, h9 hp]
          constructor
          · rintro ha ⟨q, hq⟩
            obtain ⟨h13, h14⟩ := h11 q hq
            rw [ha q, h13] at h14
            exact h14 rfl
          · intro hn q
            exact h10 q fun hq => hn ⟨q, hq⟩

/-- C127 for stacks that have not moved to the heap. Missing: those that have, where by `C127_exact` the block of the stack
is leaked if a destructor of a value on it panics. -/
theorem C127_partial {mem : Mem (Expr × Op)} (hz : 0 < ty.size) (hf : Fresh mem) {s : S}
    {st : BinState S T Op EOp ETerm Expr} {evs : List (BinEvent T Op Expr)}
    (h : BinReachPanicking panics b ty term op mk ofTerm prec (.first mem s) st evs) {c : BinCut T Op Expr}
    (hc : st.cut b ty = some c) (unwinding : Bool) (hs : ∀ w, c.stack = some w → w.vec.isHeap = false) :
    ∃ vals, Accounts mk ofTerm (drops evs ++ vals) (reads evs) ∧
      (2 ≤ unwinding.toNat + (vals.filter panics).length → c.dropPanicking panics ty unwinding = Run.fault .abort) ∧
      (unwinding.toNat + (vals.filter panics).length ≤ 1 →
        ∃ mem', c.dropPanicking panics ty unwinding = pure (unwinding || vals.any panics, mem', vals) ∧
          ∀ m, mem' = some m → ∀ q, m.blocks q = mem.blocks q) := by
  obtain ⟨vals, h1, h2, h3⟩ := C127_exact hz hf h hc unwinding
  refine ⟨vals, h1, h2, fun hn => ?_⟩
  obtain ⟨mem', h4, h5, h6⟩ := h3 hn
  refine ⟨mem', h4, ?_⟩
  rintro m rfl
  obtain ⟨w, hw⟩ := Option.isSome_iff_exists.mp (h5.mp rfl)
  obtain ⟨l, -, -, -, h7⟩ := h6 m w rfl hw
  exact h7.mpr fun h8 => by simp [hs w hw] at h8

/-- C127 within a step: where `parse_impl` itself lets values go, that is where it returns an error and where no operand
follows an operator. If it panics there, one destructor has panicked; each operand and operator read so far has been
dropped exactly once; and at most one block is left behind. -/
theorem C127_step {mem : Mem (Expr × Op)} (hz : 0 < ty.size) (hf : Fresh mem) {s : S}
    {st : BinState S T Op EOp ETerm Expr} {evs : List (BinEvent T Op Expr)}
    (h : BinReachPanicking panics b ty term op mk ofTerm prec (.first mem s) st evs)
    {mem' : Option (Mem (Expr × Op))} {evs' : List (BinEvent T Op Expr)}
    (hs : BinState.stepPanicking panics b ty term op mk ofTerm prec st = pure (.unwound mem' evs')) :
    ((drops evs').filter panics).length = 1 ∧ Accounts mk ofTerm (drops (evs ++ evs')) (reads (evs ++ evs')) ∧
      ∃ m left, mem' = some m ∧ ∀ q, q ≠ left → m.blocks q = mem.blocks q := by
  obtain ⟨l, h1, h2⟩ := reach_sound hz hf (reachPanicking hz hf h)
  have others : ∀ (w : World (Expr × Op)) (m : Mem (Expr × Op)), (BinStore.stack w).Keeps ty mem l →
      ((ownedPairs l : List (BinVal T Op Expr)).filter panics = [] → (∃ w', w.exec (dropVec ty) = pure ((), w') ∧ w'.mem = m) ∧
        ∀ q, m.blocks q = mem.blocks q) →
      ((ownedPairs l : List (BinVal T Op Expr)).filter panics ≠ [] → m.blocks = w.mem.blocks) →
      ∃ left, ∀ q, q ≠ left → m.blocks q = mem.blocks q := by
    intro w m hk h3 h4
    obtain ⟨h10, h11, h12⟩ := Keeps.blocks hf hk
    by_cases hp : (ownedPairs l : List (BinVal T Op Expr)).filter panics = []
    · exact ⟨0, fun q _ => (h3 hp).2 q⟩
    · cases hb : w.vec.block with
      | none => exact ⟨0, fun q _ => by rw [h4 hp]; exact h10 q (by simp [hb])⟩
      | some left => exact ⟨left, fun q hq => by rw [h4 hp]; exact h10 q (by rw [hb]; simpa using Ne.symm hq)⟩
  have leaves : ∀ (w : World (Expr × Op)) (later : List (BinVal T Op Expr)) (rhs : Expr) (e : Either EOp ETerm)
      (r : UnknownLocation S), (BinStore.stack w).Keeps ty mem l →
      Accounts mk ofTerm (drops evs ++ (later ++ ownedPairs l ++ [BinVal.expr rhs])) (reads evs) →
      BinState.leavePanicking panics ty w later rhs e r = pure (.unwound mem' evs') →
      ((drops evs').filter panics).length = 1 ∧ Accounts mk ofTerm (drops (evs ++ evs')) (reads (evs ++ evs')) ∧
      ∃ m left, mem' = some m ∧ ∀ q, q ≠ left → m.blocks q = mem.blocks q := by
    intro w later rhs e r hk ha hl
    obtain ⟨m, h3, -, h4, h5⟩ := dropPanicking_stack (panics := panics) hf hk false [] later [.expr rhs]
    unfold BinState.leavePanicking at hl
    rw [h3, List.nil_append, Run.bind_assoc'] at hl
    simp only [Run.pure_bind'] at hl
    rcases Nat.lt_trichotomy ((later ++ ownedPairs l ++ [BinVal.expr rhs]).filter panics).length 1 with hn | hn | hn
    · rw [dropValues_none _ (List.length_eq_zero_iff.mp (by omega))] at hl
      simp at hl
    · rw [dropValues_one hn] at hl
      simp only [Run.pure_bind', Run.pure_inj', BinOutcome.unwound.injEq] at hl
      obtain ⟨rfl, rfl⟩ := hl
      obtain ⟨left, h6⟩ := others w m hk h4 h5
      refine ⟨by rw [drops_dropped]; exact hn, ?_, m, left, rfl, h6⟩
      rw [drops_append, reads_append, drops_dropped, reads_dropped, List.append_nil]
      exact ha
    · rw [dropValues_more (by simp only [Bool.toNat_false]; omega)] at hl
      simp at hl
  by_cases hp : st.letsGo = false
  · rw [stepPanicking_plain hp, Run.bind_eq_pure] at hs
    obtain ⟨y, -, h3⟩ := hs
    simp at h3
  · cases st
    case opFailed w rhs anchor e r =>
      simp only [BinState.stepPanicking] at hs
      split at hs
      · refine leaves w [] rhs _ _ h1 (h2.perm (List.Perm.append_left _ (perm_counts fun a => ?_)) (.refl _)) hs
        simp only [BinState.alive, List.count_append, List.count_cons, List.count_nil]
        omega
      · simp at hs
    case termFailed w rhs anchor o e r =>
      simp only [BinState.stepPanicking] at hs
      split at hs
      · simp at hs
      · refine leaves w [.op o] rhs _ _ h1 (h2.perm (List.Perm.append_left _ (perm_counts fun a => ?_)) (.refl _)) hs
        simp only [BinState.alive, List.count_append, List.count_cons, List.count_nil]
        omega
    case rewindTerm w rhs anchor o e r =>
      simp only [BinState.stepPanicking, Run.bind_eq_pure] at hs
      obtain ⟨rest, -, hs⟩ := hs
      by_cases hx : panics (.op o) = true
      · simp only [dropValues, hx, if_true, Run.pure_bind', Bool.false_eq_true, if_false] at hs
        obtain ⟨m, h3, -, h4, h5⟩ := dropPanicking_stack (panics := panics) hf h1 true [] [] [.expr rhs]
        rw [h3] at hs
        simp only [List.nil_append, Run.bind_assoc', Run.pure_bind'] at hs
        rcases Nat.lt_or_ge ((ownedPairs l ++ [BinVal.expr rhs]).filter panics).length 1 with hn | hn
        · have hn' := List.length_eq_zero_iff.mp (Nat.lt_one_iff.mp hn)
          rw [dropValues_none _ hn'] at hs
          simp only [Run.pure_bind', Run.pure_eq_ret, BinOutcome.unwound.injEq] at hs
          obtain ⟨rfl, rfl⟩ := hs
          obtain ⟨left, h6⟩ := others w m h1 h4 h5
          have hd : drops (.dropped (.op o) :: (ownedPairs l ++ [BinVal.expr rhs] : List (BinVal T Op Expr)).map BinEvent.dropped) =
              BinVal.op o :: (ownedPairs l ++ [BinVal.expr rhs]) := by
            rw [drops, drops_dropped]
          refine ⟨?_, ?_, m, left, rfl, h6⟩
          · rw [hd, List.filter_cons, if_pos hx, hn']; rfl
          · rw [drops_append, reads_append, hd, reads, reads_dropped, List.append_nil]
            refine h2.perm (List.Perm.append_left _ (perm_counts fun a => ?_)) (.refl _)
            simp only [BinState.alive, List.count_append, List.count_cons, List.count_nil]
            omega
        · rw [dropValues_more (by simp only [Bool.toNat_true]; omega)] at hs
          simp at hs
      · simp [dropValues, hx] at hs
    all_goals exact absurd rfl hp

/-- C127 within a step: the process is aborted there only if a step without panics would be, or two destructors panic. -/
theorem C127_aborts {mem : Mem (Expr × Op)} (hz : 0 < ty.size) (hf : Fresh mem) {s : S}
    {st : BinState S T Op EOp ETerm Expr} {evs : List (BinEvent T Op Expr)}
    (h : BinReachPanicking panics b ty term op mk ofTerm prec (.first mem s) st evs) {f : Fault}
    (hs : BinState.stepPanicking panics b ty term op mk ofTerm prec st = Run.fault f) :
    BinState.step b ty term op mk ofTerm prec st = Run.fault f ∨
      (f = .abort ∧ ∃ vals, Accounts mk ofTerm (drops evs ++ vals) (reads evs) ∧ 2 ≤ (vals.filter panics).length) := by
  obtain ⟨l, h1, h2⟩ := reach_sound hz hf (reachPanicking hz hf h)
  have leaves : ∀ (w : World (Expr × Op)) (later : List (BinVal T Op Expr)) (rhs : Expr) (e : Either EOp ETerm)
      (r : UnknownLocation S), (BinStore.stack w).Keeps ty mem l →
      Accounts mk ofTerm (drops evs ++ (later ++ ownedPairs l ++ [BinVal.expr rhs])) (reads evs) →
      BinState.leavePanicking panics ty w later rhs e r = Run.fault f →
      (f = .abort ∧ ∃ vals, Accounts mk ofTerm (drops evs ++ vals) (reads evs) ∧ 2 ≤ (vals.filter panics).length) := by
    intro w later rhs e r hk ha hl
    obtain ⟨m, h3, -, -, -⟩ := dropPanicking_stack (panics := panics) hf hk false [] later [.expr rhs]
    unfold BinState.leavePanicking at hl
    rw [h3, List.nil_append, Run.bind_assoc'] at hl
    simp only [Run.pure_bind'] at hl
    rcases Nat.lt_trichotomy ((later ++ ownedPairs l ++ [BinVal.expr rhs]).filter panics).length 1 with hn | hn | hn
    · rw [dropValues_none _ (List.length_eq_zero_iff.mp (by omega))] at hl
      simp at hl
    · rw [dropValues_one hn] at hl
      simp at hl
    · rw [dropValues_more (by simp only [Bool.toNat_false]; omega)] at hl
      simp only [Run.fault_bind, Run.fault_inj] at hl
      exact ⟨hl.symm, _, ha, hn⟩
  by_cases hp : st.letsGo = false
  · rw [stepPanicking_plain hp] at hs
    cases hx : BinState.step b ty term op mk ofTerm prec st using Run.casesRun with
    | ret a => rw [hx] at hs; simp at hs
    | fault e => rw [hx] at hs; simp at hs; exact .inl (by rw [hs])
    | diverge => rw [hx] at hs; simp at hs
  · cases st
    case opFailed w rhs anchor e r =>
      simp only [BinState.stepPanicking] at hs
      split at hs
      · refine .inr (leaves w [] rhs _ _ h1 (h2.perm (List.Perm.append_left _ (perm_counts fun a => ?_)) (.refl _)) hs)
        simp only [BinState.alive, List.count_append, List.count_cons, List.count_nil]
        omega
      · simp at hs
    case termFailed w rhs anchor o e r =>
      simp only [BinState.stepPanicking] at hs
      split at hs
      · simp at hs
      · refine .inr (leaves w [.op o] rhs _ _ h1 (h2.perm (List.Perm.append_left _ (perm_counts fun a => ?_)) (.refl _)) hs)
        simp only [BinState.alive, List.count_append, List.count_cons, List.count_nil]
        omega
    case rewindTerm w rhs anchor o e r =>
      simp only [BinState.stepPanicking] at hs
      cases hr : r.rewind anchor using Run.casesRun with
      | fault e => rw [hr] at hs; simp at hs; exact .inl (by simp only [BinState.step, hr, hs]; rfl)
      | diverge => rw [hr] at hs; simp at hs
      | ret rest =>
      rw [hr, Run.ret_bind] at hs
      by_cases hx : panics (.op o) = true
      · simp only [dropValues, hx, if_true, Run.pure_bind', Bool.false_eq_true, if_false] at hs
        obtain ⟨m, h3, -, -, -⟩ := dropPanicking_stack (panics := panics) hf h1 true [] [] [.expr rhs]
        rw [h3] at hs
        simp only [List.nil_append, Run.bind_assoc', Run.pure_bind'] at hs
        rcases Nat.lt_or_ge ((ownedPairs l ++ [BinVal.expr rhs]).filter panics).length 1 with hn | hn
        · rw [dropValues_none _ (List.length_eq_zero_iff.mp (Nat.lt_one_iff.mp hn))] at hs
          simp at hs
        · rw [dropValues_more (by simp only [Bool.toNat_true]; omega)] at hs
          simp only [Run.fault_bind, Run.fault_inj] at hs
          refine .inr ⟨hs.symm, .op o :: (ownedPairs l ++ [BinVal.expr rhs]), h2.perm (List.Perm.append_left _ (perm_counts fun a => ?_)) (.refl _), ?_⟩
          · simp only [BinState.alive, List.count_append, List.count_cons, List.count_nil]
            omega
          · rw [List.filter_cons, if_pos hx, List.length_cons]
            omega
      · simp [dropValues, hx] at hs
    all_goals exact absurd rfl hp

/-- C127, to the end: when `parse_impl` returns, no destructor has panicked, memory is as before, and each operand and operator
read is in what it returns or has been dropped, and exactly once. -/
theorem C127_to_the_end {mem mem' : Mem (Expr × Op)} (hz : 0 < ty.size) (hf : Fresh mem) {s : S}
    {res : PResult S (Expr × StopReason S Op EOp ETerm) (Either EOp ETerm)} {evs : List (BinEvent T Op Expr)}
    (h : BinReachPanicking panics b ty term op mk ofTerm prec (.first mem s) (.ret mem' res) evs) :
    (drops evs).any panics = false ∧ (∀ q, mem'.blocks q = mem.blocks q) ∧
      Accounts mk ofTerm (drops evs ++ heldBy res) (reads evs) := by
  refine ⟨?_, C92_to_the_end hz hf (reachPanicking hz hf h)⟩
  have all : ∀ {st evs}, BinReachPanicking panics b ty term op mk ofTerm prec (.first mem s) st evs →
      (drops evs).any panics = false := by
    intro st evs h
    induction h with
    | refl => rfl
    | step hr hs ih =>
      obtain ⟨l, h1, -⟩ := reach_sound hz hf (reachPanicking hz hf hr)
      rw [drops_append, List.any_append, ih, ((stepPanicking_next hf h1).mp hs).2]
      rfl
  exact all h

/-! ### A block is leaked -/

/-- `x`, for which its place in the text stands: the number of characters from there on. -/
def numbered (s : StrRef) : Run (PResult StrRef Nat (Miss Unit)) := do
  match ← xTerm.parse s with
  | .ok _ r => return .ok (content s).length r
  | .err e r => return .err e r

/-- What steps with it come to. -/
abbrev NumberedOutcome := BinOutcome StrRef Nat Arrow (Miss Unit) (Miss Unit) (BTree Arrow Nat)

theorem arrowTail_length (n : Nat) : (arrowTail n).length = 2 * n := by
  induction n with
  | zero => rfl
  | succ n ih => simp [arrowTail, ih]; omega

section
variable {pan : BinVal Nat Arrow (BTree Arrow Nat) → Bool}

/-- From waiting for an operator before `>x`, to the same place after it, with one more pair on the stack. -/
theorem numbered_turn (b : Build) {l : List (BTree Arrow Nat × Arrow)} (hl : l.length ≤ 100)
    {w : World (BTree Arrow Nat × Arrow)} {rhs : BTree Arrow Nat} {s : StrRef} {n : Nat}
    {st₀ : BinState StrRef Nat Arrow (Miss Unit) (Miss Unit) (BTree Arrow Nat)} {evs : List (BinEvent Nat Arrow (BTree Arrow Nat))}
    (hw : (BinStore.stack w).Keeps ⟨8, 8⟩ Mem.blank l) (hs : content s = arrowTail (n + 1))
    (h : BinReachPanicking pan b ⟨8, 8⟩ numbered arrowOp.parse BTree.node BTree.leaf 0 st₀ (.atOp w rhs s) evs) :
    ∃ w' s' evs', content s' = arrowTail n ∧ (BinStore.stack w').Keeps ⟨8, 8⟩ Mem.blank (l ++ [(rhs, ⟨⟩)]) ∧
      BinReachPanicking pan b ⟨8, 8⟩ numbered arrowOp.parse BTree.node BTree.leaf 0 st₀ (.atOp w' (.leaf (2 * n + 1)) s') evs' := by
  obtain ⟨r, h1, c1⟩ := (C10_the_char '>' s).1 ('x' :: arrowTail n) hs
  obtain ⟨s', h2, c2⟩ := (C10_the_char 'x' r).1 (arrowTail n) c1
  have h1' : arrowOp.parse s = pure (.ok ⟨⟩ r) := by simp [arrowOp, Parser.map, h1]
  have h2' : numbered r = pure (.ok (2 * n + 1) s') := by
    have h2 : xTerm.parse r = pure (.ok () s') := h2
    simp [numbered, h2, c1, arrowTail_length]
  have hpush : ∀ (l' : List (BTree Arrow Nat × Arrow)) (w : World (BTree Arrow Nat × Arrow)) item, l'.length ≤ 100 →
      (BinStore.stack w).Keeps ⟨8, 8⟩ Mem.blank l' →
      ∃ w', w.exec (push b ⟨8, 8⟩ item) = pure ((), w') ∧ (BinStore.stack w').Keeps ⟨8, 8⟩ Mem.blank (l' ++ [item]) := by
    rintro l' w item hl' ⟨h3, w₀, h4, h5, h6, h7⟩
    rcases exec_push (b := b) h3 h7.fresh item (h7.sameN.trans h6) (.inl (by decide)) with ⟨w', h8, h9, h10, -⟩ | ⟨f, -, h8, -⟩
    · exact ⟨w', h8, h9, w₀, h4, h5, h6, h7.trans h10⟩
    · exfalso
      rcases h8 with ⟨-, k, h8⟩ | ⟨-, h8⟩
      · rw [h7.grants, h4] at h8; simp [Mem.blank] at h8
      · refine h8 ⟨?_, ?_⟩
        · have : 200 ≤ isizeMax := by decide
          omega
        · have : 1600 ≤ isizeMax - (8 - 1) := by decide
          show 8 * (2 * l'.length) ≤ isizeMax - (8 - 1)
          omega
  have hr := h.step (show _ = (pure (.next (.gotOp w rhs (anchor s) ⟨⟩ r) [.readOp ⟨⟩]) : Run NumberedOutcome) by
    simp [BinState.stepPanicking, BinState.step, h1'])
  have hr := hr.step (show _ = (pure (.next (.atTerm w rhs (anchor s) ⟨⟩ r) []) : Run NumberedOutcome) by simp [BinState.stepPanicking, BinState.step])
  have hr := hr.step (show _ = (pure (.next (.convertTerm w rhs ⟨⟩ (2 * n + 1) s') [.readTerm (2 * n + 1)]) : Run NumberedOutcome) by
    simp [BinState.stepPanicking, BinState.step, h2'])
  have hr := hr.step (show _ = (pure (.next (.inner w rhs ⟨⟩ (.leaf (2 * n + 1)) s') []) : Run NumberedOutcome) by
    simp [BinState.stepPanicking, BinState.step])
  rcases Keeps.pop hw with ⟨rfl, w₁, h3, h4⟩ | ⟨l', ⟨lhs, lastOp⟩, rfl, w₁, h3, h4⟩
  · have hr := hr.step (show _ = (pure (.next (.push w₁ rhs ⟨⟩ (.leaf (2 * n + 1)) s') []) : Run NumberedOutcome) by
      simp [BinState.stepPanicking, BinState.step, h3])
    obtain ⟨w₂, h5, h6⟩ := hpush _ w₁ (rhs, ⟨⟩) (by simp) h4
    have hr := hr.step (show _ = (pure (.next (.atOp w₂ (.leaf (2 * n + 1)) s') []) : Run NumberedOutcome) by
      simp [BinState.stepPanicking, BinState.step, h5])
    exact ⟨w₂, s', _, c2, h6, hr⟩
  · have hr := hr.step (show _ = (pure (.next (.compare w₁ lhs lastOp rhs ⟨⟩ (.leaf (2 * n + 1)) s') []) : Run NumberedOutcome) by
      simp [BinState.stepPanicking, BinState.step, h3])
    have hr := hr.step (show _ = (pure (.next (.pushBack w₁ lhs lastOp rhs ⟨⟩ (.leaf (2 * n + 1)) s') []) : Run NumberedOutcome) by
      simp [BinState.stepPanicking, BinState.step, nextPrecedence, associativity, precedence])
    simp only [List.length_append, List.length_singleton] at hl
    obtain ⟨w₂, h5, h6⟩ := hpush _ w₁ (lhs, lastOp) (by omega) h4
    have hr := hr.step (show _ = (pure (.next (.push w₂ rhs ⟨⟩ (.leaf (2 * n + 1)) s') []) : Run NumberedOutcome) by
      simp [BinState.stepPanicking, BinState.step, h5])
    obtain ⟨w₃, h7, h8⟩ := hpush _ w₂ (rhs, ⟨⟩) (by simp; omega) h6
    have hr := hr.step (show _ = (pure (.next (.atOp w₃ (.leaf (2 * n + 1)) s') []) : Run NumberedOutcome) by
      simp [BinState.stepPanicking, BinState.step, h7])
    exact ⟨w₃, s', _, c2, h8, hr⟩

/-- Waiting for the next operator after `x>x>x>x>x>x`. -/
theorem numbered_reach (b : Build) : ∃ w s evs,
    (BinStore.stack w).Keeps ⟨8, 8⟩ Mem.blank
      [(BTree.leaf 11, Arrow.mk), (.leaf 9, ⟨⟩), (.leaf 7, ⟨⟩), (.leaf 5, ⟨⟩), (.leaf 3, ⟨⟩)] ∧ w.vec.isHeap = true ∧
    BinReachPanicking pan b ⟨8, 8⟩ numbered arrowOp.parse BTree.node BTree.leaf 0 (.first Mem.blank (arrows 5))
      (.atOp w (.leaf 1) s) evs := by
  obtain ⟨r, h1, c1⟩ := (C10_the_char 'x' (arrows 5)).1 (arrowTail 5) rfl
  have h1' : numbered (arrows 5) = pure (.ok 11 r) := by
    have h1 : xTerm.parse (arrows 5) = pure (.ok () r) := h1
    have hlen : (content (arrows 5)).length = 11 := rfl
    simp [numbered, h1, hlen]
  obtain ⟨vec, h2, h3, h4, h5⟩ := new_rel (ty := ⟨8, 8⟩) (mem := (Mem.blank : Mem (BTree Arrow Nat × Arrow)))
  have hr := (BinReachPanicking.refl (panics := pan) (b := b) (ty := ⟨8, 8⟩) (parserTerm := numbered)
    (parserOp := arrowOp.parse) (mk := BTree.node) (ofTerm := BTree.leaf) (prec := 0) (st := .first Mem.blank (arrows 5))).step
    (show _ = (pure (.next (.convert Mem.blank 11 r) [.readTerm 11]) : Run NumberedOutcome) by simp [BinState.stepPanicking, BinState.step, h1'])
  have hr := hr.step (show _ = (pure (.next (.atOp { vec, mem := Mem.blank } (.leaf 11) r) []) : Run NumberedOutcome) by
    simp [BinState.stepPanicking, BinState.step, h2])
  obtain ⟨w₁, s₁, _, c1, k1, hr⟩ := numbered_turn b (by simp) ⟨h3, { vec, mem := Mem.blank }, rfl, h5, h4, .refl fun _ _ => rfl⟩ c1 hr
  obtain ⟨w₂, s₂, _, c2, k2, hr⟩ := numbered_turn b (by simp) k1 c1 hr
  obtain ⟨w₃, s₃, _, c3, k3, hr⟩ := numbered_turn b (by simp) k2 c2 hr
  obtain ⟨w₄, s₄, _, c4, k4, hr⟩ := numbered_turn b (by simp) k3 c3 hr
  obtain ⟨w₅, s₅, evs, c5, k5, hr⟩ := numbered_turn b (by simp) k4 c4 hr
  refine ⟨w₅, s₅, evs, k5, ?_, hr⟩
  obtain ⟨h5, w₀, -, -, h6, h7⟩ := k5
  have hlen := h5.len
  have hle := h5.len_le
  have hn := h7.sameN
  simp only [List.length_append, List.length_cons, List.length_nil] at hlen
  simp only [SVec.isHeap, decide_eq_true_eq]
  omega

end

/-- The destructor of one operand panics: the one after which there are six more characters. -/
def sevenPanics : BinVal Nat Arrow (BTree Arrow Nat) → Bool
  | .expr (.leaf 7) => true
  | _ => false

/-- C127 in full does not hold: the future is dropped waiting for the next operator after `x>x>x>x>x>x`, the destructor of the
third operand panics, and the block of the stack is leaked. -/
theorem C127_false : ¬ C127Statement := by
  intro H
  obtain ⟨w, s, evs, h1, h2, h3⟩ := numbered_reach (pan := sevenPanics) .wrapping
  have hf : Fresh (Mem.blank : Mem (BTree Arrow Nat × Arrow)) := fun _ _ => rfl
  obtain ⟨m, h4, h5, -, h6⟩ := dropPanicking_stack (T := Nat) (panics := sevenPanics) hf h1 false [] [] [.expr (.leaf 1)]
  obtain ⟨vals, -, h7, h8⟩ := H _ _ _ _ _ _ .wrapping ⟨8, 8⟩ _ _ _ _ _ sevenPanics Mem.blank _ _ _ _ false (by decide) hf h3 rfl
  obtain ⟨-, hb, hh⟩ := Keeps.blocks hf h1
  obtain ⟨q, hq⟩ := hh.mp h2
  obtain ⟨hb1, hb2⟩ := hb q hq
  have hv : (([] ++ [] ++ ownedPairs [(BTree.leaf 11, Arrow.mk), (.leaf 9, ⟨⟩), (.leaf 7, ⟨⟩), (.leaf 5, ⟨⟩), (.leaf 3, ⟨⟩)] ++
    [BinVal.expr (.leaf 1)] : List (BinVal Nat Arrow (BTree Arrow Nat))).filter sevenPanics).length = 1 := rfl
  rw [dropValues_one hv, Run.pure_bind'] at h4
  have hle : (false : Bool).toNat + (vals.filter sevenPanics).length ≤ 1 := by
    refine Nat.le_of_not_lt fun hlt => ?_
    have h9 := h7 hlt
    rw [h4] at h9
    simp at h9
  obtain ⟨mem', h9, h10⟩ := h8 hle
  rw [h4] at h9
  simp only [Run.pure_inj', Prod.mk.injEq] at h9
  have h11 := h10 m h9.2.1.symm q
  rw [h6 (by simp [ownedPairs, sevenPanics]), hb1] at h11
  exact hb2 h11

/-- Non-vacuity of C127: at that place the third of eleven values panics, and all eleven are dropped; with two that panic the
process is aborted. -/
example (b : Build) : ∃ w s evs c,
    BinReachPanicking sevenPanics b ⟨8, 8⟩ numbered arrowOp.parse BTree.node BTree.leaf 0 (.first Mem.blank (arrows 5))
      (.atOp w (.leaf 1) s) evs ∧
    (BinState.atOp w (.leaf 1) s : BinState StrRef Nat Arrow (Miss Unit) (Miss Unit) (BTree Arrow Nat)).cut b ⟨8, 8⟩ = some c ∧
    (∃ m vals, c.dropPanicking sevenPanics ⟨8, 8⟩ false = pure (true, some m, vals) ∧ vals.length = 11) ∧
    c.dropPanicking sevenPanics ⟨8, 8⟩ true = Run.fault .abort := by
  obtain ⟨w, s, evs, h1, h2, h3⟩ := numbered_reach (pan := sevenPanics) b
  have hf : Fresh (Mem.blank : Mem (BTree Arrow Nat × Arrow)) := fun _ _ => rfl
  refine ⟨w, s, evs, _, h3, rfl, ?_, ?_⟩
  · obtain ⟨m, h4, -⟩ := dropPanicking_stack (T := Nat) (panics := sevenPanics) hf h1 false [] [] [.expr (.leaf 1)]
    exact ⟨m, _, by rw [h4]; rfl, rfl⟩
  · obtain ⟨m, h4, -⟩ := dropPanicking_stack (T := Nat) (panics := sevenPanics) hf h1 true [] [] [.expr (.leaf 1)]
    rw [h4]; rfl

end Parcom
