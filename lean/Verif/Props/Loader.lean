import Verif.Lemmas.Loader
import Verif.Model.IteratorSource
/-!
# C53–C59, C70, C77: the generic sequence
-/
namespace Parcom
open Spec
variable {T E : Type}

/-! ## Pushing into the loader's writer -/

/-- One push: `push_item` compares the items written with the room that is left, not with the whole room. -/
theorem request_push (env : Env) {toAppend : RawVec T} {pre : List T} {w : Request T} {xs : List T} {room : Nat}
    (h : RequestView toAppend pre w xs room) (x : T) :
    (2 * xs.length = room → (requestBufferWriter env (E := E)).pushItem w x = Run.ret (some x, w)) ∧
    (2 * xs.length ≠ room → xs.length < room → ∃ w', (requestBufferWriter env (E := E)).pushItem w x = Run.ret (none, w') ∧
      RequestView toAppend pre w' (xs ++ [x]) room) ∧
    (2 * xs.length ≠ room → ¬ xs.length < room → (requestBufferWriter env (E := E)).pushItem w x = Run.fault .ub) := by
  have L := request_lawful (E := E) env toAppend pre
  have hf := L.fits h
  obtain ⟨l1, l2, l3⟩ := L.pushItem h (request_capacity env h) x
  exact ⟨fun e => l1 (by omega), fun e => l2 (by omega), fun e => l3 (by omega)⟩

/-- C53, exactly, for a writer with room for `room` items. If `room` is even, half of it is accepted and everything else
refused. If it is odd, nothing is ever refused, and the push after the room is used up writes outside the buffer. -/
theorem C53_exact (env : Env) {toAppend : RawVec T} {pre : List T} {w : Request T} {room : Nat}
    (h : RequestView toAppend pre w [] room) (ys : List T) :
    (room % 2 = 0 → ∃ w', pushAll (requestBufferWriter env (E := E)) w ys =
      Run.ret (List.replicate (min ys.length (room / 2)) true ++ List.replicate (ys.length - room / 2) false, w')) ∧
    (room % 2 = 1 → ys.length ≤ room → ∃ w', pushAll (requestBufferWriter env (E := E)) w ys =
      Run.ret (List.replicate ys.length true, w')) ∧
    (room % 2 = 1 → room < ys.length → pushAll (requestBufferWriter env (E := E)) w ys = Run.fault .ub) := by
  have even : ∀ (ys xs : List T) (w : Request T), RequestView toAppend pre w xs room → room % 2 = 0 → xs.length ≤ room / 2 →
      ∃ w', pushAll (requestBufferWriter env (E := E)) w ys = Run.ret (List.replicate (min ys.length (room / 2 - xs.length)) true ++
        List.replicate (ys.length - (room / 2 - xs.length)) false, w') := by
    intro ys
    induction ys with
    | nil => intro xs w _ _ _; exact ⟨w, by simp [pushAll, Run.pure_eq]⟩
    | cons y ys ih =>
      intro xs w hw hr hx
      obtain ⟨l1, l2, -⟩ := request_push (E := E) env hw y
      by_cases hfull : 2 * xs.length = room
      · obtain ⟨w', e⟩ := ih xs w hw hr hx
        refine ⟨w', ?_⟩
        simp only [pushAll, l1 hfull, Run.ret_bind, e]
        rw [show room / 2 - xs.length = 0 by omega]
        simp [List.replicate_succ]
      · obtain ⟨w₁, e₁, hw₁⟩ := l2 hfull (by omega)
        obtain ⟨w', e⟩ := ih (xs ++ [y]) w₁ hw₁ hr (by simp only [List.length_append, List.length_cons, List.length_nil]; omega)
        refine ⟨w', ?_⟩
        simp only [pushAll, e₁, Run.ret_bind, e, List.length_append, List.length_cons, List.length_nil]
        rw [show min (ys.length + 1) (room / 2 - xs.length) = min ys.length (room / 2 - (xs.length + (0 + 1))) + 1 by omega,
          show ys.length + 1 - (room / 2 - xs.length) = ys.length - (room / 2 - (xs.length + (0 + 1))) by omega]
        simp [List.replicate_succ]
  have odd : ∀ (ys xs : List T) (w : Request T), RequestView toAppend pre w xs room → room % 2 = 1 →
      (xs.length + ys.length ≤ room → ∃ w', pushAll (requestBufferWriter env (E := E)) w ys =
        Run.ret (List.replicate ys.length true, w')) ∧
      (room < xs.length + ys.length → pushAll (requestBufferWriter env (E := E)) w ys = Run.fault .ub) := by
    intro ys
    induction ys with
    | nil =>
      intro xs w hw _
      have := (request_lawful (E := E) env toAppend pre).fits hw
      exact ⟨fun _ => ⟨w, rfl⟩, fun h => by simp only [List.length_nil] at h; omega⟩
    | cons y ys ih =>
      intro xs w hw hr
      obtain ⟨-, l2, l3⟩ := request_push (E := E) env hw y
      by_cases hlt : xs.length < room
      · obtain ⟨w₁, e₁, hw₁⟩ := l2 (by omega) hlt
        have hl : (xs ++ [y]).length = xs.length + 1 := by simp
        obtain ⟨i1, i2⟩ := ih (xs ++ [y]) w₁ hw₁ hr
        rw [hl] at i1 i2
        constructor
        · intro hle
          simp only [List.length_cons] at hle
          obtain ⟨w', e⟩ := i1 (by omega)
          exact ⟨w', by simp only [pushAll, e₁, Run.ret_bind, e]; simp [List.replicate_succ]⟩
        · intro hlt'
          simp only [List.length_cons] at hlt'
          simp only [pushAll, e₁, Run.ret_bind, i2 (by omega), Run.fault_bind]
      · constructor
        · intro hle; simp only [List.length_cons] at hle; omega
        · intro _
          simp only [pushAll, l3 (by omega) hlt, Run.fault_bind]
  refine ⟨fun hr => ?_, fun hr hle => (odd ys [] w h hr).1 (by simpa using hle), fun hr hlt => (odd ys [] w h hr).2 (by simpa using hlt)⟩
  have := even ys [] w h hr (Nat.zero_le _)
  simpa using this

/-- C53 in full: a writer obtained for `n` items accepts `n` items, and pushing never goes outside the buffer. -/
def C53Statement : Prop := ∀ (T E : Type) (env : Env) (buf : RawVec T) (pend : List T) (n : Nat) (w : Request T),
  LawfulEnv env → Holds buf pend → Control.requestWriter env { buf := buf } n = Run.ret w →
  (∀ ys, ys.length ≤ n → ∃ w', pushAll (requestBufferWriter env (E := E)) w ys = Run.ret (List.replicate ys.length true, w')) ∧
  ∀ ys, pushAll (requestBufferWriter env (E := E)) w ys ≠ Run.fault .ub

/-- The simplest strategy and allocator. -/
def plainEnv : Env where
  build := .checked
  calcCapacity n := pure n
  withCapacity n := pure n
  newCapacity := 0

theorem plainEnv_lawful : LawfulEnv plainEnv where
  strategy n c h := by simp [plainEnv] at h; omega
  alloc n c h := by simp [plainEnv] at h; omega

/-- C53 does not hold: of two items asked for, the second is refused. -/
theorem C53_false : ¬ C53Statement := by
  intro h
  have hv : RequestView (.empty 0) [] ({ toAppend := .empty 0, buf := .empty 2, offset := 0 } : Request Nat) [] 2 :=
    ⟨rfl, rfl, holds_empty 2, rfl⟩
  obtain ⟨w', e⟩ := (h Nat Unit plainEnv (.empty 0) [] 2 _ plainEnv_lawful (holds_empty 0) rfl).1 [1, 2] (Nat.le_refl _)
  obtain ⟨w'', e'⟩ := (C53_exact (E := Unit) plainEnv hv [1, 2]).1 rfl
  rw [e] at e'
  simp [List.replicate] at e'

/-- C53, the other half: writing outside the buffer, with one item asked for and two pushed. -/
theorem C53_writes_outside : ∃ w, Control.requestWriter plainEnv ({ buf := .empty 0 } : Control Nat) 1 = Run.ret w ∧
    pushAll (requestBufferWriter plainEnv (E := Unit)) w [1, 2] = Run.fault .ub := by
  have hv : RequestView (.empty 0) [] ({ toAppend := .empty 0, buf := .empty 1, offset := 0 } : Request Nat) [] 1 :=
    ⟨rfl, rfl, holds_empty 1, rfl⟩
  exact ⟨_, rfl, (C53_exact (E := Unit) plainEnv hv [1, 2]).2.2 rfl (by decide)⟩

/-- What a writer obtained for `n` items has room for. -/
theorem request_room {env : Env} (hl : LawfulEnv env) {buf : RawVec T} {pend : List T} {n : Nat} {w : Request T} (hb : Holds buf pend)
    (he : Control.requestWriter env { buf := buf } n = Run.ret w) :
    ∃ toAppend pre room, RequestView toAppend pre w [] room ∧ n ≤ room := by
  rcases requestWriter_cases hb he with ⟨hfit, hv⟩ | ⟨_, c, got, hc, hg, hv⟩
  · exact ⟨_, _, _, hv, by omega⟩
  · exact ⟨_, _, _, hv, Nat.le_trans (hl.strategy _ _ hc) (hl.alloc _ _ hg)⟩

/-- C53, what is true: half the items asked for (rounded up) are accepted, and as long as no more are pushed than asked
for, nothing is written outside the buffer. Missing: the other half, and pushing more. -/
theorem C53_partial {env : Env} (hl : LawfulEnv env) {buf : RawVec T} {pend : List T} {n : Nat} {w : Request T} (hb : Holds buf pend)
    (he : Control.requestWriter env { buf := buf } n = Run.ret w) (ys : List T) :
    (2 * ys.length ≤ n + 1 → ∃ w', pushAll (requestBufferWriter env (E := E)) w ys = Run.ret (List.replicate ys.length true, w')) ∧
    (ys.length ≤ n → ∃ rs w', pushAll (requestBufferWriter env (E := E)) w ys = Run.ret (rs, w')) := by
  obtain ⟨toAppend, pre, room, hv, hr⟩ := request_room hl hb he
  obtain ⟨h1, h2, -⟩ := C53_exact (E := E) env hv ys
  rcases Nat.mod_two_eq_zero_or_one room with hm | hm
  · obtain ⟨w', e⟩ := h1 hm
    refine ⟨fun hle => ⟨w', ?_⟩, fun _ => ⟨_, w', e⟩⟩
    rw [e, show min ys.length (room / 2) = ys.length by omega, show ys.length - room / 2 = 0 by omega]
    simp
  · exact ⟨fun hle => h2 hm (by omega), fun hle => let ⟨w', e⟩ := h2 hm (by omega); ⟨_, w', e⟩⟩

/-- `spare_capacity` too subtracts what is written twice: it offers less than there is, and panics (or goes outside the
buffer, without overflow checks) when more than half is written. -/
theorem C53_spare_capacity (env : Env) {toAppend : RawVec T} {pre : List T} {w : Request T} {xs : List T} {room : Nat}
    (h : RequestView toAppend pre w xs room) :
    (2 * xs.length ≤ room → (requestBufferWriter env (E := E)).spareCapacity env.build w = Run.ret (xs.length, room - 2 * xs.length)) ∧
    (room < 2 * xs.length → env.build = .checked →
      (requestBufferWriter env (E := E)).spareCapacity env.build w = Run.fault .overflow) ∧
    (room < 2 * xs.length → env.build = .wrapping → w.buf.cap ≤ usizeMax →
      (requestBufferWriter env (E := E)).spareCapacity env.build w = Run.fault .ub) := by
  have L := request_lawful (E := E) env toAppend pre
  have hf := L.fits h
  have hcap := h.room
  unfold BufferWriter.spareCapacity
  rw [L.len h, Run.ret_bind, request_capacity env h, Run.ret_bind]
  refine ⟨fun hle => ?_, fun hlt hb => ?_, fun hlt hb hmax => ?_⟩
  · rw [usizeSub_ret _ (by omega), Run.ret_bind]
    have : (requestBufferWriter env (T := T) (E := E)).within w xs.length (room - xs.length - xs.length) = Run.ret () := by
      refine if_pos ?_
      rw [h.offset, hcap]; omega
    rw [this, Run.ret_bind, show room - xs.length - xs.length = room - 2 * xs.length by omega]
    rfl
  · rw [hb, usizeSub_checked (by omega)]
    rfl
  · rw [hb, usizeSub_wrapping (by omega), Run.ret_bind]
    generalize hm : usizeMax = m at hmax ⊢
    have : (requestBufferWriter env (T := T) (E := E)).within w xs.length (room - xs.length + (m + 1) - xs.length) =
        Run.fault .ub := by
      refine if_neg ?_
      rw [h.offset, hcap]
      rw [hcap] at hmax
      omega
    rw [this]
    rfl

/-! ## Conservation -/

/-- C55: as long as no load fails or is dropped, what is visible followed by what is pending is what was accepted. -/
theorem C55_conservation {b : Build} {ms : List (Move T E)} {s : Loading T E} (h : Reaches b ms s) (hok : AllOk s.log) :
    ∃ pend, Pending s pend ∧ committedOf s.log ++ pend = acceptedOf s.log := by
  refine (reaches_induction (P := fun s => AllOk s.log → ∃ pend, Pending s pend ∧ committedOf s.log ++ pend = acceptedOf s.log)
    ?_ ?_ h).2 hok
  · intro c _; exact ⟨[], holds_empty c, rfl⟩
  · intro s s' m hi ih he hok
    have hcut : ∀ l, s'.log = s.log ++ l → AllOk s.log := fun l e told r hm => hok told r (by rw [e]; exact List.mem_append_left _ hm)
    have same : s'.loader = s.loader → s'.log = s.log → ∃ pend, Pending s' pend ∧ committedOf s'.log ++ pend = acceptedOf s'.log := by
      intro e1 e2
      obtain ⟨pend, hp, hcons⟩ := ih (hcut [] (by simpa using e2))
      exact ⟨pend, by unfold Pending; rw [e1]; exact hp, by rw [e2]; exact hcons⟩
    have one : ∀ o, s'.loader = s.loader → s'.log = s.log ++ [o] → segmentsOf [o] = [] → acceptedOf [o] = [] →
        ∃ pend, Pending s' pend ∧ committedOf s'.log ++ pend = acceptedOf s'.log := by
      intro o e1 e2 e3 e4
      obtain ⟨pend, hp, hcons⟩ := ih (hcut [o] e2)
      refine ⟨pend, by unfold Pending; rw [e1]; exact hp, ?_⟩
      rw [e2, committedOf, segmentsOf_append, acceptedOf_append, e3, e4, List.append_nil, List.append_nil]
      exact hcons
    cases m with
    | load env script =>
      obtain ⟨pend, hp⟩ := hi.pending
      obtain ⟨r, told, log, hc, hlog, ⟨l, rfl, hl⟩, hcom⟩ := move_load_committed hi hp he
      obtain ⟨info, rfl⟩ := hok told r (by rw [hlog]; simp)
      obtain ⟨pend₁, hp₁, hcons⟩ := ih (hcut _ (by rw [hlog, List.append_assoc]))
      rw [← hp.unique hp₁] at hcons
      have hquiet : acceptedOf l = [] := by
        clear hlog
        induction l with
        | nil => rfl
        | cons o l ihl =>
          have := ihl fun t r h => hl t r (List.mem_cons_of_mem _ h)
          cases o with
          | loaded t r => exact absurd List.mem_cons_self (hl t r)
          | _ => exact this
      have eacc : acceptedOf s'.log = acceptedOf s.log ++ told := by
        rw [hlog, acceptedOf_append, acceptedOf_append, hquiet]; simp [acceptedOf]
      rw [eacc, ← hcons]
      unfold Pending
      clear hlog eacc same one hcut he hok
      generalize s'.loader = sl at hc ⊢
      generalize committedOf s'.log = com at hcom ⊢
      generalize s'.cells = sc at hc hcom
      cases hc with
      | append _ hh _ =>
        rcases hcom with ⟨-, e⟩ | ⟨e, -⟩
        · exact ⟨pend ++ told, hh, by simp [e]⟩
        · exact absurd rfl e
      | fresh _ hn hh =>
        rcases hcom with ⟨-, e⟩ | ⟨e, -⟩
        · exact ⟨told, hh, by simp [e, hn]⟩
        · exact absurd rfl e
      | switch _ _ hh e0 =>
        rcases hcom with ⟨e, -⟩ | ⟨-, e⟩
        · exact absurd e (commitTo_ne hi.cells e0)
        · exact ⟨told, hh, by rw [e]⟩
      | finish e0 =>
        rcases hcom with ⟨e, -⟩ | ⟨-, e⟩
        · exact absurd e (commitTo_ne hi.cells e0)
        · exact ⟨[], holds_empty _, by simp [e]⟩
    | forceCommit env =>
      obtain ⟨pend, hp⟩ := hi.pending
      obtain ⟨s₁, e, hp', -, -, -, hlog⟩ := move_forceCommit (b := b) (env := env) hi hp
      rw [e] at he
      simp at he
      subst he
      obtain ⟨pend₁, hp₁, hcons⟩ := ih (hcut _ hlog)
      rw [← hp.unique hp₁] at hcons
      refine ⟨[], hp', ?_⟩
      rw [hlog, committedOf, segmentsOf_append, acceptedOf_append, ← hcons]
      simp [segmentsOf, acceptedOf, committedOf]
    | advance length =>
      simp only [Loading.move] at he
      split at he <;> (simp at he; subst he; exact same rfl rfl)
    | get =>
      simp only [Loading.move] at he
      split at he
      · obtain ⟨turn, -, he⟩ := Run.bind_eq_ret.mp he
        rcases turn with ⟨k, c⟩ | ⟨k, c⟩ <;> simp only [Run.pure_eq_ret] at he <;> subst he
        · exact one _ rfl rfl rfl rfl
        · exact same rfl rfl
      · simp at he; subst he; exact same rfl rfl
    | segments =>
      simp only [Loading.move] at he
      split at he <;> (simp at he; subst he)
      · exact one _ rfl rfl rfl rfl
      · exact same rfl rfl
    | next =>
      simp only [Loading.move] at he
      split at he
      · obtain ⟨⟨o, c⟩, -, he⟩ := Run.bind_eq_ret.mp he
        cases o <;> simp at he <;> subst he <;> exact one _ rfl rfl rfl rfl
      · simp at he; subst he; exact same rfl rfl
    | dropIter =>
      simp only [Loading.move] at he
      split at he <;> (simp at he; subst he; exact same rfl rfl)

/-- C55: nothing becomes visible that was not accepted, or out of order. -/
theorem C55_in_order {b : Build} {ms : List (Move T E)} {s : Loading T E} (h : Reaches b ms s) (hok : AllOk s.log) :
    committedOf s.log <+: acceptedOf s.log := by
  obtain ⟨pend, -, e⟩ := C55_conservation h hok
  exact ⟨pend, e⟩

/-- C55: after `force_commit` everything accepted is visible. -/
theorem C55_force_commit {b : Build} {ms : List (Move T E)} {env : Env} {s : Loading T E}
    (h : Reaches b (ms ++ [.forceCommit env]) s) (hok : AllOk s.log) : committedOf s.log = acceptedOf s.log := by
  obtain ⟨pend, hp, e⟩ := C55_conservation h hok
  obtain ⟨c, h⟩ := h
  obtain ⟨s₁, h1, h2⟩ := run_append.mp h
  rw [run_single] at h2
  have hi := inv_reaches ⟨c, h1⟩
  obtain ⟨pend₁, hp₁⟩ := hi.pending
  obtain ⟨s₂, e₂, hp₂, -⟩ := move_forceCommit (b := b) (env := env) hi hp₁
  rw [e₂] at h2
  simp at h2
  subst h2
  rw [← e, hp.unique hp₂, List.append_nil]

/-- C55: when a load reports the end, everything accepted is visible. -/
theorem C55_finished {b : Build} {ms : List (Move T E)} {env : Env} {script : Script T E} {s : Loading T E} {log : List (Obs T E)}
    {told : List T} {info : LoadInfo} (h : Reaches b (ms ++ [.load env script]) s) (hok : AllOk s.log)
    (hl : s.log = log ++ [.loaded told (some (.ok info))]) (hd : info.isDone = true) : committedOf s.log = acceptedOf s.log := by
  obtain ⟨pend, hp, e⟩ := C55_conservation h hok
  obtain ⟨c, h⟩ := h
  obtain ⟨s₁, h1, h2⟩ := run_append.mp h
  rw [run_single] at h2
  have hi := inv_reaches ⟨c, h1⟩
  obtain ⟨pend₁, hp₁⟩ := hi.pending
  obtain ⟨r, told', hc, -, -, hlog⟩ := move_load hi hp₁ h2
  have hr : r = some (.ok info) := by
    rcases hlog with ⟨-, -, e'⟩ | ⟨-, e'⟩ <;> rw [e'] at hl <;> have := (List.append_inj' hl rfl).2 <;> simp at this <;> exact this.2
  have hnil : Pending s [] := by
    unfold Pending
    rw [hr] at hc
    clear hlog hl hp
    generalize s.loader = sl at hc ⊢
    generalize s.cells = sc at hc
    cases hc with
    | append | fresh | switch => simp [LoadInfo.new] at hd
    | finish _ => exact holds_empty _
  rw [← e, hp.unique hnil, List.append_nil]

/-! ## LoadInfo -/

/-- C57: what a load reports. -/
theorem C57_truthful {b : Build} {ms : List (Move T E)} {s s' : Loading T E} {env : Env} {script : Script T E} {log : List (Obs T E)}
    {told : List T} {info : LoadInfo} (h : Reaches b ms s) (he : s.move b (.load env script) = Run.ret s')
    (hl : s'.log = log ++ [.loaded told (some (.ok info))]) :
    (committedOf s'.log).length = (committedOf s.log).length + info.commited ∧
    (∃ pend, Pending s' pend ∧ info.uncommited = pend.length) ∧
    info.uncommited ≤ info.bufferCapacity ∧
    (info.isDone = false → info.bufferCapacity = s'.loader.buf.cap) ∧
    (info.isDone = true → info.uncommited = 0 ∧ info.bufferCapacity = 0 ∧ Pending s' []) := by
  have hi := inv_reaches h
  obtain ⟨pend, hp⟩ := hi.pending
  obtain ⟨r, told', hc, -, -, hlog⟩ := move_load hi hp he
  have hr : r = some (.ok info) := by
    rcases hlog with ⟨-, -, e'⟩ | ⟨-, e'⟩ <;> rw [e'] at hl <;> have := (List.append_inj' hl rfl).2 <;> simp at this <;> exact this.2
  subst hr
  have hcom : (s'.cells = s.cells ∧ committedOf s'.log = committedOf s.log) ∨
      (s'.cells.get s.loader.tail ≠ none ∧ committedOf s'.log = committedOf s.log ++ pend) := by
    rcases hlog with ⟨e0, -, e'⟩ | ⟨e0, e'⟩
    · exact .inl ⟨e0, by rw [e', committedOf, segmentsOf_append]; simp [segmentsOf, committedOf]⟩
    · refine .inr ⟨?_, by rw [e', committedOf, segmentsOf_append, segmentsOf_append]; simp [segmentsOf, committedOf]⟩
      rw [commitTo_ret hi.cells] at e0
      simp only [Run.ret_inj, Prod.mk.injEq] at e0
      rw [← e0.1]; simp
  have hset : ∀ {h' : Cells T} {t' : Nat}, commitTo s.cells s.loader.tail s.loader.buf = Run.ret (h', t') → h' ≠ s.cells := by
    intro h' t' e0 e1
    rw [commitTo_ret hi.cells] at e0
    simp only [Run.ret_inj, Prod.mk.injEq] at e0
    rw [← e0.1] at e1
    have := congrArg (fun h : Cells T => h.get s.loader.tail) e1
    simp [hi.cells.unset] at this
  unfold Pending
  clear hlog hl
  generalize hsl : s'.loader = sl at hc ⊢
  generalize hsc : s'.cells = sc at hc hcom
  generalize committedOf s'.log = com at hcom ⊢
  have hu := hi.cells.unset
  cases hc with
  | append _ hh _ =>
    rcases hcom with ⟨-, e⟩ | ⟨e, -⟩
    · refine ⟨by rw [e]; rfl, ⟨_, hh, rfl⟩, ?_, fun _ => rfl, by simp [LoadInfo.new]⟩
      exact hh.fits
    · exact absurd hu e
  | fresh _ _ hh =>
    rcases hcom with ⟨-, e⟩ | ⟨e, -⟩
    · refine ⟨by rw [e]; rfl, ⟨_, hh, rfl⟩, ?_, fun _ => rfl, by simp [LoadInfo.new]⟩
      exact hh.fits
    · exact absurd hu e
  | switch _ _ hh e0 =>
    rcases hcom with ⟨e, -⟩ | ⟨-, e⟩
    · exact absurd e (hset e0)
    · refine ⟨by rw [e, List.length_append]; rfl, ⟨_, hh, rfl⟩, ?_, fun _ => rfl, by simp [LoadInfo.new]⟩
      exact hh.fits
  | finish e0 =>
    rcases hcom with ⟨e, -⟩ | ⟨-, e⟩
    · exact absurd e (hset e0)
    · exact ⟨by rw [e, List.length_append]; rfl, ⟨[], holds_empty _, rfl⟩, Nat.le_refl _, by simp [LoadInfo.done],
        fun _ => ⟨rfl, rfl, holds_empty _⟩⟩

/-- C57: what is pending is what `force_commit` would make visible. -/
theorem C57_pending_is_visible_next {b : Build} {ms : List (Move T E)} {s : Loading T E} {env : Env} {pend : List T} (h : Reaches b ms s)
    (hp : Pending s pend) : ∃ s', s.move b (.forceCommit env) = Run.ret s' ∧ committedOf s'.log = committedOf s.log ++ pend := by
  obtain ⟨s', e, -, -, -, -, hl⟩ := move_forceCommit (b := b) (env := env) (inv_reaches h) hp
  exact ⟨s', e, by rw [hl, committedOf, segmentsOf_append]; simp [segmentsOf, committedOf]⟩

/-! ## Cancelled and dropped loads -/

/-- The script asks for no more room than there is behind the pending items. -/
def FitsBuffer (s : Loading T E) (pend : List T) : Script T E → Prop
  | .request n _ _ => pend.length + n ≤ s.loader.buf.cap
  | _ => True

/-- C56 in full: a cancelled load leaves what is pending, and what is visible. -/
def C56Statement : Prop := ∀ (T E : Type) (b : Build) (ms : List (Move T E)) (s s' : Loading T E) (env : Env) (script : Script T E)
  (log : List (Obs T E)) (told pend : List T) (e : E), LawfulEnv env → Reaches b ms s → s.move b (.load env script) = Run.ret s' →
  s'.log = log ++ [.loaded told (some (.error e))] → Pending s pend → Pending s' pend ∧ committedOf s'.log = committedOf s.log

/-- C56, exactly: what is pending survives a cancelled load iff the load did not ask for a new buffer. -/
theorem C56_exact {b : Build} {ms : List (Move T E)} {s s' : Loading T E} {env : Env} {script : Script T E} {log : List (Obs T E)}
    {told pend : List T} {e : E} (h : Reaches b ms s) (he : s.move b (.load env script) = Run.ret s')
    (hl : s'.log = log ++ [.loaded told (some (.error e))]) (hp : Pending s pend) :
    committedOf s'.log = committedOf s.log ∧ (FitsBuffer s pend script → Pending s' pend) ∧
    (¬ FitsBuffer s pend script → Pending s' []) := by
  have hi := inv_reaches h
  obtain ⟨r, told', hc, -, -, hlog⟩ := move_load hi hp he
  have hr : r = some (.error e) := by
    rcases hlog with ⟨-, -, e'⟩ | ⟨-, e'⟩ <;> rw [e'] at hl <;> have := (List.append_inj' hl rfl).2 <;> simp at this <;> exact this.2
  subst hr
  have hsame : s'.cells = s.cells := by
    generalize s'.cells = sc at hc ⊢
    generalize s'.loader = sl at hc
    cases hc <;> rfl
  refine ⟨?_, ?_⟩
  · rcases hlog with ⟨-, -, e'⟩ | ⟨e0, -⟩
    · rw [e', committedOf, segmentsOf_append]; simp [segmentsOf, committedOf]
    · rw [commitTo_ret hi.cells] at e0
      simp only [Run.ret_inj, Prod.mk.injEq] at e0
      rw [← e0.1] at hsame
      have := congrArg (fun h : Cells T => h.get s.loader.tail) hsame
      simp [hi.cells.unset] at this
  · unfold Pending at hp ⊢
    clear hlog hl hsame
    generalize s'.loader = sl at hc ⊢
    generalize s'.cells = sc at hc
    cases hc with
    | cancelWriter hf hh _ => exact ⟨fun _ => hh, fun hn => absurd hf hn⟩
    | cancelFresh hf hh =>
      refine ⟨fun hn => ?_, fun _ => hh⟩
      have hn : pend.length + _ ≤ s.loader.buf.cap := hn
      omega
    | cancel => exact ⟨fun _ => hp, fun hn => absurd trivial hn⟩

/-- C56, what is true: the load did not need a new buffer. Missing: loads that did. -/
theorem C56_partial {b : Build} {ms : List (Move T E)} {s s' : Loading T E} {env : Env} {script : Script T E} {log : List (Obs T E)}
    {told pend : List T} {e : E} (h : Reaches b ms s) (he : s.move b (.load env script) = Run.ret s')
    (hl : s'.log = log ++ [.loaded told (some (.error e))]) (hp : Pending s pend) (hf : FitsBuffer s pend script) :
    Pending s' pend ∧ committedOf s'.log = committedOf s.log :=
  have h := C56_exact h he hl hp
  ⟨h.2.1 hf, h.1⟩

/-! ## IteratorSource -/

/-- One call of `next` is a script, whatever the control. -/
theorem iteratorSource_is_script {C W R : Type} (b : Build) (S : SequenceControl C W T R E) (c : C) (chunks : List (List T)) (r : R)
    (rest : List (List T)) :
    IteratorSource.next S c chunks = Run.ret (r, rest) ↔
      rest = chunks.tail ∧ ∃ told, (IteratorSource.script chunks).run b S c = Run.ret (.done r, told) := by
  have push : ∀ (seg : List T) (w w' : W) (told : List T),
      pushIgnoring S.writer w seg = Run.ret w' ↔ ∃ told', runOps b S.writer w told (seg.map .push) = Run.ret (w', told') := by
    intro seg
    induction seg with
    | nil => intro w w' told; simp [pushIgnoring, runOps]
    | cons x seg ih =>
      intro w w' told
      simp only [pushIgnoring, List.map_cons, runOps, WriterOp.run, Run.bind_eq_ret, Prod.exists]
      constructor
      · rintro ⟨o, w₁, h1, h2⟩
        cases o with
        | none =>
          obtain ⟨told', h3⟩ := (ih w₁ w' (told ++ [x])).mp h2
          exact ⟨told', w₁, told ++ [x], ⟨none, w₁, h1, rfl⟩, h3⟩
        | some y =>
          obtain ⟨told', h3⟩ := (ih w₁ w' told).mp h2
          exact ⟨told', w₁, told, ⟨some y, w₁, h1, rfl⟩, h3⟩
      · rintro ⟨told', w₁, told₁, ⟨o, w₂, h1, h2⟩, h3⟩
        cases o with
        | none =>
          simp at h2
          obtain ⟨rfl, rfl⟩ := h2
          exact ⟨none, w₂, h1, (ih _ _ _).mpr ⟨told', h3⟩⟩
        | some y =>
          simp at h2
          obtain ⟨rfl, rfl⟩ := h2
          exact ⟨some y, w₂, h1, (ih _ _ _).mpr ⟨told', h3⟩⟩
  cases chunks with
  | nil =>
    simp only [IteratorSource.next, IteratorSource.script, Script.run, Run.bind_eq_ret, List.tail_nil]
    constructor
    · rintro ⟨r₁, h1, h2⟩
      simp at h2
      obtain ⟨rfl, rfl⟩ := h2
      exact ⟨rfl, [], r₁, h1, rfl⟩
    · rintro ⟨rfl, told, r₁, h1, h2⟩
      simp at h2
      obtain ⟨rfl, rfl⟩ := h2
      exact ⟨r₁, h1, rfl⟩
  | cons seg iter =>
    simp only [IteratorSource.next, IteratorSource.script, Script.run, Run.bind_eq_ret, List.tail_cons, Prod.exists]
    constructor
    · rintro ⟨w, h1, w₁, h2, r₁, h3, h4⟩
      simp at h4
      obtain ⟨rfl, rfl⟩ := h4
      obtain ⟨told, h5⟩ := (push seg w w₁ []).mp h2
      exact ⟨rfl, told, w, h1, w₁, told, h5, r₁, h3, rfl⟩
    · rintro ⟨rfl, told, w, h1, w₁, told₁, h2, r₁, h3, h4⟩
      simp at h4
      obtain ⟨rfl, rfl⟩ := h4
      exact ⟨w, h1, w₁, (push seg w w₁ []).mpr ⟨_, h2⟩, r₁, h3, rfl⟩

/-- How many of `n` pushed items a writer with room for `room` accepts (C53). -/
def stored (room n : Nat) : Nat := if room % 2 = 0 then min n (room / 2) else n

theorem runOps_push (env : Env) {toAppend : RawVec T} {pre : List T} {w : Request T} {xs : List T} {room : Nat}
    (h : RequestView toAppend pre w xs room) (b : Build) (ys : List T) :
    (room % 2 = 0 → xs.length ≤ room / 2 → ∃ w', runOps b (requestBufferWriter env (E := E)) w xs (ys.map .push) =
      Run.ret (w', xs ++ ys.take (room / 2 - xs.length))) ∧
    (room % 2 = 1 → xs.length + ys.length ≤ room → ∃ w', runOps b (requestBufferWriter env (E := E)) w xs (ys.map .push) =
      Run.ret (w', xs ++ ys)) := by
  induction ys generalizing w xs with
  | nil => exact ⟨fun _ _ => ⟨w, by simp [runOps, Run.pure_eq]⟩, fun _ _ => ⟨w, by simp [runOps, Run.pure_eq]⟩⟩
  | cons y ys ih =>
    obtain ⟨l1, l2, -⟩ := request_push (E := E) env h y
    have hl : (xs ++ [y]).length = xs.length + 1 := by simp
    constructor
    · intro hr hx
      by_cases hfull : 2 * xs.length = room
      · obtain ⟨w', e⟩ := (ih h).1 hr hx
        refine ⟨w', ?_⟩
        simp only [List.map_cons, runOps, WriterOp.run, l1 hfull, Run.ret_bind, Run.pure_bind', e]
        rw [show room / 2 - xs.length = 0 by omega]
        simp
      · obtain ⟨w₁, e₁, h₁⟩ := l2 hfull (by omega)
        obtain ⟨w', e⟩ := (ih h₁).1 hr (by rw [hl]; omega)
        refine ⟨w', ?_⟩
        simp only [List.map_cons, runOps, WriterOp.run, e₁, Run.ret_bind, Run.pure_bind', e]
        rw [hl, show room / 2 - xs.length = (room / 2 - (xs.length + 1)) + 1 by omega, List.take_succ_cons]
        simp
    · intro hr hx
      simp only [List.length_cons] at hx
      obtain ⟨w₁, e₁, h₁⟩ := l2 (by omega) (by omega)
      obtain ⟨w', e⟩ := (ih h₁).2 hr (by rw [hl]; omega)
      refine ⟨w', ?_⟩
      simp only [List.map_cons, runOps, WriterOp.run, e₁, Run.ret_bind, Run.pure_bind', e]
      simp

/-- A load returns if the source's part of it does: the loader has no way to fail. -/
theorem load_returns {b : Build} {s : Loading T E} {env : Env} {n : Nat} {ops : List (WriterOp T)} {w₀ w : Request T}
    {told pend : List T} (hi : Inv s) (hp : Pending s pend) (hreq : Control.requestWriter env { buf := s.loader.buf } n = Run.ret w₀)
    (hops : runOps env.build (requestBufferWriter env (E := E)) w₀ [] ops = Run.ret (w, told)) (fin : WriterEnd E) :
    ∃ s', s.move b (.load env (.request n ops fin)) = Run.ret s' := by
  obtain ⟨toAppend, pre, room, hv⟩ : ∃ toAppend pre room, RequestView toAppend pre w₀ [] room := by
    rcases requestWriter_cases hp hreq with ⟨-, hv⟩ | ⟨-, _, _, -, -, hv⟩ <;> exact ⟨_, _, _, hv⟩
  have hv' := (request_lawful (E := E) env _ _).runOps hv hops
  obtain ⟨out, hout⟩ : ∃ out, Script.run env.build (genericControl env) { buf := s.loader.buf } (.request n ops fin) =
      Run.ret (out, told) := by
    have hreq' : (genericControl env (E := E)).requestWriter { buf := s.loader.buf } n = Run.ret w₀ := hreq
    have hops' : runOps env.build (genericControl env (E := E)).writer w₀ [] ops = Run.ret (w, told) := hops
    simp only [Script.run, hreq', Run.ret_bind, hops']
    cases fin with
    | advance => exact ⟨_, rfl⟩
    | cancel e =>
      have hd : w.buf.drain w.offset = Run.ret _ := if_pos (by rw [hv'.offset, hv'.holds.len, List.length_append]; omega)
      simp only [genericControl, requestBufferWriter, hd, Run.ret_bind, Run.pure_bind']
      exact ⟨_, rfl⟩
    | drop => exact ⟨_, rfl⟩
  have hload : ∃ res, load env (.request n ops fin) s.cells s.loader = Run.ret res := by
    unfold load
    rw [hout, Run.ret_bind]
    cases out with
    | done r =>
      obtain ⟨res, buf⟩ := r
      cases res with
      | appended | cancel => exact ⟨_, rfl⟩
      | advance v _ _ | finish v =>
        simp only [finishLoad, commitTo_ret hi.cells, Run.ret_bind, Run.pure_bind']
        exact ⟨_, rfl⟩
    | droppedWriter | droppedControl | droppedResult => exact ⟨_, rfl⟩
  obtain ⟨⟨⟨r, told'⟩, cells, loader⟩, hload⟩ := hload
  have hc := load_cases hi.cells.unset hp hload
  have hnew : ∃ new, newlyCommitted s.cells cells s.loader.tail = Run.ret new := by
    cases hc with
    | append | fresh | cancelWriter | cancelFresh | dropWriter | dropFresh => exact ⟨_, newlyCommitted_same _ _ hi.cells.unset⟩
    | switch _ _ _ e => exact ⟨_, newlyCommitted_commit hi.cells e hp⟩
  obtain ⟨new, hnew⟩ := hnew
  exact ⟨_, by simp only [Loading.move, hload, Run.ret_bind, hnew]; rfl⟩

/-- C54, exactly: what one chunk leaves. The room is what is left behind the pending items if the chunk fits there, and the
whole of a new buffer otherwise; what is accepted is `stored` of it. -/
theorem C54_exact {b : Build} {s : Loading T E} {env : Env} {ms : List (Move T E)} {pend seg : List T} {iter : List (List T)}
    (h : Reaches b ms s) (hp : Pending s pend) {room : Nat}
    (hroom : (pend.length + seg.length ≤ s.loader.buf.cap ∧ room = s.loader.buf.cap - pend.length) ∨
      (s.loader.buf.cap < pend.length + seg.length ∧ seg.length ≤ room ∧
        ∃ c, env.calcCapacity seg.length = Run.ret c ∧ env.withCapacity c = Run.ret room)) :
    ∃ s' log info, s.move b (.load env (IteratorSource.script (seg :: iter))) = Run.ret s' ∧
      s'.log = log ++ [.loaded (seg.take (stored room seg.length)) (some (.ok info))] ∧
      (∃ l, log = s.log ++ l ∧ ∀ told r, .loaded told r ∉ l) := by
  have hi := inv_reaches h
  have hf := hp.fits
  obtain ⟨w₀, toAppend, pre, hreq, hv, hle⟩ : ∃ w₀ toAppend pre, Control.requestWriter env { buf := s.loader.buf } seg.length = Run.ret w₀ ∧
      RequestView toAppend pre w₀ [] room ∧ seg.length ≤ room := by
    unfold Control.requestWriter
    simp only [hp.len]
    rw [usizeSub_ret _ hp.fits, Run.ret_bind]
    rcases hroom with ⟨h1, rfl⟩ | ⟨h1, h2, c, h3, h4⟩
    · rw [if_pos (by omega)]
      exact ⟨_, .empty env.newCapacity, pend, rfl, ⟨rfl, rfl, by rw [List.append_nil]; exact hp, by show s.loader.buf.cap = _; omega⟩, by omega⟩
    · rw [if_neg (by omega), h3, Run.ret_bind, h4, Run.ret_bind]
      exact ⟨_, s.loader.buf, [], rfl, ⟨rfl, rfl, holds_empty _, by show room = _; simp⟩, h2⟩
  obtain ⟨w, hops⟩ : ∃ w, runOps env.build (requestBufferWriter env (E := E)) w₀ [] (seg.map .push) =
      Run.ret (w, seg.take (stored room seg.length)) := by
    obtain ⟨h1, h2⟩ := runOps_push (E := E) env hv env.build seg
    unfold stored
    rcases Nat.mod_two_eq_zero_or_one room with hm | hm
    · obtain ⟨w, e⟩ := h1 hm (Nat.zero_le _)
      refine ⟨w, ?_⟩
      rw [if_pos hm, e]
      simp only [List.nil_append, List.length_nil, Nat.sub_zero, Run.ret_inj, Prod.mk.injEq, true_and]
      by_cases hx : seg.length ≤ room / 2
      · rw [Nat.min_eq_left hx, List.take_of_length_le hx, List.take_of_length_le (Nat.le_refl _)]
      · rw [Nat.min_eq_right (by omega)]
    · obtain ⟨w, e⟩ := h2 hm (by simpa using hle)
      refine ⟨w, ?_⟩
      rw [if_neg (by omega), e, List.take_of_length_le (Nat.le_refl _)]
      rfl
  obtain ⟨s', he⟩ := load_returns (b := b) hi hp hreq hops .advance
  obtain ⟨r, told, log, hc, hlog, hl, -⟩ := move_load_committed hi hp he
  have htold : told = seg.take (stored room seg.length) := by
    have he' := he
    simp only [Loading.move] at he'
    obtain ⟨⟨⟨r', told'⟩, cells, loader⟩, h1, h2⟩ := Run.bind_eq_ret.mp he'
    obtain ⟨new, -, h2⟩ := Run.bind_eq_ret.mp h2
    simp at h2
    subst h2
    have e1 : told = told' := by
      have hlog' : (s.log ++ new.map .committed) ++ [Obs.loaded told' r'] = log ++ [Obs.loaded told r] := by
        rw [List.append_assoc]; exact hlog
      have := (List.append_inj' hlog' rfl).2
      simp at this
      exact this.1.symm
    unfold load at h1
    obtain ⟨⟨out, told₂⟩, h3, h4⟩ := Run.bind_eq_ret.mp h1
    have e2 : told' = told₂ := by
      cases out with
      | done r =>
        obtain ⟨⟨_, _, _⟩, -, h4⟩ := Run.bind_eq_ret.mp h4
        simp at h4
        exact h4.1.2.symm
      | droppedWriter | droppedControl | droppedResult => simp at h4; exact h4.1.2.symm
    have hreq' : (genericControl env (E := E)).requestWriter { buf := s.loader.buf } seg.length = Run.ret w₀ := hreq
    have hops' : runOps env.build (genericControl env (E := E)).writer w₀ [] (seg.map .push) =
        Run.ret (w, seg.take (stored room seg.length)) := hops
    simp only [Script.run, hreq', Run.ret_bind, hops'] at h3
    simp [genericControl, requestBufferWriter] at h3
    rw [e1, e2, h3.2]
  have hr : ∃ info, r = some (.ok info) := by
    generalize s'.cells = sc at hc
    generalize s'.loader = sl at hc
    cases hc <;> exact ⟨_, rfl⟩
  obtain ⟨info, rfl⟩ := hr
  exact ⟨s', log, info, he, by rw [hlog, htold], hl⟩

/-- The loads of an `IteratorSource` until it is done. The environment may differ from load to load. -/
def loadAll (env : List (List T) → Env) : List (List T) → List (Move T E)
  | [] => [.load (env []) (IteratorSource.script [])]
  | seg :: iter => .load (env (seg :: iter)) (IteratorSource.script (seg :: iter)) :: loadAll env iter

/-- C54 in full: everything is delivered. -/
def C54Statement : Prop := ∀ (T E : Type) (b : Build) (env : List (List T) → Env) (chunks : List (List T)) (s : Loading T E),
  (∀ cs, LawfulEnv (env cs)) → Reaches b (loadAll env chunks) s → committedOf s.log = chunks.flatten

/-- At least the first half of every chunk, and nothing else. -/
inductive Halves : List (List T) → List T → Prop where
  | nil : Halves [] []
  | cons {c p : List T} {cs : List (List T)} {ys : List T} : p <+: c → c.length ≤ 2 * p.length → Halves cs ys → Halves (c :: cs) (p ++ ys)

/-- An environment in which allocations succeed. -/
structure Generous (env : Env) : Prop extends LawfulEnv env where
  gives : ∀ n, ∃ c got, env.calcCapacity n = Run.ret c ∧ env.withCapacity c = Run.ret got

theorem loadAll_spec {b : Build} {env : List (List T) → Env} {chunks : List (List T)} :
    ∀ {ms : List (Move T E)} {s : Loading T E}, Reaches b ms s → AllOk s.log →
    ((∀ cs, LawfulEnv (env cs)) → ∀ s', s.run b (loadAll env chunks) = Run.ret s' → AllOk s'.log ∧ ∃ ys, Halves chunks ys ∧
      committedOf s'.log = acceptedOf s.log ++ ys) ∧
    ((∀ cs, Generous (env cs)) → ∃ s', s.run b (loadAll env chunks) = Run.ret s') := by
  induction chunks with
  | nil =>
    intro ms s hr hok
    have hi := inv_reaches hr
    obtain ⟨pend, hp⟩ := hi.pending
    constructor
    · intro _ s' he
      simp only [loadAll, run_single] at he
      obtain ⟨r, told, log, hc, hlog, ⟨l, hl, hno⟩, -⟩ := move_load_committed hi hp he
      have hinfo : ∃ info, r = some (.ok info) ∧ info.isDone = true ∧ told = [] := by
        generalize s'.cells = sc at hc
        generalize s'.loader = sl at hc
        cases hc
        exact ⟨_, rfl, rfl, rfl⟩
      obtain ⟨info, rfl, hd, rfl⟩ := hinfo
      have hok' : AllOk s'.log := by
        intro t r hm
        rw [hlog, hl] at hm
        simp only [List.append_assoc, List.mem_append, List.mem_singleton] at hm
        rcases hm with hm | hm | hm
        · exact hok t r hm
        · exact absurd hm (hno t r)
        · simp at hm; exact ⟨_, hm.2⟩
      have hr' : Reaches b (ms ++ [.load (env []) (IteratorSource.script [])]) s' := by
        obtain ⟨c, hr⟩ := hr
        exact ⟨c, run_append.mpr ⟨s, hr, run_single.mpr he⟩⟩
      refine ⟨hok', [], .nil, ?_⟩
      rw [C55_finished hr' hok' hlog hd, hlog, acceptedOf_append, hl, acceptedOf_append]
      have : acceptedOf l = [] := by
        clear hl
        induction l with
        | nil => rfl
        | cons o l ihl =>
          have := ihl fun t r h => hno t r (List.mem_cons_of_mem _ h)
          cases o with
          | loaded t r => exact absurd List.mem_cons_self (hno t r)
          | _ => exact this
      rw [this]
      simp [acceptedOf]
    · intro _
      simp only [loadAll, run_single]
      have hnew := newlyCommitted_commit hi.cells (commitTo_ret hi.cells s.loader.buf) hp
      simp only [Loading.move, load, IteratorSource.script, Script.run, genericControl, Run.pure_bind', finishLoad,
        commitTo_ret hi.cells, Run.ret_bind, hnew]
      exact ⟨_, rfl⟩
  | cons seg iter ih =>
    intro ms s hr hok
    have hi := inv_reaches hr
    obtain ⟨pend, hp⟩ := hi.pending
    have step : ∀ (room : Nat), ((pend.length + seg.length ≤ s.loader.buf.cap ∧ room = s.loader.buf.cap - pend.length) ∨
        (s.loader.buf.cap < pend.length + seg.length ∧ seg.length ≤ room ∧ ∃ c, (env (seg :: iter)).calcCapacity seg.length = Run.ret c ∧
          (env (seg :: iter)).withCapacity c = Run.ret room)) →
        ∃ s₁, s.move b (.load (env (seg :: iter)) (IteratorSource.script (seg :: iter))) = Run.ret s₁ ∧
          Reaches b (ms ++ [.load (env (seg :: iter)) (IteratorSource.script (seg :: iter))]) s₁ ∧ AllOk s₁.log ∧
          acceptedOf s₁.log = acceptedOf s.log ++ seg.take (stored room seg.length) ∧ seg.length ≤ room := by
      intro room hroom
      obtain ⟨s₁, log, info, e, hlog, l, hl, hno⟩ := C54_exact (iter := iter) hr hp hroom
      refine ⟨s₁, e, ?_, ?_, ?_, ?_⟩
      · obtain ⟨c, hr⟩ := hr
        exact ⟨c, run_append.mpr ⟨s, hr, run_single.mpr e⟩⟩
      · intro t r hm
        rw [hlog, hl] at hm
        simp only [List.append_assoc, List.mem_append, List.mem_singleton] at hm
        rcases hm with hm | hm | hm
        · exact hok t r hm
        · exact absurd hm (hno t r)
        · simp at hm; exact ⟨_, hm.2⟩
      · rw [hlog, acceptedOf_append, hl, acceptedOf_append]
        have : acceptedOf l = [] := by
          clear hl
          induction l with
          | nil => rfl
          | cons o l ihl =>
            have := ihl fun t r h => hno t r (List.mem_cons_of_mem _ h)
            cases o with
            | loaded t r => exact absurd List.mem_cons_self (hno t r)
            | _ => exact this
        rw [this]
        simp [acceptedOf]
      · rcases hroom with ⟨h1, rfl⟩ | ⟨-, h2, -⟩ <;> omega
    constructor
    · intro hlaw s' he
      simp only [loadAll, Loading.run] at he
      obtain ⟨s₁, h1, h2⟩ := Run.bind_eq_ret.mp he
      have hroom : ∃ room, ((pend.length + seg.length ≤ s.loader.buf.cap ∧ room = s.loader.buf.cap - pend.length) ∨
          (s.loader.buf.cap < pend.length + seg.length ∧ seg.length ≤ room ∧ ∃ c, (env (seg :: iter)).calcCapacity seg.length = Run.ret c ∧
            (env (seg :: iter)).withCapacity c = Run.ret room)) := by
        by_cases hfit : pend.length + seg.length ≤ s.loader.buf.cap
        · exact ⟨_, .inl ⟨hfit, rfl⟩⟩
        · simp only [Loading.move, load, IteratorSource.script, Script.run] at h1
          obtain ⟨_, h1, -⟩ := Run.bind_eq_ret.mp h1
          obtain ⟨_, h1, -⟩ := Run.bind_eq_ret.mp h1
          obtain ⟨w, h1, -⟩ := Run.bind_eq_ret.mp h1
          have h1 : Control.requestWriter (env (seg :: iter)) { buf := s.loader.buf } seg.length = Run.ret w := h1
          rcases requestWriter_cases hp h1 with ⟨hf, -⟩ | ⟨hf, c, got, hc, hg, -⟩
          · exact absurd hf hfit
          · exact ⟨got, .inr ⟨hf, Nat.le_trans ((hlaw _).strategy _ _ hc) ((hlaw _).alloc _ _ hg), c, hc, hg⟩⟩
      obtain ⟨room, hroom⟩ := hroom
      obtain ⟨s₂, e, hr₂, hok₂, hacc, hle⟩ := step room hroom
      rw [e] at h1
      simp at h1
      subst h1
      obtain ⟨hok', ys, hys, hcom⟩ := (ih hr₂ hok₂).1 hlaw s' h2
      refine ⟨hok', seg.take (stored room seg.length) ++ ys, .cons (List.take_prefix _ _) ?_ hys, ?_⟩
      · rw [List.length_take]
        unfold stored
        split <;> omega
      · rw [hcom, hacc, List.append_assoc]
    · intro hgen
      have hroom : ∃ room, ((pend.length + seg.length ≤ s.loader.buf.cap ∧ room = s.loader.buf.cap - pend.length) ∨
          (s.loader.buf.cap < pend.length + seg.length ∧ seg.length ≤ room ∧ ∃ c, (env (seg :: iter)).calcCapacity seg.length = Run.ret c ∧
            (env (seg :: iter)).withCapacity c = Run.ret room)) := by
        by_cases hfit : pend.length + seg.length ≤ s.loader.buf.cap
        · exact ⟨_, .inl ⟨hfit, rfl⟩⟩
        · obtain ⟨c, got, hc, hg⟩ := (hgen (seg :: iter)).gives seg.length
          exact ⟨got, .inr ⟨by omega, Nat.le_trans ((hgen _).strategy _ _ hc) ((hgen _).alloc _ _ hg), c, hc, hg⟩⟩
      obtain ⟨room, hroom⟩ := hroom
      obtain ⟨s₂, e, hr₂, hok₂, -, -⟩ := step room hroom
      obtain ⟨s', h'⟩ := (ih hr₂ hok₂).2 hgen
      exact ⟨s', by simp only [loadAll, Loading.run, e, Run.ret_bind, h']⟩

/-- C54, what is true: of every chunk at least the first half arrives, in order, and nothing else. Missing: the other half. -/
theorem C54_partial {b : Build} {env : List (List T) → Env} {chunks : List (List T)} {s : Loading T E} (hl : ∀ cs, LawfulEnv (env cs))
    (h : Reaches b (loadAll env chunks) s) : Halves chunks (committedOf s.log) := by
  obtain ⟨c, h⟩ := h
  obtain ⟨-, ys, hys, e⟩ := (loadAll_spec (b := b) (env := env) (chunks := chunks) (ms := []) (s := Loading.init c) ⟨c, rfl⟩
    (fun _ _ h => nomatch h)).1 hl s h
  rw [e]
  exact hys

/-- C54: chunks of at most one item arrive in full. -/
theorem C54_partial_single {b : Build} {env : List (List T) → Env} {chunks : List (List T)} {s : Loading T E} (hl : ∀ cs, LawfulEnv (env cs))
    (h : Reaches b (loadAll env chunks) s) (h1 : ∀ c ∈ chunks, c.length ≤ 1) : committedOf s.log = chunks.flatten := by
  have := C54_partial hl h
  clear h
  generalize committedOf s.log = ys at this
  induction this with
  | nil => rfl
  | @cons c p cs ys hp hlen _ ih =>
    rw [List.flatten_cons, ← ih (fun c h => h1 c (List.mem_cons_of_mem _ h))]
    congr 1
    have := h1 c List.mem_cons_self
    have := hp.length_le
    exact hp.eq_of_length (by omega)

/-- C54: loading never panics, nor goes outside a buffer, as long as allocations succeed. -/
theorem C54_loads_return {b : Build} {env : List (List T) → Env} {chunks : List (List T)} (hg : ∀ cs, Generous (env cs)) (c : Nat) :
    ∃ s : Loading T E, (Loading.init c).run b (loadAll env chunks) = Run.ret s :=
  (loadAll_spec (b := b) (env := env) (chunks := chunks) (ms := []) (s := Loading.init c) ⟨c, rfl⟩ (fun _ _ h => nomatch h)).2 hg

theorem plainEnv_generous : Generous plainEnv := { plainEnv_lawful with gives := fun n => ⟨n, n, rfl, rfl⟩ }

/-- The loads of the two chunks `[1, 2]` and `[3]`, say, return. -/
example : ∃ s : Loading Nat Nat, Reaches .checked (loadAll (fun _ => plainEnv) [[1, 2], [3]]) s :=
  have ⟨s, h⟩ := C54_loads_return (b := .checked) (fun _ => plainEnv_generous) 0
  ⟨s, 0, h⟩

/-- C54 is false: of the chunk `[1, 2]` only `[1]` arrives. -/
theorem C54_false : ¬ C54Statement := by
  intro h
  obtain ⟨s₁, log, info, e₁, hlog, l, hl, hno⟩ := C54_exact (E := Nat) (b := .checked) (env := plainEnv) (ms := []) (s := Loading.init 0)
    (pend := []) (seg := [1, 2]) (iter := []) (room := 2) ⟨0, rfl⟩ (holds_empty 0) (.inr ⟨by decide, by decide, 2, rfl, rfl⟩)
  have hr₁ : Reaches .checked [.load plainEnv (IteratorSource.script [[1, 2]])] s₁ := ⟨0, run_single.mpr e₁⟩
  have hacc : acceptedOf s₁.log = [1] := by
    rw [hlog, acceptedOf_append, hl, acceptedOf_append]
    have : acceptedOf l = [] := by
      clear hl
      induction l with
      | nil => rfl
      | cons o l ihl =>
        have := ihl fun t r h => hno t r (List.mem_cons_of_mem _ h)
        cases o with
        | loaded t r => exact absurd List.mem_cons_self (hno t r)
        | _ => exact this
    rw [this]
    rfl
  have hok : AllOk s₁.log := by
    intro t r hm
    rw [hlog, hl] at hm
    simp only [List.mem_append, List.mem_singleton] at hm
    rcases hm with (hm | hm) | hm
    · exact nomatch hm
    · exact absurd hm (hno t r)
    · simp at hm; exact ⟨_, hm.2⟩
  have L := loadAll_spec (env := fun _ => plainEnv) (chunks := []) hr₁ hok
  obtain ⟨s₂, h₂⟩ := L.2 fun _ => plainEnv_generous
  obtain ⟨-, ys, hys, hcom⟩ := L.1 (fun _ => plainEnv_lawful) s₂ h₂
  cases hys
  rw [hacc] at hcom
  have := h Nat Nat .checked (fun _ => plainEnv) [[1, 2]] s₂ (fun _ => plainEnv_lawful)
    ⟨0, by simp only [loadAll, Loading.run] at h₂ ⊢; rw [e₁]; exact h₂⟩
  rw [this] at hcom
  simp at hcom

/-! ## Cancelled and dropped loads: the losses -/

/-- A history that leaves one item pending. -/
theorem one_pending : ∃ s : Loading Nat Nat, Reaches .checked [.load plainEnv (IteratorSource.script [[7]])] s ∧ Pending s [7] := by
  obtain ⟨s, log, info, e, hlog, -⟩ := C54_exact (E := Nat) (b := .checked) (env := plainEnv) (ms := []) (s := Loading.init 0)
    (pend := []) (seg := [7]) (iter := []) (room := 1) ⟨0, rfl⟩ (holds_empty 0) (.inr ⟨by decide, by decide, 1, rfl, rfl⟩)
  refine ⟨s, ⟨0, run_single.mpr e⟩, ?_⟩
  obtain ⟨r, told, log', hc, hlog', -⟩ := move_load_committed (inv_init 0) (holds_empty 0) e
  have ht : told = [7] := by
    rw [hlog] at hlog'
    have := (List.append_inj' hlog' rfl).2
    simp at this
    rw [← this.1]
    rfl
  unfold Pending
  generalize s.loader = sl at hc ⊢
  generalize s.cells = sc at hc
  cases hc with
  | append _ hh _ => rw [ht] at hh; exact hh
  | fresh _ _ hh => rw [ht] at hh; exact hh
  | switch _ hn _ _ => exact absurd rfl hn

/-- A load that asks for more than the buffer ever holds. -/
theorem big_request {s : Loading Nat Nat} {ms : List (Move Nat Nat)} {pend : List Nat} (h : Reaches .checked ms s) (hp : Pending s pend)
    (fin : WriterEnd Nat) : ∃ s', s.move .checked (.load plainEnv (.request (s.loader.buf.cap + 1) [] fin)) = Run.ret s' := by
  have hreq : ∃ w, Control.requestWriter plainEnv { buf := s.loader.buf } (s.loader.buf.cap + 1) = Run.ret w := by
    unfold Control.requestWriter
    simp only [hp.len]
    rw [usizeSub_ret _ hp.fits, Run.ret_bind, if_neg (by omega)]
    exact ⟨_, rfl⟩
  obtain ⟨w, hreq⟩ := hreq
  exact load_returns (inv_reaches h) hp hreq rfl fin

/-- C56 is false: the load asks for a new buffer, and the pending item is gone when it is cancelled. -/
theorem C56_false : ¬ C56Statement := by
  intro h
  obtain ⟨s, hr, hp⟩ := one_pending
  obtain ⟨s', e⟩ := big_request hr hp (.cancel 5)
  obtain ⟨r, told, log, hc, hlog, -⟩ := move_load_committed (inv_reaches hr) hp e
  have hrr : r = some (.error 5) := by
    generalize s'.cells = sc at hc
    generalize s'.loader = sl at hc
    cases hc <;> rfl
  subst hrr
  have h1 := (h Nat Nat .checked _ s s' plainEnv _ log told [7] 5 plainEnv_lawful hr e hlog hp).1
  have h2 := (C56_exact hr e hlog hp).2.2 (by show ¬ (1 + (s.loader.buf.cap + 1) ≤ s.loader.buf.cap); omega)
  exact absurd (Spec.Holds.unique h1 h2) (by simp)

/-- C77 in full: dropping the future of a load loses nothing that was pending. -/
def C77Statement : Prop := ∀ (T E : Type) (b : Build) (ms : List (Move T E)) (s s' : Loading T E) (env : Env) (script : Script T E)
  (log : List (Obs T E)) (told pend : List T), LawfulEnv env → Reaches b ms s → s.move b (.load env script) = Run.ret s' →
  s'.log = log ++ [.loaded told none] → Pending s pend → (∃ xs, Pending s' (pend ++ xs)) ∧ committedOf s'.log = committedOf s.log

/-- The items pending after a load that is dropped, for the ways it can have gone: its source had a result already (`lost`) or
not. What `advance` and `finish` take out of the loader is gone with the result. -/
def leftBehind (s : Loading T E) (pend told : List T) : Script T E → List T
  | .request n _ (.cancel _) => if pend.length + n ≤ s.loader.buf.cap then pend else []
  | .request n _ .advance | .request n _ .drop => if pend.length + n ≤ s.loader.buf.cap then pend ++ told else told
  | .cancel _ | .drop => pend
  | .finish => []
  | .lost script => leftBehind s pend told script

/-- The load asked for no more room than there is behind the pending items, and its source did not finish. -/
def Keeps (s : Loading T E) (pend : List T) : Script T E → Prop
  | .request n _ _ => pend.length + n ≤ s.loader.buf.cap
  | .cancel _ | .drop => True
  | .finish => False
  | .lost script => Keeps s pend script

theorem LoadCase.left {env : Env} {s : Loading T E} {h' : Cells T} {l' : Loader T} {pend told : List T} {script : Script T E}
    {r : Option (Except E LoadInfo)} (hp : Pending s pend) (hc : LoadCase env s.cells s.loader pend script r told h' l') :
    Holds l'.buf (leftBehind s pend told script) := by
  induction hc with
  | append hf hh _ => rw [leftBehind, if_pos hf]; exact hh
  | fresh hf _ hh => rw [leftBehind, if_neg (by omega)]; exact hh
  | switch hf _ hh _ => rw [leftBehind, if_neg (by omega)]; exact hh
  | cancelWriter hf hh _ => rw [leftBehind, if_pos hf]; exact hh
  | cancelFresh hf hh => rw [leftBehind, if_neg (by omega)]; exact hh
  | dropWriter hf hh _ => rw [leftBehind, if_pos hf]; exact hh
  | dropFresh hf hh => rw [leftBehind, if_neg (by omega)]; exact hh
  | cancel | drop => exact hp
  | finish => exact holds_empty _
  | lost _ ih => exact ih

/-- C77, exactly: what is pending when a load has been dropped. -/
theorem C77_exact {b : Build} {ms : List (Move T E)} {s s' : Loading T E} {env : Env} {script : Script T E} {log : List (Obs T E)}
    {told pend : List T} (h : Reaches b ms s) (he : s.move b (.load env script) = Run.ret s')
    (hl : s'.log = log ++ [.loaded told none]) (hp : Pending s pend) :
    committedOf s'.log = committedOf s.log ∧ Pending s' (leftBehind s pend told script) := by
  have hi := inv_reaches h
  obtain ⟨r, told', log', hc, hlog, -, hcom⟩ := move_load_committed hi hp he
  rw [hl] at hlog
  have := (List.append_inj' hlog rfl).2
  simp at this
  obtain ⟨rfl, rfl⟩ := this
  refine ⟨?_, hc.left hp⟩
  clear hlog hl
  generalize s'.loader = sl at hc
  generalize s'.cells = sc at hc hcom
  rcases hcom with ⟨-, e⟩ | ⟨e, -⟩
  · exact e
  · cases hc <;> exact absurd rfl e

/-- C77, what is true: the load did not ask for a new buffer or finish. Missing: loads that did. -/
theorem C77_partial {b : Build} {ms : List (Move T E)} {s s' : Loading T E} {env : Env} {script : Script T E} {log : List (Obs T E)}
    {told pend : List T} (h : Reaches b ms s) (he : s.move b (.load env script) = Run.ret s')
    (hl : s'.log = log ++ [.loaded told none]) (hp : Pending s pend) (hk : Keeps s pend script) :
    (∃ xs, Pending s' (pend ++ xs)) ∧ committedOf s'.log = committedOf s.log := by
  obtain ⟨h1, h2⟩ := C77_exact h he hl hp
  refine ⟨?_, h1⟩
  have key : ∃ xs, leftBehind s pend told script = pend ++ xs := by
    clear h2 he
    induction script with
    | request n ops fin =>
      have hf : pend.length + n ≤ s.loader.buf.cap := hk
      cases fin with
      | cancel e => exact ⟨[], by rw [leftBehind, if_pos hf, List.append_nil]⟩
      | advance | drop => exact ⟨told, by rw [leftBehind, if_pos hf]⟩
    | cancel | drop => exact ⟨[], by rw [leftBehind, List.append_nil]⟩
    | finish => exact hk.elim
    | lost script ih => exact ih hk
  obtain ⟨xs, e⟩ := key
  exact ⟨xs, e ▸ h2⟩

/-- C77 is false: the load asks for a new buffer and is dropped before it hands the old one over. -/
theorem C77_false : ¬ C77Statement := by
  intro h
  obtain ⟨s, hr, hp⟩ := one_pending
  obtain ⟨s', e⟩ := big_request hr hp .drop
  obtain ⟨r, told, log, hc, hlog, -⟩ := move_load_committed (inv_reaches hr) hp e
  have hrr : r = none := by
    generalize s'.cells = sc at hc
    generalize s'.loader = sl at hc
    cases hc <;> rfl
  subst hrr
  obtain ⟨⟨xs, h1⟩, -⟩ := h Nat Nat .checked _ s s' plainEnv _ log told [7] plainEnv_lawful hr e hlog hp
  have h2 := (C77_exact hr e hlog hp).2
  rw [leftBehind, if_neg (by show ¬ (1 + (s.loader.buf.cap + 1) ≤ s.loader.buf.cap); omega)] at h2
  have h3 : told = [] := by
    have he := e
    simp only [Loading.move] at he
    obtain ⟨⟨⟨r', told'⟩, cells, loader⟩, hload, he'⟩ := Run.bind_eq_ret.mp he
    obtain ⟨new, -, he'⟩ := Run.bind_eq_ret.mp he'
    simp at he'
    subst he'
    have e1 : told = told' := by
      have hlog' : (s.log ++ new.map .committed) ++ [Obs.loaded told' r'] = log ++ [Obs.loaded told none] := by
        rw [List.append_assoc]; exact hlog
      have := (List.append_inj' hlog' rfl).2
      simp at this
      exact this.1.symm
    unfold load at hload
    obtain ⟨⟨out, told₂⟩, h3, h4⟩ := Run.bind_eq_ret.mp hload
    simp only [Script.run, runOps, Run.pure_bind'] at h3
    obtain ⟨w, -, h3⟩ := Run.bind_eq_ret.mp h3
    simp at h3
    obtain ⟨rfl, rfl⟩ := h3
    simp at h4
    rw [e1]
    exact h4.1.2
  rw [h3] at h2
  exact absurd (Spec.Holds.unique h1 h2) (by simp)

/-! ## The buffer -/

/-- What is observed when `o` follows `pre`. -/
def ReadsRight (pre : List (Obs T E)) : Obs T E → Prop
  | .advanced n r => r = n - ((committedOf pre).length - consumedOf pre)
  | .yielded seg => yieldedOf pre ++ seg <+: (committedOf pre).drop (consumedOf pre)
  | .exhausted => yieldedOf pre = (committedOf pre).drop (consumedOf pre)
  | _ => True

theorem move_readsRight {b : Build} {s s' : Loading T E} {m : Move T E} (hi : Inv s) (he : s.move b m = Run.ret s') :
    ∃ ls, s'.log = s.log ++ ls ∧ ∀ pre o post, ls = pre ++ o :: post → ReadsRight (s.log ++ pre) o := by
  obtain ⟨pend, hp⟩ := hi.pending
  have quiet : ∀ ls : List (Obs T E), (∀ o ∈ ls, ∀ pre, ReadsRight pre o) → ∀ pre o post, ls = pre ++ o :: post → ReadsRight (s.log ++ pre) o := by
    rintro ls h pre o post rfl
    exact h o (by simp) _
  have one : ∀ o : Obs T E, ReadsRight s.log o → ∀ pre o' post, [o] = pre ++ o' :: post → ReadsRight (s.log ++ pre) o' := by
    intro o h pre o' post e
    cases pre with
    | nil => simp at e; rw [← e.1, List.append_nil]; exact h
    | cons _ _ => simp at e
  cases m with
  | load env script =>
    obtain ⟨r, told, hc, h1, h2, ⟨h3, h4, h5⟩ | ⟨h3, h5⟩⟩ := move_load hi hp he
    · exact ⟨_, h5, quiet _ (by simp [ReadsRight])⟩
    · exact ⟨[.committed pend, .loaded told r], by rw [h5]; simp, quiet _ (by simp [ReadsRight])⟩
  | forceCommit env =>
    obtain ⟨s₁, e, hp', h1, h2, h3, h4⟩ := move_forceCommit (b := b) (env := env) hi hp
    rw [e] at he
    simp at he
    subst he
    exact ⟨_, h4, quiet _ (by simp [ReadsRight])⟩
  | advance length =>
    simp only [Loading.move] at he
    split at he <;> simp at he <;> subst he <;> exact ⟨[], by simp, quiet _ (by simp)⟩
  | get =>
    simp only [Loading.move] at he
    split at he
    · rename_i length remain c hrd
      have hr := hi.reader
      unfold ReaderOk at hr
      rw [hrd] at hr
      obtain ⟨hle, hat⟩ := hr
      have hw := hat.within
      rcases advanceTurn_spec b (remain := remain) hat with ⟨c', e, hat', hend⟩ | ⟨k, c', e, hk, hat'⟩
      · rw [e] at he
        simp only [Run.ret_bind, Run.pure_eq_ret] at he
        subst he
        refine ⟨_, rfl, one _ ?_⟩
        show remain - ((segmentsOf s.log).flatten.length - _) = length - ((segmentsOf s.log).flatten.length - _)
        omega
      · rw [e] at he
        simp at he
        subst he
        exact ⟨[], by simp, quiet _ (by simp)⟩
    · simp at he
      subst he
      exact ⟨[], by simp, quiet _ (by simp)⟩
  | segments =>
    simp only [Loading.move] at he
    split at he <;> simp at he <;> subst he
    · exact ⟨_, rfl, one _ trivial⟩
    · exact ⟨[], by simp, quiet _ (by simp)⟩
  | next =>
    simp only [Loading.move] at he
    split at he
    · rename_i c hrd
      have hi' := hi
      have hr := hi.reader
      unfold ReaderOk at hr
      rw [hrd] at hr
      obtain ⟨hat, hpre⟩ := hr
      rcases iterNext_spec hat with ⟨e, hend⟩ | ⟨seg, c', e, hat', hseg⟩
      · rw [e] at he
        simp at he
        subst he
        refine ⟨_, rfl, one _ ?_⟩
        refine hpre.eq_of_length ?_
        rw [List.length_drop]
        show _ = (segmentsOf s.log).flatten.length - _
        omega
      · rw [e] at he
        simp at he
        subst he
        refine ⟨_, rfl, one _ ?_⟩
        obtain ⟨y, hy⟩ := hpre
        obtain ⟨z, hz⟩ := hseg
        rw [← List.drop_drop] at hz
        have hy' : yieldedOf s.log ++ y = (segmentsOf s.log).flatten.drop (consumedOf s.log) := hy
        rw [← hy', List.drop_append_of_le_length (Nat.le_refl _), List.drop_length, List.nil_append] at hz
        exact ⟨z, by rw [List.append_assoc, hz]; exact hy'⟩
    · simp at he
      subst he
      exact ⟨[], by simp, quiet _ (by simp)⟩
  | dropIter =>
    simp only [Loading.move] at he
    split at he <;> simp at he <;> subst he <;> exact ⟨[], by simp, quiet _ (by simp)⟩

theorem reads_right {b : Build} {ms : List (Move T E)} {s : Loading T E} (h : Reaches b ms s) :
    ∀ pre o post, s.log = pre ++ o :: post → ReadsRight pre o := by
  refine (reaches_induction (P := fun s => ∀ pre o post, s.log = pre ++ o :: post → ReadsRight pre o) ?_ ?_ h).2
  · intro c pre o post e
    simp [Loading.init] at e
  · intro s s' m hi ih he pre o post e
    obtain ⟨ls, h1, h2⟩ := move_readsRight hi he
    rw [h1] at e
    rcases List.append_eq_append_iff.mp e with ⟨a, e1, e2⟩ | ⟨a, e1, e2⟩
    · rw [e1]; exact h2 _ _ _ e2
    · cases a with
      | nil =>
        rw [List.append_nil] at e1
        have := h2 [] o post (by simpa using e2.symm)
        rw [← e1]
        simpa using this
      | cons x a =>
        simp at e2
        rw [← e2.1] at e1
        exact ih _ _ _ e1

/-- C58: `advance(n)` skips `n` items, or those there are, and returns how many were missing. How many there are is
decided by its last look at the cells: a node that becomes visible while it is running counts if it is seen. -/
theorem C58_skips {b : Build} {ms : List (Move T E)} {s : Loading T E} {pre post : List (Obs T E)} {n r : Nat} (h : Reaches b ms s)
    (hl : s.log = pre ++ .advanced n r :: post) :
    r = n - ((committedOf pre).length - consumedOf pre) ∧
    (committedOf (pre ++ [.advanced n r])).drop (consumedOf (pre ++ [.advanced n r])) =
      ((committedOf pre).drop (consumedOf pre)).drop n := by
  have h1 : r = n - ((committedOf pre).length - consumedOf pre) := reads_right h pre _ post hl
  refine ⟨h1, ?_⟩
  have e1 : committedOf (pre ++ [.advanced n r]) = committedOf pre := by rw [committedOf, segmentsOf_append]; simp [segmentsOf, committedOf]
  have e2 : consumedOf (pre ++ [.advanced (T := T) (E := E) n r]) = consumedOf pre + (n - r) := by rw [consumedOf_append]; rfl
  rw [e1, e2, List.drop_drop]
  by_cases hn : n ≤ (committedOf pre).length - consumedOf pre
  · rw [show n - r = n by omega]
  · rw [List.drop_eq_nil_of_le (by omega), List.drop_eq_nil_of_le (by omega)]

/-- C58: the result is `0` iff all items were there. -/
theorem C58_zero {b : Build} {ms : List (Move T E)} {s : Loading T E} {pre post : List (Obs T E)} {n r : Nat} (h : Reaches b ms s)
    (hl : s.log = pre ++ .advanced n r :: post) : r = 0 ↔ n ≤ ((committedOf pre).drop (consumedOf pre)).length := by
  have := (C58_skips h hl).1
  rw [List.length_drop]
  omega

/-- C58, C59: neither `advance` nor the iterator can fail, whatever the loader does meanwhile. -/
theorem C58_never_fails {b : Build} {ms : List (Move T E)} {s : Loading T E} (h : Reaches b ms s) {m : Move T E}
    (hm : (∀ env script, m ≠ .load env script) ∧ ∀ env, m ≠ .forceCommit env) : ∃ s', s.move b m = Run.ret s' := by
  have hr := (inv_reaches h).reader
  unfold ReaderOk at hr
  cases m with
  | load env script => exact absurd rfl (hm.1 env script)
  | forceCommit env => exact absurd rfl (hm.2 env)
  | advance | segments | dropIter => simp only [Loading.move]; split <;> exact ⟨_, rfl⟩
  | get =>
    simp only [Loading.move]
    split
    · rename_i length remain c hrd
      rw [hrd] at hr
      rcases advanceTurn_spec b (remain := remain) hr.2 with ⟨c', e, -⟩ | ⟨k, c', e, -⟩ <;> rw [e] <;> exact ⟨_, rfl⟩
    · exact ⟨_, rfl⟩
  | next =>
    simp only [Loading.move]
    split
    · rename_i c hrd
      rw [hrd] at hr
      rcases iterNext_spec hr.1 with ⟨e, -⟩ | ⟨seg, c', e, -⟩ <;> rw [e] <;> exact ⟨_, rfl⟩
    · exact ⟨_, rfl⟩

/-- C58: `advance` returns. -/
theorem C58_terminates {b : Build} {ms : List (Move T E)} {s : Loading T E} (h : Reaches b ms s) {length remain : Nat} {c : Cursor}
    (hrd : s.reader = .advancing length remain c) :
    ∃ k s' r, s.run b (List.replicate k .get) = Run.ret s' ∧ s'.reader = .idle ∧ s'.log = s.log ++ [.advanced length r] := by
  have hr := (inv_reaches h).reader
  unfold ReaderOk at hr
  rw [hrd] at hr
  obtain ⟨-, -, rest, hc, hoff, -⟩ := hr
  clear h
  obtain ⟨off, i⟩ := c
  replace hc : Chain s.cells i rest s.loader.tail := hc
  replace hoff : ∀ xs rest', rest = xs :: rest' → off ≤ xs.length := hoff
  generalize hcs : s.cells = cs at hc
  generalize s.loader.tail = t at hc
  induction hc generalizing s remain off with
  | @nil i hget =>
    rw [← hcs] at hget
    refine ⟨1, { s with head := ⟨off, i⟩, reader := .idle, log := s.log ++ [.advanced length remain] }, remain, ?_, rfl, rfl⟩
    simp only [List.replicate_one, run_single, Loading.move, hrd, advanceTurn, hget, Run.pure_bind']
    rfl
  | @cons i t n xs segs hget hxs hrest ih =>
    rw [← hcs] at hget
    have hsub : usizeSub b n.buf.len off = Run.ret (xs.length - off) := by
      rw [hxs.len]; exact usizeSub_ret b (hoff _ _ rfl)
    by_cases hlt : remain < xs.length - off
    · refine ⟨1, { s with head := ⟨off + remain, i⟩, reader := .idle, log := s.log ++ [.advanced length 0] }, 0, ?_, rfl, rfl⟩
      simp only [List.replicate_one, run_single, Loading.move, hrd, advanceTurn, hget, hsub, Run.ret_bind]
      rw [if_pos hlt]
      rfl
    · obtain ⟨k, s', r, h1, h2, h3⟩ := ih (s := { s with reader := .advancing length (remain - (xs.length - off)) ⟨0, n.next⟩ })
        (remain := remain - (xs.length - off)) 0 rfl (fun _ _ _ => Nat.zero_le _) hcs
      refine ⟨k + 1, s', r, ?_, h2, h3⟩
      simp only [List.replicate_succ, Loading.run, Loading.move, hrd, advanceTurn, hget, hsub, Run.ret_bind]
      rw [if_neg hlt]
      exact h1

/-- C59: what an iterator has yielded is a prefix of the visible items behind the position, in order. -/
theorem C59_in_order {b : Build} {ms : List (Move T E)} {s : Loading T E} {pre post : List (Obs T E)} {seg : List T} (h : Reaches b ms s)
    (hl : s.log = pre ++ .yielded seg :: post) : yieldedOf pre ++ seg <+: (committedOf pre).drop (consumedOf pre) :=
  reads_right h pre _ post hl

/-- C59: an iterator returns `None` only when it has yielded all of them. As this holds whenever it does, one that has
returned `None` does not do so again while there are new items. -/
theorem C59_exhausted {b : Build} {ms : List (Move T E)} {s : Loading T E} {pre post : List (Obs T E)} (h : Reaches b ms s)
    (hl : s.log = pre ++ .exhausted :: post) : yieldedOf pre = (committedOf pre).drop (consumedOf pre) :=
  reads_right h pre _ post hl

/-- C59: and it gets there, from wherever it is. -/
theorem C59_drains {b : Build} {ms : List (Move T E)} {s : Loading T E} (h : Reaches b ms s) {c : Cursor} (hrd : s.reader = .iterating c) :
    ∃ k s' log, s.run b (List.replicate k .next) = Run.ret s' ∧ s'.log = log ++ [.exhausted] ∧ committedOf log = committedOf s.log ∧
      yieldedOf log = (committedOf s.log).drop (consumedOf s.log) := by
  have hr := (inv_reaches h).reader
  unfold ReaderOk at hr
  rw [hrd] at hr
  obtain ⟨⟨-, rest, hc, hoff, -⟩, -⟩ := hr
  obtain ⟨off, i⟩ := c
  replace hc : Chain s.cells i rest s.loader.tail := hc
  replace hoff : ∀ xs rest', rest = xs :: rest' → off ≤ xs.length := hoff
  have key : ∃ k s' ls, s.run b (List.replicate k .next) = Run.ret s' ∧ s'.log = s.log ++ ls ++ [.exhausted] ∧
      ∀ o ∈ ls, ∃ seg, o = .yielded seg := by
    clear h
    generalize hcs : s.cells = cs at hc
    generalize s.loader.tail = t at hc
    induction hc generalizing s off with
    | @nil i hget =>
      rw [← hcs] at hget
      refine ⟨1, { s with reader := .iterating ⟨off, i⟩, log := s.log ++ [.exhausted] }, [], ?_, by simp, by simp⟩
      simp only [List.replicate_one, run_single, Loading.move, hrd, iterNext, hget, Run.pure_bind']
      rfl
    | @cons i t n xs segs hget hxs hrest ih =>
      rw [← hcs] at hget
      obtain ⟨k, s', ls, h1, h2, h3⟩ := ih
        (s := { s with reader := .iterating ⟨0, n.next⟩, log := s.log ++ [.yielded (xs.drop off)] })
        0 rfl (fun _ _ _ => Nat.zero_le _) hcs
      have hoff' := hoff _ _ rfl
      refine ⟨k + 1, s', .yielded (xs.drop off) :: ls, ?_, by rw [h2]; simp, by simpa using h3⟩
      simp only [List.replicate_succ, Loading.run, Loading.move, hrd, iterNext, hget, hxs.len]
      rw [if_pos hoff', hxs.readMany (by omega), Run.ret_bind, List.take_of_length_le (by rw [List.length_drop]; omega)]
      exact h1
  obtain ⟨k, s', ls, h1, h2, h3⟩ := key
  have hr' : Reaches b (ms ++ List.replicate k .next) s' := by
    obtain ⟨c, h⟩ := h
    exact ⟨c, run_append.mpr ⟨s, h, h1⟩⟩
  have hseg : segmentsOf (s.log ++ ls) = segmentsOf s.log ∧ consumedOf (s.log ++ ls) = consumedOf s.log := by
    rw [segmentsOf_append, consumedOf_append]
    have : segmentsOf ls = [] ∧ consumedOf ls = 0 := by
      clear h2
      induction ls with
      | nil => exact ⟨rfl, rfl⟩
      | cons o ls ih =>
        obtain ⟨seg, rfl⟩ := h3 o List.mem_cons_self
        exact ih fun o h => h3 o (List.mem_cons_of_mem _ h)
    rw [this.1, this.2]
    simp
  have := C59_exhausted (pre := s.log ++ ls) (post := []) hr' h2
  rw [committedOf, hseg.1, hseg.2] at this
  exact ⟨k, s', s.log ++ ls, h1, h2, by rw [committedOf, hseg.1]; rfl, this⟩

/-- One history: a load of `[7]`, a `force_commit`, an iterator that is drained and asked once more, and `advance(3)`. -/
example : ∃ s : Loading Nat Nat, Reaches .checked [.load plainEnv (IteratorSource.script [[7]]), .forceCommit plainEnv, .segments, .next,
    .next, .forceCommit plainEnv, .next, .next, .dropIter, .advance 3, .get, .get, .get] s ∧
    s.log = [.loaded [7] (some (.ok (.new 0 1 1))), .committed [7], .iterates, .yielded [7], .exhausted, .committed [], .yielded [],
      .exhausted, .advanced 3 2] := ⟨_, ⟨0, rfl⟩, rfl⟩

/-- C70: in every history the cell the loader sets is unset, so the assertion in `commit_to` holds. -/
theorem C70 {b : Build} {ms : List (Move T E)} {s : Loading T E} (h : Reaches b ms s) :
    (∀ buf, ∃ r, commitTo s.cells s.loader.tail buf = Run.ret r) ∧
    (∀ res : Response T E, ∃ r, finishLoad s.cells s.loader.tail res = Run.ret r) ∧
    (∀ env, ∃ s', s.move b (.forceCommit env) = Run.ret s') := by
  have hi := inv_reaches h
  refine ⟨fun buf => ⟨_, commitTo_ret hi.cells buf⟩, fun res => ?_, fun env => ?_⟩
  · cases res with
    | appended | cancel => exact ⟨_, rfl⟩
    | advance v _ _ | finish v =>
      simp only [finishLoad, commitTo_ret hi.cells, Run.ret_bind]
      exact ⟨_, rfl⟩
  · obtain ⟨pend, hp⟩ := hi.pending
    obtain ⟨s', e, -⟩ := move_forceCommit (b := b) (env := env) hi hp
    exact ⟨s', e⟩

end Parcom
