import Verif.Lemmas.NotifyHostile
import Verif.Props.NotifyStale
/-!
# C94, C95: Notify with hostile wakers
-/
namespace Parcom.Notify
variable {st : Hostile}

/-- What the machine of `Verif.Model.Notify` does, this one does too. -/
theorem hostile_calm {st : State} (h : Reachable st) :
    HReachable { base := st, poisoned := false, inside := fun _ => none, log := st.log.map .calm } := by
  induction h with
  | init => exact .init
  | @step st st' hr hs ih =>
    have hl : ∃ new, st'.log = st.log ++ new := by cases hs <;> first | exact ⟨_, rfl⟩ | exact ⟨[], (List.append_nil _).symm⟩
    obtain ⟨new, hl⟩ := hl
    have := HReachable.step ih (.calm _ st' new hs hl (by simp) (by simp))
    rw [hl, List.map_append]
    exact this

/-! ## C94: a waker that panics -/

/-- C94: when a `send` is over, everybody who was asleep when it took the mutex has been woken, also if a waker panicked. -/
def C94Statement : Prop := ∀ st, HReachable st → ∀ (c p : Nat) (l₁ l₂ : List HEvent),
  st.log = l₁ ++ .calm (.sendLocked c) :: l₂ → .calm (.pollPending p) ∈ l₁ → (∀ d, .calm (.woke d p) ∉ l₁) →
  (.calm (.sendEnd c) ∈ l₂ ∨ .sendPanic c ∈ l₂) → .calm (.woke c p) ∈ l₂

/-- C94 does not hold: two tasks sleep, the waker of the first panics, and the second is not woken. -/
theorem C94_false : ¬ C94Statement := by
  intro hC
  obtain ⟨st, h1, h2, h3, h4, h5, h6, h7⟩ := run_polls 2
  have r1 := Reachable.step h1 (.sendBegin st)
  have r2 := Reachable.step r1 (.sendAdd _ st.calls (by simp [State.goto, State.emit]))
  have r3 := Reachable.step r2 (.sendLock _ st.calls (by simp [State.goto, State.emit]) h2)
  obtain ⟨k, k', hsl⟩ : ∃ k k', st.slab = [(k, 0), (k', 1)] := by
    match hs : st.slab, h4, h6 with
    | [(k, a), (k', b)], _, h6 =>
      have : a = 0 ∧ b = 1 := by simpa [List.range_succ] using h6
      exact ⟨k, k', by rw [this.1, this.2]⟩
  have r4 := HReachable.step (hostile_calm r3) (.wakePanics _ st.calls k 0 [] [(k', 1)] (by simp [State.goto, State.emit]) rfl hsl)
  have := hC _ r4 2 1 ([.waitMade 0, .pollBegin 0 0, .pollChecked 0, .pollPending 0, .pollBegin 1 0, .pollChecked 1,
    .pollPending 1, .sendBegin 2, .sendAdd 2].map .calm) [.calm (.woke 2 0), .sendPanic 2]
    (by simp [State.goto, State.emit, h5, h7, List.range_succ]) (by simp) (by simp) (by simp)
  simp at this

/-- Up to the first panic, everything is as `Verif.Model.Notify` says, callbacks or not; so that C47 to C50 hold. What comes
after it is calls that begin, versions that go up, and polls that return `Ready`. -/
theorem C94_until (h : HReachable st) : ∃ st₀ tail, Reachable st₀ ∧ calmOf st.log = st₀.log ++ tail ∧
    (∀ e ∈ tail, e.idle = true) ∧ ((∀ e ∈ st.log, e.isPanic = false) → tail = []) := by
  suffices hp : ((∀ e ∈ st.log, e.isPanic = false) → st.poisoned = false) by
    obtain ⟨st₀, tail, h1, h2, h3, h4⟩ := (trace h).calm
    exact ⟨st₀, tail, h1, h2, h4, fun hn => (h3 (hp hn)).2⟩
  induction h with
  | init => simp [Hostile.init]
  | step hr hs ih =>
    intro hn
    cases hs with
    | calm | wakeCalls | cloneCalls | dropCalls | callsAgain | wakeEnds => exact ih fun e he => hn e (by simp [he])
    | wakePanics c | wakePanicsLate c => have := hn (.sendPanic c) (by simp); cases this
    | clonePanics p | clonePanicsLate p | dropPanics p | dropPanicsLate p => have := hn (.pollPanic p) (by simp); cases this
    | sendPoisoned c => have := hn (.sendPanic c) (by simp); cases this
    | pollPoisoned p => have := hn (.pollPanic p) (by simp); cases this

/-- C94, for a `send` that returns. What is missing: a `send` that panics because a waker did. -/
theorem C94_partial (h : HReachable st) {c p : Nat} {l₁ l₂ : List HEvent} (hl : st.log = l₁ ++ .calm (.sendLocked c) :: l₂)
    (hp : .calm (.pollPending p) ∈ l₁) (hn : ∀ d, .calm (.woke d p) ∉ l₁) (he : .calm (.sendEnd c) ∈ l₂) :
    .calm (.woke c p) ∈ l₂ := by
  obtain ⟨st₀, tail, h1, h2, h3, -⟩ := C94_until h
  rw [hl, calmOf_append, show calmOf (.calm (.sendLocked c) :: l₂) = .sendLocked c :: calmOf l₂ from rfl] at h2
  have hend : .sendEnd c ∈ st₀.log := by
    have : .sendEnd c ∈ st₀.log ++ tail := by rw [← h2]; simp [mem_calmOf, he]
    rcases List.mem_append.mp this with h | h
    · exact h
    · have := h3 _ h; cases this
  have hsplit : ∃ m, st₀.log = calmOf l₁ ++ .sendLocked c :: m ∧ calmOf l₂ = m ++ tail := by
    rcases List.append_eq_append_iff.mp h2 with ⟨m, g1, g2⟩ | ⟨m, g1, g2⟩
    · cases m with
      | nil =>
        have : Event.idle (.sendLocked c) = true := h3 _ (by rw [show tail = _ from g2.symm]; simp)
        cases this
      | cons x m =>
        simp only [List.cons_append, List.cons.injEq] at g2
        obtain ⟨rfl, g2⟩ := g2
        exact ⟨m, g1, g2⟩
    · have : Event.idle (.sendLocked c) = true := h3 _ (by rw [g2]; simp)
      cases this
  obtain ⟨m, g1, g2⟩ := hsplit
  have := C50_wakes_all_sleepers h1 g1 hend (mem_calmOf.mpr hp) (fun d hd => hn d (mem_calmOf.mp hd))
  exact mem_calmOf.mp (by rw [g2]; simp [this])

/-- After a panic nobody is woken any more, no `send` returns, and no `poll` returns `Pending`. -/
theorem C94_silence (h : HReachable st) {l₁ l₂ : List HEvent} {e : HEvent} (hl : st.log = l₁ ++ e :: l₂)
    (he : e.isPanic = true) (c p : Nat) :
    .calm (.woke c p) ∉ l₂ ∧ .calm (.sendEnd c) ∉ l₂ ∧ .calm (.pollPending p) ∉ l₂ := by
  have := (trace h).after l₁ l₂ e hl he
  refine ⟨fun h => ?_, fun h => ?_, fun h => ?_⟩ <;> have := this _ (mem_calmOf.mpr h) <;> cases this

/-- So whoever sleeps when a panic happens sleeps for ever. -/
theorem C94_asleep (h : HReachable st) {l₁ l₂ : List HEvent} {e : HEvent} (hl : st.log = l₁ ++ e :: l₂)
    (he : e.isPanic = true) {p : Nat} (hn : ∀ c, .calm (.woke c p) ∉ l₁) (c : Nat) : .calm (.woke c p) ∉ st.log := by
  rw [hl]
  simp only [List.mem_append, List.mem_cons, not_or]
  refine ⟨hn c, ?_, (C94_silence h hl he c p).1⟩
  rintro rfl
  cases he

/-- But nobody is blocked after a panic: each call goes on, and at the mutex it panics too. -/
theorem C94_goes_on (h : HReachable st) (hp : ∃ e ∈ st.log, e.isPanic = true) {c : Nat} (h1 : st.base.pc c ≠ .absent)
    (h2 : st.base.pc c ≠ .done) : (∃ st', HStep st st' ∧ st'.base.pc c ≠ st.base.pc c) ∧
    (st.base.pc c = .sendLock → ∃ st', HStep st st' ∧ st'.log = st.log ++ [.sendPanic c]) ∧
    (∀ i, st.base.pc c = .pollLock i → ∃ st', HStep st st' ∧ st'.log = st.log ++ [.pollPanic c]) := by
  obtain ⟨e, he, hpan⟩ := hp
  have hpo := (trace h).panic e he hpan
  have hh := held h
  have hfree := hh.free hpo
  have hno : ∀ d, (st.base.pc d).holds = false := by
    intro d
    cases hd : (st.base.pc d).holds with
    | false => rfl
    | true => have := (hh.lock d).mp hd; rw [hfree] at this; cases this
  have hin : ∀ d, st.inside d = none := by
    intro d
    cases hd : st.inside d with
    | none => rfl
    | some x => have := hh.holder hd; rw [hfree] at this; cases this
  refine ⟨?_, fun hc => ⟨_, .sendPoisoned st c hc hfree hpo, rfl⟩, fun i hc => ⟨_, .pollPoisoned st c i hc hfree hpo, rfl⟩⟩
  have hc := hno c
  cases hpc : st.base.pc c with
  | absent => exact absurd hpc h1
  | done => exact absurd hpc h2
  | sendAdd =>
    exact ⟨_, .calm st _ _ (.sendAdd _ c hpc) rfl (fun _ => hfree) (by simp [hin]), by simp [State.goto, State.emit]⟩
  | sendLock => exact ⟨_, .sendPoisoned st c hpc hfree hpo, by simp [State.goto]⟩
  | pollLoad i =>
    by_cases hv : st.base.waits[i]? = some st.base.version
    · exact ⟨_, .calm st _ [] (.pollLoad _ c i hpc hv) (List.append_nil _).symm (fun _ => hfree) (by simp [hin]), by simp [State.goto]⟩
    · exact ⟨_, .calm st _ _ (.pollLoadReady _ c i hpc hv) rfl (fun _ => hfree) (by simp [hin]), by simp [State.goto, State.emit]⟩
  | pollLock i => exact ⟨_, .pollPoisoned st c i hpc hfree hpo, by simp [State.goto]⟩
  | sendDrain | pollInsert | pollRecheck | pollRemove | pollUnlock => rw [hpc] at hc; cases hc

/-! ## C95: a waker that calls back -/

/-- C95: a waker may use the `Notify` that wakes it: its call can come to an end. -/
def C95Statement : Prop := ∀ st, HReachable st → ∀ c d, st.inside c = some d → ∃ st', HSteps st st' ∧ st'.inside c = none

/-- The waker of call `c` has called `d`, which wants the mutex or will. -/
structure Stuck (c d : Nat) (st : Hostile) : Prop where
  inside : st.inside c = some d
  at_ : st.base.pc d = .sendAdd ∨ st.base.pc d = .sendLock ∨ ∃ i, st.base.pc d = .pollLock i

theorem stuck_step (h : HReachable st) {st' : Hostile} {c d : Nat} (hs : Stuck c d st) (hstep : HStep st st') :
    Stuck c d st' ∧ ∃ new, st'.log = st.log ++ new ∧ (∀ x ∈ calmOf new, x.idle = true) ∧ ∀ e ∈ new, e.isPanic = false := by
  obtain ⟨h1, h2⟩ := hs
  have hh := held h
  have hpc := hh.inside c d h1
  have hlock := hh.holder h1
  have hpo := hh.sound hlock
  have honly : ∀ q, (st.base.pc q).holds = true → q = c := by
    intro q hq
    have := (hh.lock q).mp hq
    rw [hlock] at this
    injection this with this
    exact this.symm
  have honly' : ∀ q x, st.inside q = some x → q = c := by
    intro q x hq
    have := hh.holder hq
    rw [hlock] at this
    injection this with this
    exact this.symm
  have hdc := hh.other c d h1
  have hnd : st.base.pc d ≠ .done := by
    intro hd
    rw [hd] at h2
    rcases h2 with h2 | h2 | ⟨i, h2⟩ <;> cases h2
  have hlt : d < st.base.calls := by
    refine Nat.lt_of_not_le fun hle => ?_
    exact hh.begun c d h1 (hh.fresh d hle)
  cases hstep with
  | calm base new hs hl hp hi =>
    have hi := hi c (by simp [h1])
    refine ⟨⟨h1, ?_⟩, new.map .calm, rfl, ?_, ?_⟩
    · show base.pc d = _ ∨ base.pc d = _ ∨ ∃ i, base.pc d = _
      cases hs <;> simp only [State.goto, State.emit] <;> grind
    · rw [calmOf_map]
      obtain ⟨hi1, hi2⟩ := hi
      have hd : (Event.sendEnd c) ∉ new := by
        intro hmem
        cases hs <;> simp only [State.goto, State.emit] at hl hi1 <;> first
          | (have := List.append_cancel_left hl; subst this; simp at hmem; done)
          | (have := List.append_cancel_left (as := st.base.log) (bs := []) (cs := new) (by simpa using hl); subst this; simp at hmem; done)
          | skip
        all_goals (have := List.append_cancel_left hl; subst this; simp at hmem; subst hmem; simp at hi1; grind)
      cases hs <;> simp only [State.goto, State.emit] at hl hi1 <;> first
        | (have := List.append_cancel_left hl; subst this; simp [Event.idle]; done)
        | (have := List.append_cancel_left (as := st.base.log) (bs := []) (cs := new) (by simpa using hl); subst this; simp; done)
        | skip
      all_goals (have := List.append_cancel_left hl; subst this; exfalso)
      all_goals grind [Pc.holds]
    · intro e he
      obtain ⟨x, -, rfl⟩ := List.mem_map.mp he
      rfl
  | wakePanics c' key p pre post hpc' hi' hsl =>
    have := honly c' (by rw [hpc']; rfl)
    subst this
    rw [h1] at hi'; cases hi'
  | clonePanics p i hp hi' =>
    have := honly p (by rw [hp]; rfl)
    subst this
    rw [h1] at hi'; cases hi'
  | dropPanics p i hp hi' =>
    have := honly p (by rw [hp]; rfl)
    subst this
    rw [h1] at hi'; cases hi'
  | sendPoisoned c' hpc' hl' hp' => rw [hpo] at hp'; cases hp'
  | pollPoisoned c' i hpc' hl' hp' => rw [hpo] at hp'; cases hp'
  | wakeCalls c' key p pre post back hpc' hi' hsl hv =>
    have := honly c' (by rw [hpc']; rfl)
    subst this
    rw [h1] at hi'; cases hi'
  | cloneCalls p i back hp hi' hv =>
    have := honly p (by rw [hp]; rfl)
    subst this
    rw [h1] at hi'; cases hi'
  | dropCalls p i back hp hi' hv =>
    have := honly p (by rw [hp]; rfl)
    subst this
    rw [h1] at hi'; cases hi'
  | callsAgain c' d' back hi' hd' hv | wakePanicsLate c' d' hi' hd' hpc' | clonePanicsLate c' d' i hi' hd' hpc'
  | dropPanicsLate c' d' k hi' hd' hpc' | wakeEnds c' d' hi' hd' =>
    have := honly' c' d' hi'
    subst this
    rw [h1] at hi'
    injection hi' with hi'
    subst hi'
    exact absurd hd' hnd

/-- Once a waker has called `send`, or its call of `poll` wants the mutex, neither this call nor the one the waker runs in ever
goes on, nobody is woken by anybody, no `send` returns, and no `poll` returns `Pending`. -/
theorem C95_stuck (h : HReachable st) {c d : Nat} (hc : st.inside c = some d)
    (hd : st.base.pc d = .sendAdd ∨ st.base.pc d = .sendLock ∨ ∃ i, st.base.pc d = .pollLock i) {st' : Hostile}
    (hs : HSteps st st') :
    st'.inside c = some d ∧ (st'.base.pc d = .sendAdd ∨ st'.base.pc d = .sendLock ∨ ∃ i, st'.base.pc d = .pollLock i) ∧
    st'.base.lock = some c ∧
    ∃ new, st'.log = st.log ++ new ∧ ∀ s p, .calm (.woke s p) ∉ new ∧ .calm (.sendEnd s) ∉ new ∧ .sendPanic s ∉ new ∧
      .calm (.pollPending p) ∉ new ∧ .pollPanic p ∉ new := by
  suffices key : HReachable st' ∧ Stuck c d st' ∧ ∃ new, st'.log = st.log ++ new ∧ (∀ x ∈ calmOf new, x.idle = true) ∧
      ∀ e ∈ new, e.isPanic = false by
    obtain ⟨h1, h2, new, h3, h4, h5⟩ := key
    refine ⟨h2.inside, h2.at_, (held h1).holder h2.inside, new, h3, fun s p => ?_⟩
    refine ⟨fun h => ?_, fun h => ?_, fun h => ?_, fun h => ?_, fun h => ?_⟩
    · have := h4 _ (mem_calmOf.mpr h); cases this
    · have := h4 _ (mem_calmOf.mpr h); cases this
    · have := h5 _ h; cases this
    · have := h4 _ (mem_calmOf.mpr h); cases this
    · have := h5 _ h; cases this
  induction hs with
  | refl => exact ⟨h, ⟨hc, hd⟩, [], (List.append_nil _).symm, by simp [calmOf], by simp⟩
  | step _ hstep ih =>
    obtain ⟨h1, h2, new, h3, h4, h5⟩ := ih
    obtain ⟨g1, new', g2, g3, g4⟩ := stuck_step h1 h2 hstep
    refine ⟨.step h1 hstep, g1, new ++ new', by rw [g2, h3, List.append_assoc], ?_, ?_⟩
    · intro x hx
      rw [calmOf_append, List.mem_append] at hx
      exact hx.elim (h4 x) (g3 x)
    · intro e he
      exact (List.mem_append.mp he).elim (h5 e) (g4 e)

/-- A waker that calls `send` never comes back: neither its `send` nor the call it runs in is ever over. -/
theorem C95_send (h : HReachable st) {c d : Nat} (hc : .callsBack c d ∈ st.log) (hd : .calm (.sendBegin d) ∈ st.log) :
    st.inside c = some d ∧ st.base.lock = some c ∧ .calm (.sendEnd c) ∉ st.log ∧ .sendPanic c ∉ st.log ∧
    .calm (.pollReady c) ∉ st.log ∧ .calm (.pollPending c) ∉ st.log ∧ .pollPanic c ∉ st.log ∧
    .calm (.sendEnd d) ∉ st.log ∧ .sendPanic d ∉ st.log := by
  have key : (∀ c d, .callsBack c d ∈ st.log → d < st.base.calls) ∧
      ∀ c d, .callsBack c d ∈ st.log → .calm (.sendBegin d) ∈ st.log → st.inside c = some d ∧
        (st.base.pc d = .sendAdd ∨ st.base.pc d = .sendLock) := by
    clear hc hd
    induction h with
    | init => simp [Hostile.init]
    | @step st st' hr hs ih =>
      obtain ⟨ih1, ih2⟩ := ih
      have hh := held hr
      cases hs with
      | calm base new hs hl hp hi =>
        have hold : ∀ c d, .callsBack c d ∈ st.log ++ new.map .calm → .callsBack c d ∈ st.log := by
          intro c d hm
          simpa using hm
        have hcalls : st.base.calls ≤ base.calls := by
          cases hs <;> simp only [State.goto, State.emit] <;> omega
        refine ⟨fun c d hm => Nat.lt_of_lt_of_le (ih1 c d (hold c d hm)) hcalls, fun c d hm hb => ?_⟩
        have hm := hold c d hm
        have hlt := ih1 c d hm
        have hb : .calm (.sendBegin d) ∈ st.log := by
          rcases List.mem_append.mp hb with hb | hb
          · exact hb
          · exfalso
            have hx : Event.sendBegin d ∈ new := by simpa using hb
            cases hs <;> simp only [State.goto, State.emit] at hl <;> first
              | (have := List.append_cancel_left hl; subst this; simp at hx; done)
              | (have := List.append_cancel_left (as := st.base.log) (bs := []) (cs := new) (by simpa using hl); subst this; simp at hx; done)
              | skip
            have := List.append_cancel_left hl; subst this; simp [State.goto, State.emit] at hx; omega
        obtain ⟨g1, g2⟩ := ih2 c d hm hb
        refine ⟨g1, ?_⟩
        have hpc := hh.inside c d g1
        have hlock := hh.holder g1
        show base.pc d = _ ∨ base.pc d = _
        cases hs <;> simp only [State.goto, State.emit] <;> grind
      | wakePanics c key p pre post hpc hi hsl =>
        refine ⟨fun c' d hm => ih1 c' d (by simpa using hm), fun c' d hm hb => ?_⟩
        obtain ⟨g1, g2⟩ := ih2 c' d (by simpa using hm) (by simpa using hb)
        have e1 := (hh.lock c).mp (by rw [hpc]; rfl)
        have e2 := hh.holder g1
        rw [e1] at e2; injection e2 with e2; subst e2
        rw [g1] at hi; cases hi
      | clonePanics p i hpc hi =>
        refine ⟨fun c' d hm => ih1 c' d (by simpa using hm), fun c' d hm hb => ?_⟩
        obtain ⟨g1, g2⟩ := ih2 c' d (by simpa using hm) (by simpa using hb)
        have e1 := (hh.lock p).mp (by rw [hpc]; rfl)
        have e2 := hh.holder g1
        rw [e1] at e2; injection e2 with e2; subst e2
        rw [g1] at hi; cases hi
      | dropPanics p i hpc hi =>
        refine ⟨fun c' d hm => ih1 c' d (by simpa using hm), fun c' d hm hb => ?_⟩
        obtain ⟨g1, g2⟩ := ih2 c' d (by simpa using hm) (by simpa using hb)
        have e1 := (hh.lock p).mp (by rw [hpc]; rfl)
        have e2 := hh.holder g1
        rw [e1] at e2; injection e2 with e2; subst e2
        rw [g1] at hi; cases hi
      | sendPoisoned c hpc hl hp =>
        refine ⟨fun c' d hm => ih1 c' d (by simpa using hm), fun c' d hm hb => ?_⟩
        obtain ⟨g1, g2⟩ := ih2 c' d (by simpa using hm) (by simpa using hb)
        have e2 := hh.holder g1
        rw [hl] at e2; cases e2
      | pollPoisoned p i hpc hl hp =>
        refine ⟨fun c' d hm => ih1 c' d (by simpa using hm), fun c' d hm hb => ?_⟩
        obtain ⟨g1, g2⟩ := ih2 c' d (by simpa using hm) (by simpa using hb)
        have e2 := hh.holder g1
        rw [hl] at e2; cases e2
      | wakeCalls c key p pre post back hpc hi hsl hv =>
        refine ⟨fun c' d hm => ?_, fun c' d hm hb => ?_⟩
        · simp only [State.goto, State.emit]
          simp at hm
          rcases hm with hm | ⟨-, rfl⟩
          · have := ih1 c' d hm; omega
          · omega
        · simp at hm
          rcases hm with hm | ⟨rfl, rfl⟩
          · have hlt := ih1 c' d hm
            have hb : .calm (.sendBegin d) ∈ st.log := by
              cases back <;> simp [Back.event] at hb
              · rcases hb with hb | hb
                · exact hb
                · omega
              · exact hb
            obtain ⟨g1, g2⟩ := ih2 c' d hm hb
            have e1 := (hh.lock c).mp (by rw [hpc]; rfl)
            have e2 := hh.holder g1
            rw [e1] at e2; injection e2 with e2; subst e2
            rw [g1] at hi; cases hi
          · refine ⟨by simp, ?_⟩
            cases back with
            | send => exact .inl (by simp [State.goto, State.emit, Back.pc])
            | poll i =>
              exfalso
              simp [Back.event] at hb
              have hpo := hh.sound ((hh.lock c').mp (by rw [hpc]; rfl))
              obtain ⟨st₀, tail, t1, t2, t3, -⟩ := (trace hr).calm
              obtain ⟨rfl, rfl⟩ := t3 hpo
              have := (calls t1).sendOld _ (by rw [← List.append_nil st.base.log, ← t2]; exact mem_calmOf.mpr hb)
              omega
      | cloneCalls c i back hpc hi hv =>
        refine ⟨fun c' d hm => ?_, fun c' d hm hb => ?_⟩
        · simp only [State.goto, State.emit]
          simp at hm
          rcases hm with hm | ⟨-, rfl⟩
          · have := ih1 c' d hm; omega
          · omega
        · simp at hm
          rcases hm with hm | ⟨rfl, rfl⟩
          · have hlt := ih1 c' d hm
            have hb : .calm (.sendBegin d) ∈ st.log := by
              cases back <;> simp [Back.event] at hb
              · rcases hb with hb | hb
                · exact hb
                · omega
              · exact hb
            obtain ⟨g1, g2⟩ := ih2 c' d hm hb
            have e1 := (hh.lock c).mp (by rw [hpc]; rfl)
            have e2 := hh.holder g1
            rw [e1] at e2; injection e2 with e2; subst e2
            rw [g1] at hi; cases hi
          · refine ⟨by simp, ?_⟩
            cases back with
            | send => exact .inl (by simp [State.goto, State.emit, Back.pc])
            | poll i =>
              exfalso
              simp [Back.event] at hb
              have hpo := hh.sound ((hh.lock c').mp (by rw [hpc]; rfl))
              obtain ⟨st₀, tail, t1, t2, t3, -⟩ := (trace hr).calm
              obtain ⟨rfl, rfl⟩ := t3 hpo
              have := (calls t1).sendOld _ (by rw [← List.append_nil st.base.log, ← t2]; exact mem_calmOf.mpr hb)
              omega
      | dropCalls c i back hpc hi hv =>
        refine ⟨fun c' d hm => ?_, fun c' d hm hb => ?_⟩
        · simp only [State.goto, State.emit]
          simp at hm
          rcases hm with hm | ⟨-, rfl⟩
          · have := ih1 c' d hm; omega
          · omega
        · simp at hm
          rcases hm with hm | ⟨rfl, rfl⟩
          · have hlt := ih1 c' d hm
            have hb : .calm (.sendBegin d) ∈ st.log := by
              cases back <;> simp [Back.event] at hb
              · rcases hb with hb | hb
                · exact hb
                · omega
              · exact hb
            obtain ⟨g1, g2⟩ := ih2 c' d hm hb
            have e1 := (hh.lock c).mp (by rw [hpc]; rfl)
            have e2 := hh.holder g1
            rw [e1] at e2; injection e2 with e2; subst e2
            rw [g1] at hi; cases hi
          · refine ⟨by simp, ?_⟩
            cases back with
            | send => exact .inl (by simp [State.goto, State.emit, Back.pc])
            | poll i =>
              exfalso
              simp [Back.event] at hb
              have hpo := hh.sound ((hh.lock c').mp (by rw [hpc]; rfl))
              obtain ⟨st₀, tail, t1, t2, t3, -⟩ := (trace hr).calm
              obtain ⟨rfl, rfl⟩ := t3 hpo
              have := (calls t1).sendOld _ (by rw [← List.append_nil st.base.log, ← t2]; exact mem_calmOf.mpr hb)
              omega
      | callsAgain c d₀ back hi hd hv =>
        refine ⟨fun c' d hm => ?_, fun c' d hm hb => ?_⟩
        · simp only [State.goto, State.emit]
          simp at hm
          rcases hm with hm | ⟨-, rfl⟩
          · have := ih1 c' d hm; omega
          · omega
        · simp at hm
          rcases hm with hm | ⟨rfl, rfl⟩
          · have hlt := ih1 c' d hm
            have hb : .calm (.sendBegin d) ∈ st.log := by
              cases back <;> simp [Back.event] at hb
              · rcases hb with hb | hb
                · exact hb
                · omega
              · exact hb
            obtain ⟨g1, g2⟩ := ih2 c' d hm hb
            have e1 := hh.holder hi
            have e2 := hh.holder g1
            rw [e1] at e2; injection e2 with e2; subst e2
            rw [g1] at hi; injection hi with hi; subst hi
            rw [hd] at g2; rcases g2 with g2 | g2 <;> cases g2
          · refine ⟨by simp, ?_⟩
            cases back with
            | send => exact .inl (by simp [State.goto, State.emit, Back.pc])
            | poll i =>
              exfalso
              simp [Back.event] at hb
              have hpo := hh.sound (hh.holder hi)
              obtain ⟨st₀, tail, t1, t2, t3, -⟩ := (trace hr).calm
              obtain ⟨rfl, rfl⟩ := t3 hpo
              have := (calls t1).sendOld _ (by rw [← List.append_nil st.base.log, ← t2]; exact mem_calmOf.mpr hb)
              omega
      | wakePanicsLate c d hi hd hpc | clonePanicsLate c d i hi hd hpc | dropPanicsLate c d k hi hd hpc | wakeEnds c d hi hd =>
        refine ⟨fun c' d hm => ih1 c' d (by simpa using hm), fun c' d' hm hb => ?_⟩
        obtain ⟨g1, g2⟩ := ih2 c' d' (by simpa using hm) (by simpa using hb)
        have e1 := hh.holder hi
        have e2 := hh.holder g1
        rw [e1] at e2; injection e2 with e2; subst e2
        rw [g1] at hi; injection hi with hi; subst hi
        rw [hd] at g2; rcases g2 with g2 | g2 <;> cases g2
  obtain ⟨g1, g2⟩ := key.2 c d hc hd
  have hh := held h
  have hpc := hh.inside c d g1
  have hlock := hh.holder g1
  have hpo := hh.sound hlock
  have hnd : st.base.pc c ≠ .done := by
    intro h; rw [h] at hpc; rcases hpc with h | ⟨i, h⟩ | ⟨k, h⟩ <;> cases h
  obtain ⟨st₀, tail, t1, t2, t3, -⟩ := (trace h).calm
  obtain ⟨rfl, rfl⟩ := t3 hpo
  have hlog : ∀ e, .calm e ∈ st.log → e ∈ st.base.log := by
    intro e he; rw [← List.append_nil st.base.log, ← t2]; exact mem_calmOf.mpr he
  refine ⟨g1, hlock, fun he => ?_, fun he => ?_, fun he => ?_, fun he => ?_, fun he => ?_, fun he => ?_, fun he => ?_⟩
  · exact hnd ((calls t1).sendEnd c (hlog _ he)).1
  · have := (trace h).panic _ he rfl; rw [hpo] at this; cases this
  · exact hnd ((calls t1).readyAt c (hlog _ he))
  · rcases (calls t1).checkedAt c ((calls t1).pending c (hlog _ he)) with h | h
    · rw [h] at hpc; rcases hpc with h | ⟨i, h⟩ | ⟨k, h⟩ <;> cases h
    · exact hnd h
  · have := (trace h).panic _ he rfl; rw [hpo] at this; cases this
  · have := ((calls t1).sendEnd d (hlog _ he)).1
    rw [this] at g2; rcases g2 with g2 | g2 <;> cases g2
  · have := (trace h).panic _ he rfl; rw [hpo] at this; cases this

theorem hsteps_reachable (h : HReachable st) {st' : Hostile} (hs : HSteps st st') : HReachable st' := by
  induction hs with
  | refl => exact h
  | step _ hst ih => exact .step ih hst

/-- A waker that polls a `Wait` that is ready goes on. -/
theorem goes_on (h : HReachable st) {c d i : Nat} (hc : st.inside c = some d) (hd : st.base.pc d = .pollLoad i)
    (hv : st.base.waits[i]? ≠ some st.base.version) :
    ∃ st' st'', HStep st st' ∧ HStep st' st'' ∧ st''.inside c = none ∧
      st''.log = st.log ++ [.calm (.pollReady d), .wakerEnds c d] := by
  have hh := held h
  have hlock := hh.holder hc
  have hpo := hh.sound hlock
  have hdc := hh.other c d hc
  have hone : ∀ q, st.inside q ≠ none → q = c := by
    intro q hq
    obtain ⟨x, hx⟩ := Option.ne_none_iff_exists'.mp hq
    have := hh.holder hx
    rw [hlock] at this; injection this with this; exact this.symm
  refine ⟨_, _, .calm st _ _ (.pollLoadReady _ d i hd hv) rfl (by simp [hpo]) ?_,
    .wakeEnds _ c d hc (by simp [State.goto, State.emit]), by simp, ?_⟩
  · intro q hq
    rw [hone q hq]
    exact ⟨by simp [State.goto, State.emit, Ne.symm hdc], by simp⟩
  · simp [State.goto, State.emit]

/-- C95, for a waker that polls a `Wait` made before a `send` began to notify, such as the one that wakes it: the poll returns
`Ready` and the waker goes on. What is missing: polling other `Wait`s, and `send`. -/
theorem C95_partial (h : HReachable st) {c d i s : Nat} {m₁ m₂ : List HEvent} (hc : st.inside c = some d)
    (hd : st.base.pc d = .pollLoad i) (hl : st.log = m₁ ++ .calm (.waitMade i) :: m₂) (ha : .calm (.sendAdd s) ∈ m₂)
    (hfew : adds (calmOf m₂) < wrap) :
    ∃ st' st'', HStep st st' ∧ HStep st' st'' ∧ st''.inside c = none ∧
      st''.log = st.log ++ [.calm (.pollReady d), .wakerEnds c d] := by
  have hh := held h
  have hlock := hh.holder hc
  have hpo := hh.sound hlock
  obtain ⟨st₀, tail, t1, t2, t3, -⟩ := (trace h).calm
  obtain ⟨rfl, rfl⟩ := t3 hpo
  rw [hl, calmOf_append, List.append_nil] at t2
  have t2 : st.base.log = calmOf m₁ ++ .waitMade i :: calmOf m₂ := t2.symm
  have hv : st.base.waits[i]? ≠ some st.base.version := by
    have hn := counts t1
    have hpos : 0 < adds (calmOf m₂) := by
      rw [adds, List.countP_pos_iff]
      exact ⟨_, mem_calmOf.mpr ha, rfl⟩
    rw [hn.waits i _ _ t2, hn.version, t2, adds_append, adds_cons_other (by simp)]
    intro he
    injection he with he
    rw [wrap] at *
    omega
  exact goes_on h hc hd hv

/-- What a waker calls comes to an end exactly if it is over, or is a `poll` that has not found its `Wait` unready. -/
theorem C95_exact (h : HReachable st) {c d : Nat} (hc : st.inside c = some d) :
    (∃ st', HSteps st st' ∧ st'.inside c = none) ↔ st.base.pc d = .done ∨ ∃ i, st.base.pc d = .pollLoad i := by
  have hh := held h
  have hlock := hh.holder hc
  have hpo := hh.sound hlock
  have hpcc := hh.inside c d hc
  constructor
  · rintro ⟨st', hs, hn⟩
    have hno : (st.base.pc d).holds = false := by
      cases hd : (st.base.pc d).holds with
      | false => rfl
      | true =>
        have := (hh.lock d).mp hd
        rw [hlock] at this; injection this with this
        exact absurd this.symm (hh.other c d hc)
    have hst : ¬ (st.base.pc d = .sendAdd ∨ st.base.pc d = .sendLock ∨ ∃ i, st.base.pc d = .pollLock i) := by
      intro hd
      have := (C95_stuck h hc hd hs).1
      rw [hn] at this; cases this
    have hb := hh.begun c d hc
    cases hpc : st.base.pc d <;> rw [hpc] at hno hst hb <;> simp_all [Pc.holds]
  · rintro (hd | ⟨i, hd⟩)
    · exact ⟨_, .step (.refl st) (.wakeEnds st c d hc hd), by simp⟩
    by_cases hv : st.base.waits[i]? = some st.base.version
    · have hone : ∀ q, st.inside q ≠ none → q = c := by
        intro q hq
        obtain ⟨x, hx⟩ := Option.ne_none_iff_exists'.mp hq
        have := hh.holder hx
        rw [hlock] at this; injection this with this; exact this.symm
      have hlt : ∀ q, st.base.pc q ≠ .absent → q ≠ st.base.calls := by
        rintro q hq rfl
        exact hq (hh.fresh _ (Nat.le_refl _))
      have hcn : c ≠ st.base.calls := hlt c (by rintro h; rw [h] at hpcc; rcases hpcc with h | ⟨i, h⟩ | ⟨k, h⟩ <;> cases h)
      have hdn : d ≠ st.base.calls := hlt d (hh.begun c d hc)
      have s1 := HStep.calm st _ _ (.sendBegin _) rfl (by simp [hpo]) (by
        intro q hq; rw [hone q hq]; exact ⟨by simp [State.goto, State.emit, hcn], by simp⟩)
      have q2 := HSteps.step (.step (.refl st) s1) (.calm _ _ _ (.sendAdd _ st.base.calls (by simp [State.goto, State.emit])) rfl
        (by simp [hpo]) (by intro q hq; rw [hone q hq]; exact ⟨by simp [State.goto, State.emit, hcn], by simp⟩))
      obtain ⟨st', st'', s3, s4, hn, -⟩ := goes_on (hsteps_reachable h q2) (c := c) (d := d) (i := i) hc
        (by simp [State.goto, State.emit, hdn, hd]) (by
          simp only [State.goto, State.emit]
          rw [hv]
          intro he
          injection he with he
          rw [wrap] at he
          omega)
      exact ⟨st'', .step (.step q2 s3) s4, hn⟩
    · obtain ⟨st', st'', s1, s2, hn, -⟩ := goes_on h hc hd hv
      exact ⟨st'', .step (.step (.refl st) s1) s2, hn⟩

/-- A task sleeps; its waker calls `send` when it is woken. -/
theorem C95_false : ¬ C95Statement := by
  intro hC
  obtain ⟨st, h1, h2, h3, h4, h5, h6, h7⟩ := run_polls 1
  have r1 := Reachable.step h1 (.sendBegin st)
  have r2 := Reachable.step r1 (.sendAdd _ st.calls (by simp [State.goto, State.emit]))
  have r3 := Reachable.step r2 (.sendLock _ st.calls (by simp [State.goto, State.emit]) h2)
  obtain ⟨k, hsl⟩ : ∃ k, st.slab = [(k, 0)] := by
    match hs : st.slab, h4, h6 with
    | [(k, a)], _, h6 =>
      have : a = 0 := by simpa [List.range_succ] using h6
      exact ⟨k, by rw [this]⟩
  have r4 := HReachable.step (hostile_calm r3) (.wakeCalls _ st.calls k 0 [] [] .send (by simp [State.goto, State.emit]) rfl hsl trivial)
  obtain ⟨st', hs, hn⟩ := hC _ r4 st.calls (st.calls + 1) (by simp [State.goto, State.emit])
  have hreach : ∀ {a b : Hostile}, HReachable a → HSteps a b → HReachable b ∧ ∀ e ∈ a.log, e ∈ b.log := by
    intro a b ha hs
    induction hs with
    | refl => exact ⟨ha, fun _ h => h⟩
    | step _ hst ih =>
      refine ⟨.step ih.1 hst, fun e he => ?_⟩
      have := ih.2 e he
      cases hst <;> simp [this]
  obtain ⟨g1, g2⟩ := hreach r4 hs
  have := (C95_send g1 (c := st.calls) (d := st.calls + 1) (g2 _ (by simp [State.goto, State.emit]))
    (g2 _ (by simp [State.goto, State.emit, Back.event]))).1
  rw [hn] at this; cases this

/-- A case of `C95_partial`: a task sleeps; its waker, woken by `send`, polls the same `Wait` again, as an executor that runs
tasks inside `wake` would. -/
theorem C95_case : ∃ (st : Hostile) (c d : Nat) (m₁ m₂ : List HEvent), HReachable st ∧ st.inside c = some d ∧
    st.base.pc d = .pollLoad 0 ∧ st.log = m₁ ++ .calm (.waitMade 0) :: m₂ ∧ .calm (.sendAdd c) ∈ m₂ ∧
    adds (calmOf m₂) < wrap := by
  obtain ⟨st, h1, h2, h3, h4, h5, h6, h7⟩ := run_polls 1
  have r1 := Reachable.step h1 (.sendBegin st)
  have r2 := Reachable.step r1 (.sendAdd _ st.calls (by simp [State.goto, State.emit]))
  have r3 := Reachable.step r2 (.sendLock _ st.calls (by simp [State.goto, State.emit]) h2)
  obtain ⟨k, hsl⟩ : ∃ k, st.slab = [(k, 0)] := by
    match hs : st.slab, h4, h6 with
    | [(k, a)], _, h6 =>
      have : a = 0 := by simpa [List.range_succ] using h6
      exact ⟨k, by rw [this]⟩
  have r4 := HReachable.step (hostile_calm r3) (.wakeCalls _ st.calls k 0 [] [] (.poll 0) (by simp [State.goto, State.emit]) rfl
    hsl (by show 0 < st.waits.length; simp [h3]))
  refine ⟨_, 1, 2, [], ([.pollBegin 0 0, .pollChecked 0, .pollPending 0, .sendBegin 1, .sendAdd 1, .sendLocked 1].map .calm) ++
    [.calm (.woke 1 0), .callsBack 1 2, .calm (.pollBegin 2 0)], r4, ?_, ?_, ?_, ?_, ?_⟩
  · simp [State.goto, State.emit, h5]
  · simp [State.goto, State.emit, h5, Back.pc]
  · simp [State.goto, State.emit, h5, h7, List.range_succ, Back.event]
  · simp
  · decide

/-- A case of `C95_send` with a `poll`: cloning its waker polls the same `Wait`, which another `send` makes ready, and then calls
`send`. -/
theorem C95_case_clone : ∃ st : Hostile, HReachable st ∧ .calm (.pollBegin 1 0) ∈ st.log ∧ .callsBack 1 2 ∈ st.log ∧
    .calm (.pollReady 2) ∈ st.log ∧ .callsBack 1 3 ∈ st.log ∧ .calm (.sendBegin 3) ∈ st.log := by
  have r1 := Reachable.step .init (.sendBegin _)
  have r2 := Reachable.step r1 (.wait _)
  have r3 := Reachable.step r2 (.pollBegin _ 0 (by simp [State.goto, State.emit]))
  have r4 := Reachable.step r3 (.pollLoad _ 1 0 (by simp [State.goto, State.emit, init]) (by simp [State.goto, State.emit, init]))
  have r5 := Reachable.step r4 (.pollLock _ 1 0 (by simp [State.goto, State.emit]) (by simp [State.goto, State.emit, init]))
  have h1 := HReachable.step (hostile_calm r5) (.cloneCalls _ 1 0 (.poll 0) (by simp [State.goto]) rfl
    (by simp [Back.valid, State.goto, State.emit]))
  have h2 := HReachable.step h1 (.calm _ _ _ (.sendAdd _ 0 (by simp [State.goto, State.emit, init])) rfl (by simp) (by
    intro c hc
    by_cases h : c = 1
    · subst h; simp [State.goto, State.emit]
    · simp [h] at hc))
  have h3 := HReachable.step h2 (.calm _ _ _ (.pollLoadReady _ 2 0 (by simp [State.goto, State.emit, init, Back.pc])
    (by simp [State.goto, State.emit, init, wrap])) rfl (by simp) (by
    intro c hc
    by_cases h : c = 1
    · subst h; simp [State.goto, State.emit]
    · simp [h] at hc))
  have h4 := HReachable.step h3 (.callsAgain _ 1 2 .send (by simp [State.goto, State.emit, init]) (by simp [State.goto, State.emit])
    trivial)
  refine ⟨_, h4, ?_⟩
  simp [State.goto, State.emit, init, Back.event]

/-- A case of `C95_send` with a destructor: while a `poll` registers its waker, a `send` makes its `Wait` ready, so the waker is
dropped again; dropping it calls `send`. -/
theorem C95_case_drop : ∃ st : Hostile, HReachable st ∧ .calm (.pollBegin 0 0) ∈ st.log ∧ .calm (.sendAdd 1) ∈ st.log ∧
    .callsBack 0 2 ∈ st.log ∧ .calm (.sendBegin 2) ∈ st.log := by
  have r1 := Reachable.step .init (.wait _)
  have r2 := Reachable.step r1 (.pollBegin _ 0 (by simp [State.emit]))
  have r3 := Reachable.step r2 (.pollLoad _ 0 0 (by simp [State.goto, State.emit, init]) (by simp [State.goto, State.emit, init]))
  have r4 := Reachable.step r3 (.pollLock _ 0 0 (by simp [State.goto]) (by simp [State.goto, State.emit, init]))
  have r5 := Reachable.step r4 (.pollInsert _ 0 0 0 (by simp [State.goto]) (by simp [State.goto, State.emit, init]))
  have r6 := Reachable.step r5 (.sendBegin _)
  have r7 := Reachable.step r6 (.sendAdd _ 1 (by simp [State.goto, State.emit, init]))
  have r8 := Reachable.step r7 (.pollRecheckReady _ 0 0 0 (by simp [State.goto, State.emit, init])
    (by simp [State.goto, State.emit, init, wrap]))
  have h1 := HReachable.step (hostile_calm r8) (.dropCalls _ 0 0 .send (by simp [State.goto]) rfl trivial)
  refine ⟨_, h1, ?_⟩
  simp [State.goto, State.emit, init, Back.event]

/-- A case of `C94_partial` in which a waker panics later: two tasks sleep and are woken; then a poll panics. -/
theorem C94_case : ∃ (st : Hostile) (l₁ l₂ : List HEvent), HReachable st ∧ st.log = l₁ ++ .calm (.sendLocked 2) :: l₂ ∧
    .calm (.pollPending 1) ∈ l₁ ∧ (∀ d, .calm (.woke d 1) ∉ l₁) ∧ .calm (.sendEnd 2) ∈ l₂ ∧ .pollPanic 3 ∈ l₂ := by
  obtain ⟨st, h1, h2, h3, h4, h5, h6, h7⟩ := run_polls 2
  have r1 := Reachable.step h1 (.sendBegin st)
  have r2 := Reachable.step r1 (.sendAdd _ st.calls (by simp [State.goto, State.emit]))
  have r3 := Reachable.step r2 (.sendLock _ st.calls (by simp [State.goto, State.emit]) h2)
  obtain ⟨k, k', hsl⟩ : ∃ k k', st.slab = [(k, 0), (k', 1)] := by
    match hs : st.slab, h4, h6 with
    | [(k, a), (k', b)], _, h6 =>
      have : a = 0 ∧ b = 1 := by simpa [List.range_succ] using h6
      exact ⟨k, k', by rw [this.1, this.2]⟩
  have r4 := Reachable.step r3 (.sendWake _ st.calls k 0 [] [(k', 1)] (by simp [State.goto, State.emit]) hsl)
  have r5 := Reachable.step r4 (.sendWake _ st.calls k' 1 [] [] (by simp [State.goto, State.emit]) (by simp [State.goto, State.emit]))
  have r6 := Reachable.step r5 (.sendEnd _ st.calls (by simp [State.goto, State.emit]) (by simp [State.goto, State.emit]))
  have r7 := Reachable.step r6 (.wait _)
  have r8 := Reachable.step r7 (.pollBegin _ 1 (by simp [State.goto, State.emit, h3]))
  have r9 := Reachable.step r8 (.pollLoad _ (st.calls + 1) 1 (by simp [State.goto, State.emit]) (by simp [State.goto, State.emit, h3]))
  have r10 := Reachable.step r9 (.pollLock _ (st.calls + 1) 1 (by simp [State.goto, State.emit]) (by simp [State.goto, State.emit]))
  have r11 := HReachable.step (hostile_calm r10) (.clonePanics _ (st.calls + 1) 1 (by simp [State.goto, State.emit]) rfl)
  refine ⟨_, [.waitMade 0, .pollBegin 0 0, .pollChecked 0, .pollPending 0, .pollBegin 1 0, .pollChecked 1,
    .pollPending 1, .sendBegin 2, .sendAdd 2].map .calm, ([.woke 2 0, .woke 2 1, .sendEnd 2, .waitMade 1, .pollBegin 3 1].map
    .calm) ++ [.pollPanic 3], r11, ?_, ?_, ?_, ?_, ?_⟩
  · simp [State.goto, State.emit, h3, h5, h7, List.range_succ]
  all_goals simp

end Parcom.Notify
