import Verif.Props.NotifyHostile
/-!
# C94: the wakers stored after a panic
-/
namespace Parcom.Notify

/-- Who has seen the version unchanged is about to return `Pending` or has; and its waker is stored until it is woken. -/
structure Sleeps (st : State) : Prop where
  returns : ∀ p, .pollChecked p ∈ st.log → st.pc p = .pollUnlock ∨ .pollPending p ∈ st.log
  stored : ∀ p, .pollChecked p ∈ st.log → (∃ k, (k, p) ∈ st.slab) ∨ ∃ c, .woke c p ∈ st.log

theorem sleeps {st : State} (h : Reachable st) : Sleeps st := by
  induction h with
  | init => constructor <;> simp [init]
  | @step st st' hr hs ih =>
    have hc := calls hr
    have hg := registered hr
    obtain ⟨h1, h2⟩ := ih
    have hat := hc.checkedAt
    have hfresh := hc.fresh
    cases hs with
    | pollRemove p key hpc =>
      have hcp := hc.checkedAt p
      have hmem := hg.atRemove p key hpc
      constructor
      · simp only [State.goto, State.emit]; grind
      · intro q hq
        simp only [State.goto, State.emit, List.mem_append, List.mem_singleton, reduceCtorEq, or_false] at hq ⊢
        rcases h2 q hq with ⟨k, hk⟩ | h
        · refine .inl ⟨k, ?_⟩
          simp only [List.mem_filter, hk, true_and, decide_eq_true_eq]
          rintro rfl
          have := nodup_fst hg.keys hk hmem
          subst this
          rcases hcp hq with h | h <;> rw [hpc] at h <;> cases h
        · exact .inr h
    | sendWake c key p pre post hpc hsl =>
      constructor
      · simp only [State.emit]; grind
      · intro q hq
        simp only [State.emit, List.mem_append, List.mem_singleton, reduceCtorEq, or_false] at hq ⊢
        rcases h2 q hq with ⟨k, hk⟩ | ⟨d, h⟩
        · rw [hsl] at hk
          simp only [List.mem_append, List.mem_cons, Prod.mk.injEq] at hk
          rcases hk with hk | ⟨-, rfl⟩ | hk
          · exact .inl ⟨k, .inl hk⟩
          · exact .inr ⟨c, .inr rfl⟩
          · exact .inl ⟨k, .inr hk⟩
        · exact .inr ⟨d, .inl h⟩
    | pollRecheck p i key hpc hv =>
      have hmem := hg.atRecheck p i key hpc
      constructor <;> simp only [State.goto, State.emit] <;> grind
    | _ => constructor <;> simp only [State.goto, State.emit] <;> grind

/-- Who sleeps according to the log. -/
def Sleeper (log : List HEvent) (p : Nat) : Prop := .calm (.pollPending p) ∈ log ∧ ∀ c, .calm (.woke c p) ∉ log

/-- While `c` holds the mutex and has not returned, the wakers stored but its own are those of the sleepers. -/
theorem stored_iff {st : State} (h : Reachable st) {c : Nat} (hc : st.lock = some c) (p : Nat) :
    (∃ k, (k, p) ∈ st.slab) ∧ p ≠ c ↔ p ≠ c ∧ .pollPending p ∈ st.log ∧ ∀ d, .woke d p ∉ st.log := by
  have hcs := calls h
  have hg := registered h
  have hsl := sleeps h
  have only : ∀ q, (st.pc q).holds = true → q = c := by
    intro q hq
    have := (hcs.lock q).mp hq
    rw [hc] at this
    exact (Option.some.inj this).symm
  constructor
  · rintro ⟨⟨k, hk⟩, hne⟩
    refine ⟨hne, ?_, fun d => hg.asleep k p d hk⟩
    rcases hg.owner k p hk with ⟨i, h⟩ | h | h
    · exact absurd (only p (by rw [h]; rfl)) hne
    · exact absurd (only p (by rw [h]; rfl)) hne
    · rcases hsl.returns p h with h | h
      · exact absurd (only p (by rw [h]; rfl)) hne
      · exact h
  · rintro ⟨hne, hp, hw⟩
    refine ⟨?_, hne⟩
    rcases hsl.stored p (hcs.pending p hp) with h | ⟨d, hd⟩
    · exact h
    · exact absurd hd (hw d)

/-- A `poll` at `insert`: its waker is not stored and it does not sleep. -/
theorem stored_insert {st : State} (h : Reachable st) {c i : Nat} (hpc : st.pc c = .pollInsert i) (p : Nat) :
    p ∈ st.slab.map Prod.snd ↔ .pollPending p ∈ st.log ∧ ∀ d, .woke d p ∉ st.log := by
  have hcs := calls h
  have hg := registered h
  have hnot : .pollChecked c ∉ st.log := fun hk => by rcases hcs.checkedAt c hk with h | h <;> rw [hpc] at h <;> cases h
  have := stored_iff h ((hcs.lock c).mp (by rw [hpc]; rfl)) p
  by_cases hp : p = c
  · subst hp
    constructor
    · intro hm
      obtain ⟨⟨k, q⟩, hk, rfl⟩ := List.mem_map.mp hm
      rcases hg.owner k q hk with ⟨i, h⟩ | h | h
      · rw [hpc] at h; cases h
      · rw [hpc] at h; cases h
      · exact absurd h hnot
    · rintro ⟨h, -⟩; exact absurd (hcs.pending _ h) hnot
  · have : (∃ k, (k, p) ∈ st.slab) ↔ .pollPending p ∈ st.log ∧ ∀ d, .woke d p ∉ st.log := by simpa [hp] using this
    rw [← this]; simp

/-- A `poll` at `remove`: without its waker, the wakers stored are those of the sleepers. -/
theorem stored_remove {st : State} (h : Reachable st) {c key : Nat} (hpc : st.pc c = .pollRemove key) (p : Nat) :
    p ∈ (st.slab.filter fun e => e.1 ≠ key).map Prod.snd ↔ .pollPending p ∈ st.log ∧ ∀ d, .woke d p ∉ st.log := by
  have hcs := calls h
  have hg := registered h
  have hmem := hg.atRemove c key hpc
  have hnot : .pollChecked c ∉ st.log := fun hk => by rcases hcs.checkedAt c hk with h | h <;> rw [hpc] at h <;> cases h
  have := stored_iff h ((hcs.lock c).mp (by rw [hpc]; rfl)) p
  by_cases hp : p = c
  · subst hp
    constructor
    · intro hm
      obtain ⟨⟨k, q⟩, hk, rfl⟩ := List.mem_map.mp hm
      simp only [List.mem_filter, decide_eq_true_eq] at hk
      exact absurd (nodup_snd hg.wakers hk.1 hmem) hk.2
    · rintro ⟨h, -⟩; exact absurd (hcs.pending _ h) hnot
  · have : (∃ k, (k, p) ∈ st.slab) ↔ .pollPending p ∈ st.log ∧ ∀ d, .woke d p ∉ st.log := by simpa [hp] using this
    rw [← this]
    constructor
    · intro hm
      obtain ⟨⟨k, q⟩, hk, rfl⟩ := List.mem_map.mp hm
      exact ⟨k, (List.mem_filter.mp hk).1⟩
    · rintro ⟨k, hk⟩
      refine List.mem_map.mpr ⟨(k, p), List.mem_filter.mpr ⟨hk, ?_⟩, rfl⟩
      simp only [decide_eq_true_eq]
      rintro rfl
      exact hp (nodup_fst hg.keys hk hmem)

/-- With nobody holding the mutex and nobody taking it, the wakers stored stay. -/
theorem slab_step {st st' : State} (h : ∀ c, (st.pc c).holds = false) (hs : Step st st') (hl : st'.lock = none) :
    st'.slab = st.slab := by
  cases hs <;> simp only [State.goto, State.emit] at hl ⊢
  all_goals grind [Pc.holds]

/-- The wakers stored after a panic. -/
structure Kept (st : Hostile) : Prop where
  locked : ∀ c, .calm (.sendLocked c) ∈ st.log → st.base.pc c = .sendDrain ∨ st.base.pc c = .done
  drained : ∀ c, .calm (.sendLocked c) ∈ st.log → .sendPanic c ∈ st.log → st.base.slab = []
  rest : st.poisoned = true → (∀ c, .calm (.sendLocked c) ∈ st.log → .sendPanic c ∉ st.log) →
    ∀ p, p ∈ st.base.slab.map Prod.snd ↔ Sleeper st.log p

theorem sleeper_of {log : List HEvent} {base : List Event} (h : calmOf log = base) (p : Nat) :
    Sleeper log p ↔ .pollPending p ∈ base ∧ ∀ d, .woke d p ∉ base := by
  subst h
  simp [Sleeper, mem_calmOf]

theorem locked_step {st st' : State} (hs : Step st st') {new : List Event} (hl : st'.log = st.log ++ new)
    (hf : ∀ c, st.calls ≤ c → st.pc c = .absent) (c : Nat) :
    (st.pc c = .sendDrain ∨ st.pc c = .done → st'.pc c = .sendDrain ∨ st'.pc c = .done) ∧
    (.sendLocked c ∈ new → st'.pc c = .sendDrain) := by
  cases hs <;> simp only [State.goto, State.emit] at hl ⊢ <;> first
    | (have := List.append_cancel_left hl; subst this; constructor <;> grind)
    | (have := List.append_cancel_left (as := st.log) (bs := []) (cs := new) (by simpa using hl); subst this; constructor <;> grind)

theorem kept {st : Hostile} (h : HReachable st) : Kept st := by
  induction h with
  | init => constructor <;> simp [Hostile.init]
  | @step st st' hr hs ih =>
    have hh := held hr
    have ht := trace hr
    obtain ⟨h1, h2, h3⟩ := ih
    have noHolder : st.poisoned = true → ∀ c, (st.base.pc c).holds = false := by
      intro hp c
      cases hc : (st.base.pc c).holds with
      | false => rfl
      | true => have := (hh.lock c).mp hc; rw [hh.free hp] at this; cases this
    have sound : ∀ {c}, (st.base.pc c).holds = true → st.poisoned = false ∧ Reachable st.base ∧ calmOf st.log = st.base.log := by
      intro c hc
      have hpo := hh.sound ((hh.lock c).mp hc)
      obtain ⟨st₀, tail, g1, g2, g3, -⟩ := ht.calm
      obtain ⟨rfl, rfl⟩ := g3 hpo
      exact ⟨hpo, g1, by simpa using g2⟩
    have calmly : st.poisoned = false → ∀ c, .sendPanic c ∉ st.log := fun hp c hc => by
      have := ht.panic _ hc rfl; rw [hp] at this; cases this
    cases hs with
    | calm base new hs hl hp hi =>
      have hlk := locked_step hs hl hh.fresh
      have hidle : st.poisoned = true → ∀ e ∈ new, e.idle = true := fun h => step_idle (noHolder h) hs (hp h) hl
      have hpanic : ∀ c, .sendPanic c ∈ st.log ++ new.map HEvent.calm ↔ .sendPanic c ∈ st.log := by simp
      refine ⟨fun c hc => ?_, fun c hc hc' => ?_, fun hpo hn p => ?_⟩
      · simp only [List.mem_append, List.mem_map, HEvent.calm.injEq, exists_eq_right] at hc
        rcases hc with hc | hc
        · exact (hlk c).1 (h1 c hc)
        · exact .inl ((hlk c).2 hc)
      · simp only [hpanic] at hc'
        have hpo := ht.panic _ hc' rfl
        simp only [List.mem_append, List.mem_map, HEvent.calm.injEq, exists_eq_right] at hc
        rcases hc with hc | hc
        · rw [slab_step (noHolder hpo) hs (hp hpo)]; exact h2 c hc hc'
        · have := hidle hpo _ hc; cases this
      · show p ∈ base.slab.map Prod.snd ↔ _
        rw [slab_step (noHolder hpo) hs (hp hpo), h3 hpo (fun c hc hc' => hn c (by simp [hc]) (by simp [hc'])) p]
        simp only [Sleeper, List.mem_append, List.mem_map, HEvent.calm.injEq, exists_eq_right]
        have e1 : .pollPending p ∉ new := fun h => by have := hidle hpo _ h; cases this
        have e2 : ∀ c, .woke c p ∉ new := fun c h => by have := hidle hpo _ h; cases this
        simp [e1, e2]
    | wakePanics c key p pre post hpc hi hsl =>
      obtain ⟨hpo, hre, hlog⟩ := sound (c := c) (by rw [hpc]; rfl)
      refine ⟨?_, fun _ _ _ => rfl, fun _ hn => ?_⟩
      · simp only [State.goto, State.emit]; grind
      · have := mem_calmOf.mp (hlog ▸ (calls hre).drainAt c hpc)
        exact absurd (by simp) (hn c (by simp [this]))
    | wakePanicsLate c d hi hd hpc =>
      obtain ⟨hpo, hre, hlog⟩ := sound (c := c) (by rw [hpc]; rfl)
      refine ⟨?_, fun _ _ _ => rfl, fun _ hn => ?_⟩
      · simp only [State.goto]; grind
      · have := mem_calmOf.mp (hlog ▸ (calls hre).drainAt c hpc)
        exact absurd (by simp) (hn c (by simp [this]))
    | clonePanics c i hpc hi =>
      obtain ⟨hpo, hre, hlog⟩ := sound (c := c) (by rw [hpc]; rfl)
      refine ⟨?_, fun d hd hd' => ?_, fun _ hn p => ?_⟩
      · simp only [State.goto]; grind
      · exact absurd (by simpa using hd') (calmly hpo d)
      · rw [sleeper_of (base := st.base.log) (by simp [calmOf_append, hlog, calmOf])]
        exact stored_insert hre hpc p
    | clonePanicsLate c d i hi hd hpc =>
      obtain ⟨hpo, hre, hlog⟩ := sound (c := c) (by rw [hpc]; rfl)
      refine ⟨?_, fun d hd hd' => ?_, fun _ hn p => ?_⟩
      · simp only [State.goto]; grind
      · exact absurd (by simpa using hd') (calmly hpo d)
      · rw [sleeper_of (base := st.base.log) (by simp [calmOf_append, hlog, calmOf])]
        exact stored_insert hre hpc p
    | dropPanics c key hpc hi =>
      obtain ⟨hpo, hre, hlog⟩ := sound (c := c) (by rw [hpc]; rfl)
      refine ⟨?_, fun d hd hd' => ?_, fun _ hn p => ?_⟩
      · simp only [State.goto]; grind
      · exact absurd (by simpa using hd') (calmly hpo d)
      · rw [sleeper_of (base := st.base.log) (by simp [calmOf_append, hlog, calmOf])]
        exact stored_remove hre hpc p
    | dropPanicsLate c d key hi hd hpc =>
      obtain ⟨hpo, hre, hlog⟩ := sound (c := c) (by rw [hpc]; rfl)
      refine ⟨?_, fun d hd hd' => ?_, fun _ hn p => ?_⟩
      · simp only [State.goto]; grind
      · exact absurd (by simpa using hd') (calmly hpo d)
      · rw [sleeper_of (base := st.base.log) (by simp [calmOf_append, hlog, calmOf])]
        exact stored_remove hre hpc p
    | sendPoisoned c hpc hl hp =>
      have hnot : .calm (.sendLocked c) ∉ st.log := fun h => by
        rcases h1 c h with h | h <;> rw [hpc] at h <;> cases h
      refine ⟨?_, fun d hd hd' => ?_, fun _ hn p => ?_⟩
      · simp only [State.goto]; grind
      · have g : .calm (.sendLocked d) ∈ st.log := by simpa using hd
        have g' : .sendPanic d ∈ st.log ∨ d = c := by simpa using hd'
        rcases g' with g' | rfl
        · exact h2 d g g'
        · exact absurd g hnot
      · show p ∈ st.base.slab.map Prod.snd ↔ _
        rw [h3 hp (fun d hd hd' => hn d (by simp [hd]) (by simp [hd'])) p]
        simp [Sleeper]
    | pollPoisoned c i hpc hl hp =>
      refine ⟨?_, fun d hd hd' => ?_, fun _ hn p => ?_⟩
      · simp only [State.goto]; grind
      · exact h2 d (by simpa using hd) (by simpa using hd')
      · show p ∈ st.base.slab.map Prod.snd ↔ _
        rw [h3 hp (fun d hd hd' => hn d (by simp [hd]) (by simp [hd'])) p]
        simp [Sleeper]
    | wakeCalls c key p pre post back hpc hi hsl hv =>
      obtain ⟨hpo, -, -⟩ := sound (c := c) (by rw [hpc]; rfl)
      refine ⟨?_, fun d hd hd' => ?_, fun hp => ?_⟩
      · have := hh.fresh
        simp only [State.goto, State.emit]; cases back <;> simp only [Back.event, Back.pc] <;> grind
      · exact absurd (by simpa using hd') (calmly hpo d)
      · rw [show st.poisoned = true from hp] at hpo; cases hpo
    | cloneCalls c i back hpc hi hv =>
      obtain ⟨hpo, -, -⟩ := sound (c := c) (by rw [hpc]; rfl)
      refine ⟨?_, fun d hd hd' => ?_, fun hp => ?_⟩
      · have := hh.fresh
        simp only [State.goto, State.emit]; cases back <;> simp only [Back.event, Back.pc] <;> grind
      · exact absurd (by simpa using hd') (calmly hpo d)
      · rw [show st.poisoned = true from hp] at hpo; cases hpo
    | dropCalls c key back hpc hi hv =>
      obtain ⟨hpo, -, -⟩ := sound (c := c) (by rw [hpc]; rfl)
      refine ⟨?_, fun d hd hd' => ?_, fun hp => ?_⟩
      · have := hh.fresh
        simp only [State.goto, State.emit]; cases back <;> simp only [Back.event, Back.pc] <;> grind
      · exact absurd (by simpa using hd') (calmly hpo d)
      · rw [show st.poisoned = true from hp] at hpo; cases hpo
    | callsAgain c d back hi hd hv =>
      obtain ⟨hpo, -, -⟩ := sound (c := c) ((hh.lock c).mpr (hh.holder hi))
      refine ⟨?_, fun d hd hd' => ?_, fun hp => ?_⟩
      · have := hh.fresh
        simp only [State.goto, State.emit]; cases back <;> simp only [Back.event, Back.pc] <;> grind
      · exact absurd (by simpa using hd') (calmly hpo d)
      · rw [show st.poisoned = true from hp] at hpo; cases hpo
    | wakeEnds c d hi hd =>
      refine ⟨fun q hq => h1 q (by simpa using hq), fun q hq hq' => h2 q (by simpa using hq) (by simpa using hq'),
        fun hp hn p => ?_⟩
      rw [h3 hp (fun d hd hd' => hn d (by simp [hd]) (by simp [hd'])) p]
      simp [Sleeper]

/-- C94: once a `send` has panicked at a waker, no waker is stored any more: those that were not woken have been dropped, and none
comes after them. -/
theorem C94_dropped {st : Hostile} (h : HReachable st) {c : Nat} (hc : .calm (.sendLocked c) ∈ st.log)
    (hp : .sendPanic c ∈ st.log) : st.base.slab = [] :=
  (kept h).drained c hc hp

/-- C94: if it was a `poll` that panicked first, the wakers of all that sleep stay stored, and no other; none of them is woken
(`C94_asleep`). -/
theorem C94_kept {st : Hostile} (h : HReachable st) {p : Nat} (hp : .pollPanic p ∈ st.log)
    (hn : ∀ c, .sendPanic c ∈ st.log → .calm (.sendLocked c) ∉ st.log) (q : Nat) :
    (∃ key, (key, q) ∈ st.base.slab) ↔ .calm (.pollPending q) ∈ st.log ∧ ∀ c, .calm (.woke c q) ∉ st.log := by
  have := (kept h).rest ((trace h).panic _ hp rfl) (fun c hc hc' => hn c hc' hc) q
  rw [show (.calm (.pollPending q) ∈ st.log ∧ ∀ c, .calm (.woke c q) ∉ st.log) ↔ Sleeper st.log q from Iff.rfl, ← this]
  simp

/-- A case of `C94_dropped`: two tasks sleep, and the waker of the first panics. The second sleeps on without a waker. -/
example : ∃ st : Hostile, HReachable st ∧ .calm (.sendLocked 2) ∈ st.log ∧ .sendPanic 2 ∈ st.log ∧
    .calm (.pollPending 1) ∈ st.log ∧ .calm (.woke 2 1) ∉ st.log := by
  obtain ⟨st, h1, h2, h3, h4, h5, h6, h7⟩ := run_polls 2
  have r1 := Reachable.step h1 (.sendBegin st)
  have r2 := Reachable.step r1 (.sendAdd _ st.calls (by simp [State.goto, State.emit]))
  have r3 := Reachable.step r2 (.sendLock _ st.calls (by simp [State.goto, State.emit]) h2)
  obtain ⟨k, k', hsl⟩ : ∃ k k', st.slab = [(k, 0), (k', 1)] := by
    match hs : st.slab, h4, h6 with
    | [(k, a), (k', b)], _, h6 =>
      have : a = 0 ∧ b = 1 := by simpa [List.range_succ] using h6
      exact ⟨k, k', by rw [this.1, this.2]⟩
  have r4 := HReachable.step (hostile_calm r3) (.wakePanics _ st.calls k 0 [] [(k', 1)] (by simp [State.goto, State.emit]) rfl hsl)
  refine ⟨_, r4, ?_⟩
  simp [State.goto, State.emit, h5, h7, List.range_succ]

/-- A case of `C94_kept`: two tasks sleep, and cloning the waker of a third panics. -/
example : ∃ st : Hostile, HReachable st ∧ .pollPanic 2 ∈ st.log ∧ (∀ c, .sendPanic c ∉ st.log) ∧
    ∀ q, q < 2 → .calm (.pollPending q) ∈ st.log ∧ ∀ c, .calm (.woke c q) ∉ st.log := by
  obtain ⟨st, h1, h2, h3, h4, h5, h6, h7⟩ := run_polls 2
  have r7 := Reachable.step h1 (.wait _)
  have r8 := Reachable.step r7 (.pollBegin _ 1 (by simp [State.emit, h3]))
  have r9 := Reachable.step r8 (.pollLoad _ st.calls 1 (by simp [State.goto, State.emit]) (by simp [State.goto, State.emit, h3]))
  have r10 := Reachable.step r9 (.pollLock _ st.calls 1 (by simp [State.goto, State.emit]) (by simp [State.goto, State.emit, h2]))
  have r11 := HReachable.step (hostile_calm r10) (.clonePanics _ st.calls 1 (by simp [State.goto, State.emit]) rfl)
  refine ⟨_, r11, ?_, ?_, ?_⟩
  · simp [State.goto, State.emit, h5]
  · simp
  · intro q hq
    rcases (by omega : q = 0 ∨ q = 1) with rfl | rfl <;> simp [State.goto, State.emit, h7, List.range_succ]

end Parcom.Notify
