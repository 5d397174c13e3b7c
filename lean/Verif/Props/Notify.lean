import Verif.Lemmas.NotifyOrder
/-!
# C47–C50, C74: Notify
-/
namespace Parcom.Notify

/-- How often the waker given to call `p` of `poll` was woken. -/
def wakes (p : Nat) (log : List Event) : Nat := log.countP fun
  | .woke _ q => q = p
  | _ => false

theorem wakes_append (p : Nat) (l₁ l₂ : List Event) : wakes p (l₁ ++ l₂) = wakes p l₁ + wakes p l₂ := List.countP_append
theorem wakes_zero {p : Nat} {l : List Event} (h : ∀ c, .woke c p ∉ l) : wakes p l = 0 := by
  rw [wakes, List.countP_eq_zero]
  intro e he hp
  cases e <;> simp at hp
  subst hp
  exact h _ he
theorem wakes_other {p : Nat} {e : Event} (h : ∀ c, e ≠ .woke c p) : wakes p [e] = 0 :=
  wakes_zero fun c hc => h c (by simp at hc; exact hc.symm)

/-- Who sleeps and who was woken. -/
structure Sleep (st : State) : Prop where
  asleep : ∀ p, .pollChecked p ∈ st.log → (∃ c, .woke c p ∈ st.log) ∨ ((∃ k, (k, p) ∈ st.slab) ∧
    ∀ s l₁ l₂, st.log = l₁ ++ .pollChecked p :: l₂ → .sendAdd s ∈ l₂ → .sendEnd s ∉ st.log)
  drained : ∀ c l₁ l₂, st.log = l₁ ++ .sendLocked c :: l₂ → ∀ p, .pollPending p ∈ l₁ →
    (∃ d, .woke d p ∈ l₁) ∨ .woke c p ∈ l₂ ∨ ((∃ k, (k, p) ∈ st.slab) ∧ st.pc c = .sendDrain)
  once : ∀ p, wakes p st.log ≤ 1

/-- An event that changes nothing here. -/
theorem Sleep.snoc {st : State} (h : Sleep st) {st' : State} {e : Event} (hl : st'.log = st.log ++ [e])
    (hk : ∀ p, e ≠ .pollChecked p) (he : ∀ s, e ≠ .sendEnd s) (hd : ∀ c, e ≠ .sendLocked c)
    (hw : ∀ c p, e ≠ .woke c p) (ha : ∀ s, e = .sendAdd s → .sendEnd s ∉ st.log)
    (hslab : ∀ k p, (k, p) ∈ st.slab → .pollChecked p ∈ st.log → (k, p) ∈ st'.slab)
    (hpend : ∀ p, .pollPending p ∈ st.log → .pollChecked p ∈ st.log)
    (hpc : ∀ c, st.pc c = .sendDrain → st'.pc c = .sendDrain) : Sleep st' := by
  constructor
  · intro p hp
    rw [hl] at hp
    have hp : .pollChecked p ∈ st.log := by
      simp only [List.mem_append, List.mem_singleton] at hp
      exact hp.resolve_right fun h => hk p h.symm
    rcases h.asleep p hp with ⟨c, h1⟩ | ⟨⟨k, h1⟩, h2⟩
    · exact .inl ⟨c, by rw [hl]; simp [h1]⟩
    · refine .inr ⟨⟨k, hslab k p h1 hp⟩, fun s l₁ l₂ hs hm hend => ?_⟩
      rw [hl] at hs hend
      have hend : .sendEnd s ∈ st.log := by
        simp only [List.mem_append, List.mem_singleton] at hend
        exact hend.resolve_right fun h => he s h.symm
      rcases split_snoc hs with ⟨-, -, h⟩ | ⟨m, rfl, h3⟩
      · exact hk p h.symm
      · simp only [List.mem_append, List.mem_singleton] at hm
        rcases hm with hm | hm
        · exact h2 s l₁ m h3 hm hend
        · exact ha s hm.symm hend
  · intro c l₁ l₂ hs p hp
    rw [hl] at hs
    rcases split_snoc hs with ⟨-, -, h⟩ | ⟨m, rfl, h3⟩
    · exact absurd h.symm (hd c)
    · rcases h.drained c l₁ m h3 p hp with h4 | h4 | ⟨⟨k, h4⟩, h5⟩
      · exact .inl h4
      · exact .inr (.inl (by simp [h4]))
      · exact .inr (.inr ⟨⟨k, hslab k p h4 (hpend p (by rw [h3]; simp [hp]))⟩, hpc c h5⟩)
  · intro p
    rw [hl, wakes_append, wakes_other (fun c => hw c p)]
    exact h.once p

/-- A step without an event that changes nothing here. -/
theorem Sleep.quiet {st : State} (h : Sleep st) {st' : State} (hl : st'.log = st.log)
    (hslab : ∀ k p, (k, p) ∈ st.slab → (k, p) ∈ st'.slab) (hpc : ∀ c, st.pc c = .sendDrain → st'.pc c = .sendDrain) :
    Sleep st' := by
  constructor
  · intro p hp
    rw [hl] at hp ⊢
    rcases h.asleep p hp with h1 | ⟨⟨k, h1⟩, h2⟩
    · exact .inl h1
    · exact .inr ⟨⟨k, hslab k p h1⟩, h2⟩
  · intro c l₁ l₂ hs p hp
    rw [hl] at hs
    rcases h.drained c l₁ l₂ hs p hp with h4 | h4 | ⟨⟨k, h4⟩, h5⟩
    · exact .inl h4
    · exact .inr (.inl h4)
    · exact .inr (.inr ⟨⟨k, hslab k p h4⟩, hpc c h5⟩)
  · intro p; rw [hl]; exact h.once p

theorem sleep_step {st st' : State} (hc : Calls st) (hr : Registered st) (h : Sleep st) (hs : Step st st') : Sleep st' := by
  have hpend := hc.pending
  cases hs with
  | sendBegin =>
    refine h.snoc rfl (by simp) (by simp) (by simp) (by simp) (by simp) (fun k p hk _ => hk) hpend fun c hd => ?_
    have := hc.fresh st.calls (Nat.le_refl _)
    simp only [State.goto, State.emit]; grind
  | sendAdd c hpc =>
    refine h.snoc rfl (by simp) (by simp) (by simp) (by simp) ?_ (fun k p hk _ => hk) hpend fun d hd => ?_
    · intro s hs hend
      injection hs with hs
      subst hs
      have := (hc.sendEnd _ hend).1
      grind
    · simp only [State.goto, State.emit]; grind
  | sendLock c hpc hlock =>
    constructor
    · intro p hp
      simp only [State.emit, State.goto, List.mem_append, List.mem_singleton, reduceCtorEq, or_false] at hp
      rcases h.asleep p hp with ⟨d, h1⟩ | ⟨h1, h2⟩
      · exact .inl ⟨d, by simp [State.emit, State.goto, h1]⟩
      · refine .inr ⟨h1, fun s l₁ l₂ hs hm hend => ?_⟩
        rcases split_snoc hs with ⟨-, -, h⟩ | ⟨m, rfl, h3⟩
        · simp at h
        · simp only [List.mem_append, List.mem_singleton, reduceCtorEq, or_false] at hm
          exact h2 s l₁ m h3 hm (by simpa [State.emit, State.goto] using hend)
    · intro d l₁ l₂ hs p hp
      rcases split_snoc hs with ⟨rfl, rfl, h3⟩ | ⟨m, rfl, h3⟩
      · injection h3 with h3
        subst h3
        rcases h.asleep p (hpend p hp) with h4 | ⟨h4, -⟩
        · exact .inl h4
        · exact .inr (.inr ⟨h4, by simp [State.goto, State.emit]⟩)
      · rcases h.drained d l₁ m h3 p hp with h4 | h4 | ⟨h4, h5⟩
        · exact .inl h4
        · exact .inr (.inl (by simp [h4]))
        · exact .inr (.inr ⟨h4, by simp only [State.goto, State.emit]; grind⟩)
    · intro p
      show wakes p (_ ++ _) ≤ 1
      rw [wakes_append, wakes_other (by simp)]
      exact h.once p
  | sendWake c key q pre post hpc hsl =>
    have hmem : (key, q) ∈ st.slab := by rw [hsl]; simp
    have hstay : ∀ k p, p ≠ q → (k, p) ∈ st.slab → (k, p) ∈ pre ++ post := by
      intro k p hp hk; rw [hsl] at hk; simp at hk ⊢; grind
    constructor
    · intro p hp
      simp only [State.emit, List.mem_append, List.mem_singleton, reduceCtorEq, or_false] at hp
      by_cases hpq : p = q
      · subst hpq; exact .inl ⟨c, by simp [State.emit]⟩
      · rcases h.asleep p hp with ⟨d, h1⟩ | ⟨⟨k, h1⟩, h2⟩
        · exact .inl ⟨d, by simp [State.emit, h1]⟩
        · refine .inr ⟨⟨k, hstay k p hpq h1⟩, fun s l₁ l₂ hs hm hend => ?_⟩
          rcases split_snoc hs with ⟨-, -, h⟩ | ⟨m, rfl, h3⟩
          · simp at h
          · simp only [List.mem_append, List.mem_singleton, reduceCtorEq, or_false] at hm
            exact h2 s l₁ m h3 hm (by simpa [State.emit] using hend)
    · intro d l₁ l₂ hs p hp
      rcases split_snoc hs with ⟨-, -, h3⟩ | ⟨m, rfl, h3⟩
      · simp at h3
      · rcases h.drained d l₁ m h3 p hp with h4 | h4 | ⟨⟨k, h4⟩, h5⟩
        · exact .inl h4
        · exact .inr (.inl (by simp [h4]))
        · by_cases hpq : p = q
          · subst hpq
            have e1 := (hc.lock c).mp (by rw [hpc]; rfl)
            have e2 := (hc.lock d).mp (by rw [h5]; rfl)
            rw [e1] at e2
            injection e2 with e2
            subst e2
            exact .inr (.inl (by simp))
          · exact .inr (.inr ⟨⟨k, hstay k p hpq h4⟩, h5⟩)
    · intro p
      show wakes p (_ ++ _) ≤ 1
      rw [wakes_append]
      by_cases hpq : p = q
      · subst hpq
        have : wakes p st.log = 0 := wakes_zero fun d => hr.asleep key p d hmem
        show wakes p st.log + _ ≤ 1
        rw [this]
        simp [wakes]
      · rw [wakes_other (by intro d hd; injection hd with _ hd; exact hpq hd.symm)]
        exact h.once p
  | sendEnd c hpc hsl =>
    have hnone : ∀ k p, (k, p) ∉ st.slab := by rw [hsl]; simp
    constructor
    · intro p hp
      simp only [State.emit, State.goto, List.mem_append, List.mem_singleton, reduceCtorEq, or_false] at hp
      rcases h.asleep p hp with ⟨d, h1⟩ | ⟨⟨k, h1⟩, h2⟩
      · exact .inl ⟨d, by simp [State.emit, State.goto, h1]⟩
      · exact absurd h1 (hnone k p)
    · intro d l₁ l₂ hs p hp
      rcases split_snoc hs with ⟨-, -, h3⟩ | ⟨m, rfl, h3⟩
      · simp at h3
      · rcases h.drained d l₁ m h3 p hp with h4 | h4 | ⟨⟨k, h4⟩, h5⟩
        · exact .inl h4
        · exact .inr (.inl (by simp [h4]))
        · exact absurd h4 (hnone k p)
    · intro p
      show wakes p (_ ++ _) ≤ 1
      rw [wakes_append, wakes_other (by simp)]
      exact h.once p
  | wait => exact h.snoc rfl (by simp) (by simp) (by simp) (by simp) (by simp) (fun k p hk _ => hk) hpend fun c hd => hd
  | pollBegin i hi =>
    refine h.snoc rfl (by simp) (by simp) (by simp) (by simp) (by simp) (fun k p hk _ => hk) hpend fun c hd => ?_
    have := hc.fresh st.calls (Nat.le_refl _)
    simp only [State.goto, State.emit]; grind
  | pollLoadReady p i hpc hv =>
    exact h.snoc rfl (by simp) (by simp) (by simp) (by simp) (by simp) (fun k p hk _ => hk) hpend
      fun c hd => by simp only [State.goto, State.emit]; grind
  | pollLoad p i hpc hv =>
    exact h.quiet rfl (fun _ _ hk => hk) fun c hd => by simp only [State.goto]; grind
  | pollLock p i hpc hv =>
    exact h.quiet rfl (fun _ _ hk => hk) fun c hd => by simp only [State.goto]; grind
  | pollInsert p i key hpc hv =>
    exact h.quiet rfl (fun _ _ hk => by simp [State.goto, hk]) fun c hd => by simp only [State.goto]; grind
  | pollRecheckReady p i key hpc hv =>
    exact h.quiet rfl (fun _ _ hk => hk) fun c hd => by simp only [State.goto]; grind
  | pollRecheck q i key hpc hv =>
    have hnew : .pollChecked q ∉ st.log := by
      intro h; have := hc.checkedAt q h; grind
    constructor
    · intro p hp
      by_cases hpq : p = q
      · subst hpq
        refine .inr ⟨⟨key, hr.atRecheck p i key hpc⟩, fun s l₁ l₂ hs hm => ?_⟩
        rcases split_snoc hs with ⟨rfl, -, -⟩ | ⟨m, rfl, h3⟩
        · simp at hm
        · exact absurd (by rw [show st.log = _ from h3]; simp) hnew
      · simp only [State.emit, State.goto, List.mem_append, List.mem_singleton, Event.pollChecked.injEq] at hp
        rcases h.asleep p (hp.resolve_right hpq) with ⟨d, h1⟩ | ⟨h1, h2⟩
        · exact .inl ⟨d, by simp [State.emit, State.goto, h1]⟩
        · refine .inr ⟨h1, fun s l₁ l₂ hs hm hend => ?_⟩
          rcases split_snoc hs with ⟨-, -, h⟩ | ⟨m, rfl, h3⟩
          · injection h with h; exact hpq h
          · simp only [List.mem_append, List.mem_singleton, reduceCtorEq, or_false] at hm
            exact h2 s l₁ m h3 hm (by simpa [State.emit, State.goto] using hend)
    · intro d l₁ l₂ hs p hp
      rcases split_snoc hs with ⟨-, -, h3⟩ | ⟨m, rfl, h3⟩
      · simp at h3
      · rcases h.drained d l₁ m h3 p hp with h4 | h4 | ⟨h4, h5⟩
        · exact .inl h4
        · exact .inr (.inl (by simp [h4]))
        · exact .inr (.inr ⟨h4, by simp only [State.goto, State.emit]; grind⟩)
    · intro p
      show wakes p (_ ++ _) ≤ 1
      rw [wakes_append, wakes_other (by simp)]
      exact h.once p
  | pollRemove q key hpc =>
    have hmem := hr.atRemove q key hpc
    refine h.snoc rfl (by simp) (by simp) (by simp) (by simp) (by simp) ?_ hpend
      fun c hd => by simp only [State.goto, State.emit]; grind
    intro k p hk hch
    simp only [State.emit, State.goto, List.mem_filter]
    refine ⟨hk, ?_⟩
    have : p ≠ q := by
      rintro rfl
      have := hc.checkedAt p hch
      grind
    simp only [decide_eq_true_eq]
    rintro rfl
    exact this (nodup_fst hr.keys hk hmem)
  | pollUnlock p hpc =>
    exact h.snoc rfl (by simp) (by simp) (by simp) (by simp) (by simp) (fun k p hk _ => hk) hpend
      fun c hd => by simp only [State.goto, State.emit]; grind

theorem sleep {st : State} (h : Reachable st) : Sleep st := by
  induction h with
  | init => constructor <;> simp [init, wakes]
  | step hr hs ih => exact sleep_step (calls hr) (registered hr) ih hs

variable {st : State}

/-- C47: no lost wake-up. If a `Wait` was polled to `Pending` and a `send` that began after the `Wait` was made has
returned, then the waker of that poll has been woken. This presumes fewer than 2^64 sends since (see `C49_wraps`). -/
theorem C47_no_lost_wakeup (h : Reachable st) {i p s : Nat} {m₁ m₂ : List Event} (hw : st.log = m₁ ++ .waitMade i :: m₂)
    (hb : .pollBegin p i ∈ st.log) (hp : .pollPending p ∈ st.log) (hs : .sendBegin s ∈ m₂) (he : .sendEnd s ∈ st.log)
    (hfew : adds m₂ < wrap) : ∃ c, .woke c p ∈ st.log := by
  have hc := calls h
  have hn := counts h
  have ho := order h
  have hck := hc.pending p hp
  rcases (sleep h).asleep p hck with h1 | ⟨-, h2⟩
  · exact h1
  · exfalso
    have hadd := (hc.sendEnd s he).2.1
    obtain ⟨l₁, l₂, hl⟩ := List.append_of_mem hck
    have hnot : .sendAdd s ∉ l₂ := fun hm => h2 s l₁ l₂ hl hm he
    -- the increment lies between `wait` and the check
    have hadd₂ : .sendAdd s ∉ m₁ := by
      intro hm
      exact ho.send s (m₁ ++ [.waitMade i]) m₂ (by rw [hw]; simp) (by simp [hm]) hs
    have hadd₁ : .sendAdd s ∈ l₁ := by
      rw [hl] at hadd
      simp at hadd
      exact hadd.resolve_right hnot
    have hv1 := hn.waits i m₁ m₂ hw
    have hv2 := hn.checked p i l₁ l₂ hb hl
    rw [hv1] at hv2
    injection hv2 with hv2
    -- one of the two prefixes extends the other
    rcases List.append_eq_append_iff.mp (hw.symm.trans hl) with ⟨a, ha1, ha2⟩ | ⟨a, ha1, ha2⟩
    · -- the check comes after `wait`
      have hin : .sendAdd s ∈ a := by
        rw [ha1] at hadd₁
        simp at hadd₁
        exact hadd₁.resolve_left hadd₂
      have hle : adds a ≤ adds m₂ := by
        cases a with
        | nil => simp
        | cons e a =>
          simp at ha2
          rw [← ha2.1, adds_cons, adds_other (by simp), ha2.2, adds_append]
          omega
      have := adds_mem hin
      rw [ha1, adds_append] at hv2
      rw [wrap] at *
      omega
    · -- the check comes before `wait`
      exact hadd₂ (by rw [ha1]; simp [hadd₁])

/-- C48: a `Wait` is ready only if some `send` incremented the version after `wait`; so that `send` had not returned
when `wait` was called. -/
theorem C48_not_ready_before_send (h : Reachable st) {i p : Nat} {m₁ m₂ : List Event} (hw : st.log = m₁ ++ .waitMade i :: m₂)
    (hb : .pollBegin p i ∈ st.log) (hp : .pollReady p ∈ st.log) :
    ∃ s, .sendAdd s ∈ m₂ ∧ .sendBegin s ∈ st.log ∧ .sendEnd s ∉ m₁ := by
  obtain ⟨s, hs⟩ := (counts h).ready p i m₁ m₂ (.inl hp) hb hw
  exact ⟨s, hs, ((calls h).sendAdded s (by rw [hw]; simp [hs])).1, fun he =>
    (order h).over s (m₁ ++ [.waitMade i]) m₂ (by rw [hw]; simp) (by simp [he]) hs⟩

/-- C49: once a `send` has incremented the version after `wait`, no later `poll` returns `Pending`, as long as fewer than
2^64 sends have done so. -/
theorem C49_ready_after_send (h : Reachable st) {i p s : Nat} {m₁ m₂ m₃ m₄ : List Event}
    (hw : st.log = m₁ ++ .waitMade i :: m₂ ++ .sendAdd s :: m₃ ++ .pollBegin p i :: m₄)
    (hfew : adds (m₂ ++ .sendAdd s :: m₃ ++ .pollBegin p i :: m₄) < wrap) : .pollPending p ∉ st.log := by
  intro hp
  have hc := calls h
  have hn := counts h
  have hck := hc.pending p hp
  have hb : .pollBegin p i ∈ st.log := by rw [hw]; simp
  have hck₄ : .pollChecked p ∈ m₄ := by
    have hno : .pollChecked p ∉ m₁ ++ .waitMade i :: m₂ ++ .sendAdd s :: m₃ := by
      intro hm
      exact (order h).poll p i _ (.pollBegin p i :: m₄) hw hm (by simp)
    rw [hw, List.mem_append] at hck
    simpa using hck.resolve_left hno
  obtain ⟨a, b, hab⟩ := List.append_of_mem hck₄
  have hv1 := hn.waits i m₁ (m₂ ++ .sendAdd s :: m₃ ++ .pollBegin p i :: m₄) (by rw [hw]; simp)
  have hv2 := hn.checked p i (m₁ ++ .waitMade i :: m₂ ++ .sendAdd s :: m₃ ++ .pollBegin p i :: a) b hb
    (by rw [hw, hab]; simp)
  rw [hv1] at hv2
  injection hv2 with hv2
  rw [hab] at hfew
  rw [adds_append, adds_append, adds_append, adds_cons_other (by simp), adds_cons_add, adds_cons_other (by simp)] at hv2
  rw [adds_append, adds_append, adds_cons_add, adds_cons_other (by simp), adds_append] at hfew
  rw [wrap] at *
  omega

/-- C50: a `send` that returned has woken every waker that was registered and asleep when it took the mutex. -/
theorem C50_wakes_all_sleepers (h : Reachable st) {c p : Nat} {l₁ l₂ : List Event} (hl : st.log = l₁ ++ .sendLocked c :: l₂)
    (he : .sendEnd c ∈ st.log) (hp : .pollPending p ∈ l₁) (hn : ∀ d, .woke d p ∉ l₁) : .woke c p ∈ l₂ := by
  rcases (sleep h).drained c l₁ l₂ hl p hp with ⟨d, h1⟩ | h1 | ⟨-, h1⟩
  · exact absurd h1 (hn d)
  · exact h1
  · have := ((calls h).sendEnd c he).1
    rw [h1] at this
    simp at this

/-- C50: no waker is woken twice. -/
theorem C50_at_most_once (h : Reachable st) (p : Nat) : wakes p st.log ≤ 1 := (sleep h).once p

/-- C50: no waker in the list was already woken. -/
theorem C50_list_is_asleep (h : Reachable st) {k p : Nat} (hk : (k, p) ∈ st.slab) (c : Nat) : .woke c p ∉ st.log :=
  (registered h).asleep k p c hk

/-- C50: only wakers of polls that found the version unchanged are woken. -/
theorem C50_wakes_only_sleepers (h : Reachable st) {c p : Nat} (hw : .woke c p ∈ st.log) : .pollChecked p ∈ st.log :=
  (registered h).woken c p hw

/-- C50: `wakers.remove(key)` never panics: the key is in use. -/
theorem C50_remove_succeeds (h : Reachable st) {p key : Nat} (hp : st.pc p = .pollRemove key) : (key, p) ∈ st.slab :=
  (registered h).atRemove p key hp

/-- C49: in that situation the first thing a `poll` does is to return `Ready`. -/
theorem C49_returns_at_once (h : Reachable st) {i p : Nat} {m₁ m₂ : List Event} (hw : st.log = m₁ ++ .waitMade i :: m₂)
    (hsome : 0 < adds m₂) (hfew : adds m₂ < wrap) (hp : st.pc p = .pollLoad i) {st' : State} (hs : Step st st')
    (hown : st'.pc p ≠ st.pc p) : st'.log = st.log ++ [.pollReady p] := by
  have hne : st.waits[i]? ≠ some st.version := by
    have hn := counts h
    rw [hn.waits i m₁ m₂ hw, hn.version, hw, adds_append, adds_cons_other (by simp)]
    intro he
    injection he with he
    rw [wrap] at *
    omega
  have hc := calls h
  have hlt : p < st.calls := (hc.pollOld p i (hc.pollAt p i (.inl hp))).1
  cases hs <;> simp only [State.goto, State.emit] at hown ⊢ <;> grind

/-! ## Progress -/

theorem fresh_key (l : List Nat) : ∃ k, k ∉ l := by
  have : ∀ a ∈ l, a ≤ l.sum := by
    induction l with
    | nil => simp
    | cons x l ih => intro a ha; simp at ha ⊢; rcases ha with rfl | ha; omega; have := ih a ha; omega
  exact ⟨l.sum + 1, fun h => by have := this _ h; omega⟩

/-- A step of a call under way: not a new call. -/
def OwnStep (st st' : State) : Prop := Step st st' ∧ st'.calls = st.calls ∧ st'.waits = st.waits

theorem own_step (hc : Calls st) {c : Nat} (hb : st.pc c ≠ .absent) (hd : st.pc c ≠ .done) : ∃ st', OwnStep st st' := by
  have holder : ∀ d, (st.pc d).holds = true → ∃ st', OwnStep st st' := by
    intro d hd
    cases hp : st.pc d with
    | sendDrain =>
      cases hs : st.slab with
      | nil => exact ⟨_, .sendEnd st d hp hs, rfl, rfl⟩
      | cons e rest => exact ⟨_, .sendWake st d e.1 e.2 [] rest hp hs, rfl, rfl⟩
    | pollInsert i =>
      obtain ⟨k, hk⟩ := fresh_key (st.slab.map Prod.fst)
      exact ⟨_, .pollInsert st d i k hp hk, rfl, rfl⟩
    | pollRecheck i k =>
      by_cases hv : st.waits[i]? = some st.version
      · exact ⟨_, .pollRecheck st d i k hp hv, rfl, rfl⟩
      · exact ⟨_, .pollRecheckReady st d i k hp hv, rfl, rfl⟩
    | pollRemove k => exact ⟨_, .pollRemove st d k hp, rfl, rfl⟩
    | pollUnlock => exact ⟨_, .pollUnlock st d hp, rfl, rfl⟩
    | _ => simp [hp, Pc.holds] at hd
  cases hl : st.lock with
  | some d => exact holder d ((hc.lock d).mpr hl)
  | none =>
    cases hp : st.pc c with
    | absent => exact absurd hp hb
    | done => exact absurd hp hd
    | sendAdd => exact ⟨_, .sendAdd st c hp, rfl, rfl⟩
    | sendLock => exact ⟨_, .sendLock st c hp hl, rfl, rfl⟩
    | pollLoad i =>
      by_cases hv : st.waits[i]? = some st.version
      · exact ⟨_, .pollLoad st c i hp hv, rfl, rfl⟩
      · exact ⟨_, .pollLoadReady st c i hp hv, rfl, rfl⟩
    | pollLock i => exact ⟨_, .pollLock st c i hp hl, rfl, rfl⟩
    | _ => exact holder c (by rw [hp]; rfl)

/-- C74: `Notify` never deadlocks. As long as some call has not returned, some call can take a step. -/
theorem C74_no_deadlock (h : Reachable st) {c : Nat} (hb : st.pc c ≠ .absent) (hd : st.pc c ≠ .done) :
    ∃ st', OwnStep st st' := own_step (calls h) hb hd

/-- How many steps a call has left, not counting the wakers it will wake. -/
def Pc.left : Pc → Nat
  | .absent | .done => 0
  | .sendAdd => 3
  | .sendLock => 2
  | .sendDrain => 1
  | .pollLoad _ => 6
  | .pollLock _ => 5
  | .pollInsert _ => 4
  | .pollRecheck _ _ => 2
  | .pollRemove _ | .pollUnlock => 1

/-- How many steps the first `n` calls have left. -/
def leftOf (pc : Nat → Pc) : Nat → Nat
  | 0 => 0
  | n + 1 => leftOf pc n + (pc n).left

/-- How many steps all calls under way have left. -/
def left (st : State) : Nat := leftOf st.pc st.calls + st.slab.length

theorem leftOf_goto (pc : Nat → Pc) (c : Nat) (x : Pc) (n : Nat) :
    (n ≤ c → leftOf (fun d => if d = c then x else pc d) n = leftOf pc n) ∧
    (c < n → leftOf (fun d => if d = c then x else pc d) n + (pc c).left = leftOf pc n + x.left) := by
  induction n with
  | zero => exact ⟨fun _ => rfl, fun h => absurd h (Nat.not_lt_zero _)⟩
  | succ n ih =>
    refine ⟨fun h => ?_, fun h => ?_⟩
    · simp only [leftOf]
      rw [ih.1 (by omega), if_neg (by omega)]
    · simp only [leftOf]
      by_cases hn : n = c
      · subst hn
        rw [ih.1 (Nat.le_refl _), if_pos rfl]
        omega
      · have := ih.2 (by omega)
        rw [if_neg hn]
        omega

theorem left_decreases {st st' : State} (hc : Calls st) (hr : Registered st) (hs : OwnStep st st') : left st' < left st := by
  have old : ∀ c, st.pc c ≠ .absent → c < st.calls := by
    intro c h
    apply Nat.lt_of_not_le
    intro hle
    exact h (hc.fresh c hle)
  obtain ⟨hs, h1, h2⟩ := hs
  cases hs with
  | sendBegin | pollBegin => simp [State.goto, State.emit] at h1
  | wait => simp [State.emit] at h2
  | sendWake c k p pre post hpc hsl => simp only [left, State.emit, hsl]; simp
  | pollRemove p k hpc =>
    have := (leftOf_goto st.pc p .done st.calls).2 (old p (by simp [hpc]))
    have hlen : (st.slab.filter fun e => e.1 ≠ k).length < st.slab.length := by
      apply List.length_filter_lt_length_iff_exists.mpr
      exact ⟨_, hr.atRemove p k hpc, by simp⟩
    simp only [left, State.emit, State.goto]
    rw [hpc] at this
    simp only [Pc.left] at this
    omega
  | pollInsert p i k hpc hk =>
    have := (leftOf_goto st.pc p (.pollRecheck i k) st.calls).2 (old p (by simp [hpc]))
    simp only [left, State.goto, List.length_append, List.length_singleton]
    rw [hpc] at this
    simp only [Pc.left] at this
    omega
  | sendAdd c hpc =>
    have := (leftOf_goto st.pc c .sendLock st.calls).2 (old c (by simp [hpc]))
    rw [hpc] at this; simp only [Pc.left] at this; simp only [left, State.emit, State.goto]; omega
  | sendLock c hpc =>
    have := (leftOf_goto st.pc c .sendDrain st.calls).2 (old c (by simp [hpc]))
    rw [hpc] at this; simp only [Pc.left] at this; simp only [left, State.emit, State.goto]; omega
  | sendEnd c hpc =>
    have := (leftOf_goto st.pc c .done st.calls).2 (old c (by simp [hpc]))
    rw [hpc] at this; simp only [Pc.left] at this; simp only [left, State.emit, State.goto]; omega
  | pollLoadReady c i hpc =>
    have := (leftOf_goto st.pc c .done st.calls).2 (old c (by simp [hpc]))
    rw [hpc] at this; simp only [Pc.left] at this; simp only [left, State.emit, State.goto]; omega
  | pollLoad c i hpc =>
    have := (leftOf_goto st.pc c (.pollLock i) st.calls).2 (old c (by simp [hpc]))
    rw [hpc] at this; simp only [Pc.left] at this; simp only [left, State.goto]; omega
  | pollLock c i hpc =>
    have := (leftOf_goto st.pc c (.pollInsert i) st.calls).2 (old c (by simp [hpc]))
    rw [hpc] at this; simp only [Pc.left] at this; simp only [left, State.goto]; omega
  | pollRecheckReady c i k hpc =>
    have := (leftOf_goto st.pc c (.pollRemove k) st.calls).2 (old c (by simp [hpc]))
    rw [hpc] at this; simp only [Pc.left] at this; simp only [left, State.goto]; omega
  | pollRecheck c i k hpc =>
    have := (leftOf_goto st.pc c .pollUnlock st.calls).2 (old c (by simp [hpc]))
    rw [hpc] at this; simp only [Pc.left] at this; simp only [left, State.emit, State.goto]; omega
  | pollUnlock c hpc =>
    have := (leftOf_goto st.pc c .done st.calls).2 (old c (by simp [hpc]))
    rw [hpc] at this; simp only [Pc.left] at this; simp only [left, State.emit, State.goto]; omega

/-- C74: nor does it run for ever. Without new calls, the calls under way take finitely many steps; with
`C74_no_deadlock`, all of them return. -/
theorem C74_calls_return (h : Reachable st) : Acc (fun b a => OwnStep a b) st := by
  generalize hn : left st = n
  induction n using Nat.strongRecOn generalizing st with
  | ind n ih =>
    refine ⟨_, fun st' hs => ?_⟩
    have := left_decreases (calls h) (registered h) hs
    exact ih (left st') (by omega) (.step h hs.1) rfl

/-! ## Runs -/

/-- `send` run alone. -/
theorem run_send (h : Reachable st) (hl : st.lock = none) : ∃ st', Reachable st' ∧ st'.lock = none ∧ st'.slab = [] ∧
    st'.waits = st.waits ∧ st'.version = (st.version + 1) % wrap ∧
    st'.log = st.log ++ [.sendBegin st.calls, .sendAdd st.calls, .sendLocked st.calls] ++
      st.slab.map (fun e => .woke st.calls e.2) ++ [.sendEnd st.calls] := by
  have r1 := Reachable.step h (.sendBegin st)
  have r2 := Reachable.step r1 (.sendAdd _ st.calls (by simp [State.goto, State.emit]))
  have r3 := Reachable.step r2 (.sendLock _ st.calls (by simp [State.goto, State.emit]) hl)
  have drain : ∀ (slab : List (Nat × Nat)) (st₁ : State), Reachable st₁ → st₁.slab = slab → st₁.pc st.calls = .sendDrain →
      ∃ st', Reachable st' ∧ st'.lock = none ∧ st'.slab = [] ∧ st'.waits = st₁.waits ∧ st'.version = st₁.version ∧
        st'.log = st₁.log ++ slab.map (fun e => .woke st.calls e.2) ++ [.sendEnd st.calls] := by
    intro slab
    induction slab with
    | nil =>
      intro st₁ hr hs hp
      exact ⟨_, .step hr (.sendEnd st₁ st.calls hp hs), rfl, hs, rfl, rfl, by simp [State.emit, State.goto]⟩
    | cons e slab ih =>
      intro st₁ hr hs hp
      obtain ⟨st', h1, h2, h3, h4, h5, h6⟩ := ih _ (.step hr (.sendWake st₁ st.calls e.1 e.2 [] slab hp hs)) rfl hp
      exact ⟨st', h1, h2, h3, h4, h5, by rw [h6]; simp [State.emit]⟩
  obtain ⟨st', h1, h2, h3, h4, h5, h6⟩ := drain st.slab _ r3 rfl (by simp [State.goto, State.emit])
  exact ⟨st', h1, h2, h3, h4, h5, by rw [h6]; simp [State.emit, State.goto]⟩

/-- `poll` run alone, when the version is unchanged. -/
theorem run_poll (h : Reachable st) (hl : st.lock = none) {i : Nat} (hi : st.waits[i]? = some st.version) :
    ∃ st' k, Reachable st' ∧ st'.lock = none ∧ st'.slab = st.slab ++ [(k, st.calls)] ∧ st'.waits = st.waits ∧
    st'.version = st.version ∧
    st'.log = st.log ++ [.pollBegin st.calls i, .pollChecked st.calls, .pollPending st.calls] := by
  have hlt : i < st.waits.length := by
    apply Nat.lt_of_not_le; intro hle; rw [List.getElem?_eq_none_iff.mpr hle] at hi; simp at hi
  obtain ⟨k, hk⟩ := fresh_key (st.slab.map Prod.fst)
  have r1 := Reachable.step h (.pollBegin st i hlt)
  have r2 := Reachable.step r1 (.pollLoad _ st.calls i (by simp [State.goto, State.emit]) hi)
  have r3 := Reachable.step r2 (.pollLock _ st.calls i (by simp [State.goto, State.emit]) hl)
  have r4 := Reachable.step r3 (.pollInsert _ st.calls i k (by simp [State.goto]) hk)
  have r5 := Reachable.step r4 (.pollRecheck _ st.calls i k (by simp [State.goto]) hi)
  have r6 := Reachable.step r5 (.pollUnlock _ st.calls (by simp [State.goto, State.emit]))
  exact ⟨_, k, r6, rfl, rfl, rfl, rfl, by simp [State.emit, State.goto]⟩

/-- The hypotheses of C47 and C50 are met: a `Wait` is made and polled to `Pending`, then a `send` runs. -/
example : ∃ st m₂, Reachable st ∧ st.log = [] ++ .waitMade 0 :: m₂ ∧ .pollBegin 0 0 ∈ st.log ∧ .pollPending 0 ∈ st.log ∧
    .sendBegin 1 ∈ m₂ ∧ .sendEnd 1 ∈ st.log ∧ adds m₂ < wrap := by
  have r1 := Reachable.step .init (.wait init)
  have r2 := Reachable.step r1 (.pollBegin _ 0 (by simp [State.emit]))
  have r3 := Reachable.step r2 (.pollLoad _ 0 0 (by simp [State.goto, State.emit, init]) (by simp [State.goto, State.emit, init]))
  have r4 := Reachable.step r3 (.pollLock _ 0 0 (by simp [State.goto]) (by simp [State.goto, State.emit, init]))
  have r5 := Reachable.step r4 (.pollInsert _ 0 0 0 (by simp [State.goto]) (by simp [State.goto, State.emit, init]))
  have r6 := Reachable.step r5 (.pollRecheck _ 0 0 0 (by simp [State.goto]) (by simp [State.goto, State.emit, init]))
  have r7 := Reachable.step r6 (.pollUnlock _ 0 (by simp [State.goto, State.emit]))
  obtain ⟨st, h1, -, -, -, -, h6⟩ := run_send r7 rfl
  have h6 : st.log = [] ++ .waitMade 0 :: [.pollBegin 0 0, .pollChecked 0, .pollPending 0, .sendBegin 1, .sendAdd 1,
    .sendLocked 1, .woke 1 0, .sendEnd 1] := by
    rw [h6]; simp [State.emit, State.goto, init]
  refine ⟨st, _, h1, h6, ?_, ?_, ?_, ?_, ?_⟩
  · rw [h6]; simp
  · rw [h6]; simp
  · simp
  · rw [h6]; simp
  · simp [adds, wrap]

/-- The hypotheses of C48 and C49 are met: a `Wait` is made, a `send` runs, then the `Wait` is polled. -/
example : ∃ st m₂ m₃, Reachable st ∧ st.log = [] ++ .waitMade 0 :: m₂ ++ .sendAdd 0 :: m₃ ++ .pollBegin 1 0 :: [.pollReady 1] ∧
    adds (m₂ ++ .sendAdd 0 :: m₃ ++ .pollBegin 1 0 :: [.pollReady 1]) < wrap := by
  have r1 := Reachable.step .init (.wait init)
  have r2 := Reachable.step r1 (.sendBegin _)
  have r3 := Reachable.step r2 (.sendAdd _ 0 (by simp [State.goto, State.emit, init]))
  have r4 := Reachable.step r3 (.sendLock _ 0 (by simp [State.goto, State.emit]) rfl)
  have r5 := Reachable.step r4 (.sendEnd _ 0 (by simp [State.goto, State.emit]) rfl)
  have r6 := Reachable.step r5 (.pollBegin _ 0 (by simp [State.goto, State.emit]))
  have r7 := Reachable.step r6 (.pollLoadReady _ 1 0 (by simp [State.goto, State.emit, init])
    (by simp [State.goto, State.emit, init, wrap]))
  exact ⟨_, [.sendBegin 0], [.sendLocked 0, .sendEnd 0], r7, by simp [State.goto, State.emit, init], by simp [adds, wrap]⟩

/-- 2^64 sends bring the version back: a `Wait` polled after that many sends, all of them returned, is `Pending` and
nobody has woken it. So the bound in C47 and C49 is needed. -/
theorem C49_wraps : ∃ st m₂ m₃ s p, Reachable st ∧
    st.log = [] ++ .waitMade 0 :: m₂ ++ .sendAdd s :: m₃ ++ .pollBegin p 0 :: [.pollChecked p, .pollPending p] ∧
    .sendBegin s ∈ m₂ ∧ .sendEnd s ∈ st.log ∧ ∀ c, .woke c p ∉ st.log := by
  have sends : ∀ n, ∃ st m₂ m₃ s, Reachable st ∧ st.lock = none ∧ st.slab = [] ∧ st.waits = [0] ∧
      st.version = (n + 1) % wrap ∧ st.log = .waitMade 0 :: m₂ ++ .sendAdd s :: m₃ ∧ .sendBegin s ∈ m₂ ∧
      .sendEnd s ∈ m₃ ∧ ∀ c p, .woke c p ∉ st.log := by
    intro n
    induction n with
    | zero =>
      have r1 := Reachable.step .init (.wait init)
      obtain ⟨st, h1, h2, h3, h4, h5, h6⟩ := run_send r1 rfl
      refine ⟨st, [.sendBegin 0], [.sendLocked 0, .sendEnd 0], 0, h1, h2, h3, ?_, ?_, ?_, by simp, by simp, ?_⟩
      · rw [h4]; simp [State.emit, init]
      · rw [h5]; simp [State.emit, init]
      · rw [h6]; simp [State.emit, init]
      · rw [h6]; simp [State.emit, init]
    | succ n ih =>
      obtain ⟨st, m₂, m₃, s, h1, h2, h3, h4, h5, h6, h7, h8, h9⟩ := ih
      obtain ⟨st', e1, e2, e3, e4, e5, e6⟩ := run_send h1 h2
      rw [h3, h6] at e6
      refine ⟨st', m₂, m₃ ++ [.sendBegin st.calls, .sendAdd st.calls, .sendLocked st.calls, .sendEnd st.calls], s, e1, e2, e3,
        e4.trans h4, ?_, ?_, h7, ?_, ?_⟩
      · rw [e5, h5, Nat.mod_add_mod]
      · rw [e6]; simp
      · simp [h8]
      · intro c p; rw [e6]; have := h9 c p; rw [h6] at this; simp at this ⊢; exact this
  obtain ⟨st, m₂, m₃, s, h1, h2, h3, h4, h5, h6, h7, h8, h9⟩ := sends (wrap - 1)
  obtain ⟨st', k, e1, e2, e3, e4, e5, e6⟩ := run_poll h1 h2 (i := 0) (by rw [h4, h5]; simp [wrap])
  rw [h6] at e6
  refine ⟨st', m₂, m₃, s, st.calls, e1, ?_, h7, ?_, ?_⟩
  · rw [e6]; simp
  · rw [e6]; simp [h8]
  · intro c; rw [e6]; have := h9 c st.calls; rw [h6] at this; simp at this ⊢; exact this

end Parcom.Notify
