import Verif.Props.Notify
/-!
# C86: polling a `Wait` again

Of several polls of one future, only the waker given to the last is to be woken
(`core::future::Future::poll`: "on multiple calls to `poll`, only the `Waker` from the `Context` passed to the most
recent call should be scheduled to receive a wakeup"). `Wait::poll` (notify.rs:50-71) registers its waker each time and
never takes an earlier one back; nor does dropping a `Wait`.
-/
namespace Parcom.Notify

/-- C86: once a `Wait` that was polled to `Pending` has been polled to `Pending` again, the waker of the first poll is
not woken any more. -/
def C86Statement : Prop := ∀ (st : State), Reachable st → ∀ (i p q : Nat) (m₁ m₂ m₃ : List Event),
  .pollBegin p i ∈ m₁ → .pollPending p ∈ m₁ → st.log = m₁ ++ .pollBegin q i :: m₂ ++ .pollPending q :: m₃ →
  ∀ c, .woke c p ∉ m₃

/-- Polls that checked the version and returned have returned `Pending`. -/
theorem returned_pending {st : State} (h : Reachable st) :
    ∀ p, .pollChecked p ∈ st.log → st.pc p = .pollUnlock ∨ .pollPending p ∈ st.log := by
  induction h with
  | init => simp [init]
  | step hr hs ih =>
    have hc := calls hr
    intro p hp
    cases hs <;> simp only [State.goto, State.emit] at hp ⊢ <;> grind [Calls]

variable {st : State}

/-- C86, what holds instead: while nobody holds the mutex, the registered wakers are those of all polls so far that
returned `Pending` and were not woken since, whichever `Wait` they polled and whether or not it was polled again or
dropped. Each is registered once. -/
theorem C86_exact (h : Reachable st) (hl : st.lock = none) : (st.slab.map Prod.snd).Nodup ∧
    ∀ p, p ∈ st.slab.map Prod.snd ↔ .pollPending p ∈ st.log ∧ ∀ c, .woke c p ∉ st.log := by
  have hc := calls h
  have hr := registered h
  have free : ∀ p, (st.pc p).holds = false := by
    intro p
    cases hp : (st.pc p).holds with
    | false => rfl
    | true => have := (hc.lock p).mp hp; rw [hl] at this; simp at this
  refine ⟨hr.wakers, fun p => ⟨fun hp => ?_, fun ⟨hp, hw⟩ => ?_⟩⟩
  · obtain ⟨⟨k, q⟩, hk, rfl⟩ := List.mem_map.mp hp
    refine ⟨?_, fun c => hr.asleep k q c hk⟩
    have := free q
    rcases hr.owner k q hk with ⟨i, h1⟩ | h1 | h1
    · rw [h1] at this; simp [Pc.holds] at this
    · rw [h1] at this; simp [Pc.holds] at this
    · rcases returned_pending h q h1 with h2 | h2
      · rw [h2] at this; simp [Pc.holds] at this
      · exact h2
  · rcases (sleep h).asleep p (hc.pending p hp) with ⟨c, h1⟩ | ⟨⟨k, hk⟩, -⟩
    · exact absurd h1 (hw c)
    · exact List.mem_map.mpr ⟨_, hk, rfl⟩

/-- One `Wait`, polled `n` times by somebody, with nothing sent. -/
theorem run_polls (n : Nat) : ∃ st, Reachable st ∧ st.lock = none ∧ st.waits = [st.version] ∧ st.slab.length = n ∧
    st.calls = n ∧ st.slab.map Prod.snd = List.range n ∧
    st.log = .waitMade 0 :: (List.range n).flatMap fun p => [.pollBegin p 0, .pollChecked p, .pollPending p] := by
  induction n with
  | zero => exact ⟨_, .step .init (.wait init), rfl, rfl, rfl, rfl, rfl, rfl⟩
  | succ n ih =>
    obtain ⟨st, h1, h2, h3, h4, h5, h6, h7⟩ := ih
    obtain ⟨k, hk⟩ := fresh_key (st.slab.map Prod.fst)
    have hi : st.waits[0]? = some st.version := by rw [h3]; rfl
    have r1 := Reachable.step h1 (.pollBegin st 0 (by rw [h3]; simp))
    have r2 := Reachable.step r1 (.pollLoad _ st.calls 0 (by simp [State.goto, State.emit]) hi)
    have r3 := Reachable.step r2 (.pollLock _ st.calls 0 (by simp [State.goto, State.emit]) h2)
    have r4 := Reachable.step r3 (.pollInsert _ st.calls 0 k (by simp [State.goto]) hk)
    have r5 := Reachable.step r4 (.pollRecheck _ st.calls 0 k (by simp [State.goto]) hi)
    have r6 := Reachable.step r5 (.pollUnlock _ st.calls (by simp [State.goto, State.emit]))
    refine ⟨_, r6, rfl, h3, ?_, ?_, ?_, ?_⟩
    · simp [State.goto, State.emit, h4]
    · simp [State.goto, State.emit, h5]
    · simp [State.goto, State.emit, h5, h6, List.range_succ]
    · simp [State.goto, State.emit, h5, h7, List.range_succ]

/-- The list of wakers of a single `Wait` grows without bound. -/
theorem C86_grows (n : Nat) : ∃ st, Reachable st ∧ st.waits.length = 1 ∧ st.slab.length = n := by
  obtain ⟨st, h1, -, h3, h4, -⟩ := run_polls n
  exact ⟨st, h1, by rw [h3]; rfl, h4⟩

/-- C86 does not hold: a `Wait` polled twice has the waker of the first poll woken by the next `send`. -/
theorem C86_false : ¬ C86Statement := by
  intro h
  obtain ⟨st, h1, h2, h3, h4, h5, h6, h7⟩ := run_polls 2
  obtain ⟨st', e1, -, -, -, -, e6⟩ := run_send h1 h2
  have hsl : st.slab.map (fun e => Event.woke st.calls e.2) = [.woke 2 0, .woke 2 1] := by
    have : st.slab.map (fun e => Event.woke st.calls e.2) = (st.slab.map Prod.snd).map (Event.woke st.calls) := by simp
    rw [this, h6, h5]; rfl
  rw [hsl, h7, h5] at e6
  have e6 : st'.log = [.waitMade 0, .pollBegin 0 0, .pollChecked 0, .pollPending 0] ++ .pollBegin 1 0 :: [.pollChecked 1] ++
      .pollPending 1 :: [.sendBegin 2, .sendAdd 2, .sendLocked 2, .woke 2 0, .woke 2 1, .sendEnd 2] := e6
  exact h st' e1 0 0 1 _ _ _ (by simp) (by simp) e6 2 (by simp)

/-- The mutex is held by one call at a time: from when a `send` has taken it until that `send` returns, no poll checks. -/
theorem exclusive (h : Reachable st) : ∀ c l₁ l₂, st.log = l₁ ++ .sendLocked c :: l₂ → ∀ p, .woke c p ∈ st.log →
    .pollChecked p ∈ l₁ := by
  have key : (∀ c l₁ l₂, st.log = l₁ ++ .sendLocked c :: l₂ → (∀ p, .woke c p ∈ st.log → .pollChecked p ∈ l₁) ∧
      (st.pc c = .sendDrain → ∀ p, .pollChecked p ∉ l₂)) := by
    induction h with
    | init => simp [init]
    | @step st st' hr hs ih =>
      have hc := calls hr
      have hreg := registered hr
      have quiet : st'.log = st.log → (∀ c, st'.pc c = .sendDrain → st.pc c = .sendDrain) → ∀ c l₁ l₂,
          st'.log = l₁ ++ .sendLocked c :: l₂ → (∀ p, .woke c p ∈ st'.log → .pollChecked p ∈ l₁) ∧
          (st'.pc c = .sendDrain → ∀ p, .pollChecked p ∉ l₂) := by
        intro hl hpc c l₁ l₂ he
        rw [hl] at he ⊢
        exact ⟨(ih c l₁ l₂ he).1, fun hd => (ih c l₁ l₂ he).2 (hpc c hd)⟩
      have snoc : ∀ e, st'.log = st.log ++ [e] → (∀ c p, e ≠ .woke c p) → (∀ p, e ≠ .pollChecked p) →
          (∀ c, e ≠ .sendLocked c) → (∀ c, st'.pc c = .sendDrain → st.pc c = .sendDrain) → ∀ c l₁ l₂,
          st'.log = l₁ ++ .sendLocked c :: l₂ → (∀ p, .woke c p ∈ st'.log → .pollChecked p ∈ l₁) ∧
          (st'.pc c = .sendDrain → ∀ p, .pollChecked p ∉ l₂) := by
        intro e hl hw hk hd hpc c l₁ l₂ he
        rw [hl] at he
        rcases split_snoc he with ⟨-, -, h3⟩ | ⟨m, rfl, h3⟩
        · exact absurd h3.symm (hd c)
        · refine ⟨fun p hp => (ih c l₁ m h3).1 p ?_, fun hdr p hp => (ih c l₁ m h3).2 (hpc c hdr) p ?_⟩
          · rw [hl] at hp
            simp only [List.mem_append, List.mem_singleton] at hp
            exact hp.resolve_right fun h => hw c p h.symm
          · simp only [List.mem_append, List.mem_singleton] at hp
            exact hp.resolve_right fun h => hk p h.symm
      cases hs with
      | pollLoad | pollLock | pollInsert | pollRecheckReady =>
        exact quiet rfl fun c hd => by simp only [State.goto] at hd; grind
      | sendBegin => exact snoc _ rfl (by simp) (by simp) (by simp) fun c hd => by simp only [State.goto, State.emit] at hd; grind
      | sendAdd => exact snoc _ rfl (by simp) (by simp) (by simp) fun c hd => by simp only [State.goto, State.emit] at hd; grind
      | sendEnd => exact snoc _ rfl (by simp) (by simp) (by simp) fun c hd => by simp only [State.goto, State.emit] at hd; grind
      | wait => exact snoc _ rfl (by simp) (by simp) (by simp) fun c hd => hd
      | pollBegin => exact snoc _ rfl (by simp) (by simp) (by simp) fun c hd => by simp only [State.goto, State.emit] at hd; grind
      | pollLoadReady => exact snoc _ rfl (by simp) (by simp) (by simp) fun c hd => by simp only [State.goto, State.emit] at hd; grind
      | pollRemove => exact snoc _ rfl (by simp) (by simp) (by simp) fun c hd => by simp only [State.goto, State.emit] at hd; grind
      | pollUnlock => exact snoc _ rfl (by simp) (by simp) (by simp) fun c hd => by simp only [State.goto, State.emit] at hd; grind
      | pollRecheck p i k hpc hv =>
        intro c l₁ l₂ he
        rcases split_snoc he with ⟨-, -, h3⟩ | ⟨m, rfl, h3⟩
        · simp at h3
        · refine ⟨fun q hq => (ih c l₁ m h3).1 q (by simpa [State.emit, State.goto] using hq), fun hdr => ?_⟩
          have h1 := (hc.lock p).mp (by rw [hpc]; rfl)
          have hdr' : st.pc c = .sendDrain := by simp only [State.goto, State.emit] at hdr; grind
          have h2 := (hc.lock c).mp (by rw [hdr']; rfl)
          grind
      | sendLock d hpc hl =>
        intro c l₁ l₂ he
        rcases split_snoc he with ⟨rfl, rfl, h3⟩ | ⟨m, rfl, h3⟩
        · injection h3 with h3
          subst h3
          refine ⟨fun p hp => hreg.woken c p (by simpa [State.emit, State.goto] using hp), by simp⟩
        · refine ⟨fun q hq => (ih c l₁ m h3).1 q (by simpa [State.emit, State.goto] using hq), fun hdr p hp => ?_⟩
          have hold := hc.lockedAt c (by rw [show st.log = _ from h3]; simp)
          have hcd : c ≠ d := by rintro rfl; grind
          refine (ih c l₁ m h3).2 ?_ p (by simpa using hp)
          simp only [State.goto, State.emit] at hdr
          simpa [hcd] using hdr
      | sendWake d k p pre post hpc hsl =>
        intro c l₁ l₂ he
        rcases split_snoc he with ⟨-, -, h3⟩ | ⟨m, rfl, h3⟩
        · simp at h3
        · refine ⟨fun q hq => ?_, fun hdr q hq => (ih c l₁ m h3).2 hdr q (by simpa using hq)⟩
          simp only [State.emit, List.mem_append, List.mem_singleton, Event.woke.injEq] at hq
          rcases hq with hq | ⟨rfl, rfl⟩
          · exact (ih c l₁ m h3).1 q hq
          · have hck : .pollChecked q ∈ st.log := by
              rcases hreg.owner k q (by rw [hsl]; simp) with ⟨i, h1⟩ | h1 | h1
              · have e1 := (hc.lock q).mp (by rw [h1]; rfl)
                have e2 := (hc.lock c).mp (by rw [hpc]; rfl)
                grind
              · have e1 := (hc.lock q).mp (by rw [h1]; rfl)
                have e2 := (hc.lock c).mp (by rw [hpc]; rfl)
                grind
              · exact h1
            rw [show st.log = _ from h3] at hck
            simp only [List.mem_append, List.mem_cons, reduceCtorEq, false_or] at hck
            exact hck.resolve_right fun hm => (ih c l₁ m h3).2 hpc q hm
  exact fun c l₁ l₂ hl p hp => (key c l₁ l₂ hl).1 p hp

/-- Who wakes has taken the mutex, once. -/
theorem wakes_locked (h : Reachable st) : (∀ c p, .woke c p ∈ st.log → .sendLocked c ∈ st.log) ∧
    ∀ c p, NeverAfter st.log (.woke c p) (.sendLocked c) := by
  induction h with
  | init => exact ⟨by simp [init], fun _ _ => .nil⟩
  | @step st st' hr hs ih =>
    have hc := calls hr
    obtain ⟨h1, h2⟩ := ih
    cases hs with
    | pollLoad | pollLock | pollInsert | pollRecheckReady => exact ⟨h1, h2⟩
    | sendLock c hpc hl =>
      refine ⟨fun d p hp => ?_, fun d p => (h2 d p).snoc ?_⟩
      · simp only [State.goto, State.emit, List.mem_append] at hp ⊢
        exact .inl (h1 d p (by simpa using hp))
      · intro he hw
        injection he with he
        subst he
        have := hc.lockedAt c (h1 c p hw)
        grind
    | sendWake c k p pre post hpc hsl =>
      refine ⟨fun d q hq => ?_, fun d p => (h2 d p).snoc (by simp)⟩
      simp only [State.emit, List.mem_append, List.mem_singleton, Event.woke.injEq] at hq ⊢
      rcases hq with hq | ⟨rfl, rfl⟩
      · exact .inl (h1 d q hq)
      · exact .inl (hc.drainAt d hpc)
    | _ =>
      refine ⟨fun d q hq => ?_, fun d p => (h2 d p).snoc (by simp)⟩
      simp only [State.goto, State.emit, List.mem_append, List.mem_singleton, reduceCtorEq, or_false] at hq ⊢
      exact h1 d q hq

theorem wakes_same (h : Reachable st) {c d p : Nat} (hc : .woke c p ∈ st.log) (hd : .woke d p ∈ st.log) : c = d := by
  apply Classical.byContradiction
  intro hne
  have h1 := C50_at_most_once h p
  obtain ⟨a, b, hab⟩ := List.append_of_mem hc
  rw [hab, wakes_append, show Event.woke c p :: b = [.woke c p] ++ b from rfl, wakes_append] at h1
  have h2 : wakes p [.woke c p] = 1 := by simp [wakes]
  have h3 : 0 < wakes p a + wakes p b := by
    rw [← wakes_append, wakes, List.countP_pos_iff]
    refine ⟨.woke d p, ?_, by simp⟩
    rw [hab] at hd
    simp only [List.mem_append, List.mem_cons, Event.woke.injEq] at hd ⊢
    grind
  omega

/-- C86, partly: an earlier waker is never woken in place of a later one. If a `send` that returned has woken the waker
of some poll, it has also woken the waker of every poll that began after that one had returned `Pending`, and returned
`Pending` itself before the `send` took the mutex. -/
theorem C86_partial (h : Reachable st) {i p q c : Nat} {m₁ m₂ l₁ l₂ : List Event} (hp : .pollPending p ∈ m₁)
    (hq : st.log = m₁ ++ .pollBegin q i :: m₂) (hl : st.log = l₁ ++ .sendLocked c :: l₂) (hpq : .pollPending q ∈ l₁)
    (he : .sendEnd c ∈ st.log) (hw : .woke c p ∈ st.log) : .woke c q ∈ st.log := by
  apply Classical.byContradiction
  intro hno
  have hd : ∃ d, .woke d q ∈ l₁ := by
    apply Classical.byContradiction
    intro hn
    have := C50_wakes_all_sleepers h hl he hpq fun d hd => hn ⟨d, hd⟩
    exact hno (by rw [hl]; simp [this])
  obtain ⟨d, hd⟩ := hd
  have hdq : .woke d q ∈ st.log := by rw [hl]; simp [hd]
  have hcd : c ≠ d := fun h => hno (h ▸ hdq)
  obtain ⟨a, b, hab⟩ := List.append_of_mem ((wakes_locked h).1 d q hdq)
  have hck := exclusive h d a b hab q hdq
  -- the first poll had returned by then
  have hpa : .pollPending p ∈ a := by
    rcases List.append_eq_append_iff.mp (hq.symm.trans hab) with ⟨x, hx, -⟩ | ⟨x, hx, hx'⟩
    · rw [hx]; simp [hp]
    · cases x with
      | nil => simp at hx'
      | cons y x =>
        exact absurd (by simp : .pollBegin q i ∈ .sendLocked d :: x ++ .pollBegin q i :: m₂)
          ((order h).poll q i a (.sendLocked d :: x ++ .pollBegin q i :: m₂) (by
            simp only [List.cons_append, List.cons.injEq] at hx'
            rw [hq, hx, ← hx'.1]; simp) hck)
  rcases (sleep h).drained d a b hab p hpa with ⟨e, h1⟩ | h1 | ⟨⟨k, h1⟩, -⟩
  · have hep : .woke e p ∈ st.log := by rw [hab]; simp [h1]
    have := wakes_same h hw hep
    subst this
    -- both sends would have taken the mutex after the other had
    have n1 := (wakes_locked h).2 c p a (.sendLocked d :: b) hab h1
    have n2 := (wakes_locked h).2 d q l₁ (.sendLocked c :: l₂) hl hd
    rcases List.append_eq_append_iff.mp (hl.symm.trans hab) with ⟨x, hx, hx'⟩ | ⟨x, hx, hx'⟩
    · exact n2 (by rw [hx']; simp)
    · exact n1 (by rw [hx']; simp)
  · exact hcd (wakes_same h hw (by rw [hab]; simp [h1]))
  · exact C50_list_is_asleep h h1 c hw

/-- The hypotheses of `C86_partial` and `C86_exact` are met: a `Wait` polled twice, then a `send`. -/
example : ∃ st m₁ m₂ l₁ l₂, Reachable st ∧ st.lock = none ∧ .pollPending 0 ∈ m₁ ∧ st.log = m₁ ++ .pollBegin 1 0 :: m₂ ∧
    st.log = l₁ ++ .sendLocked 2 :: l₂ ∧ .pollPending 1 ∈ l₁ ∧ .sendEnd 2 ∈ st.log ∧ .woke 2 0 ∈ st.log := by
  obtain ⟨st, h1, h2, h3, h4, h5, h6, h7⟩ := run_polls 2
  obtain ⟨st', e1, e2, -, -, -, e6⟩ := run_send h1 h2
  have hsl : st.slab.map (fun e => Event.woke st.calls e.2) = [.woke 2 0, .woke 2 1] := by
    have : st.slab.map (fun e => Event.woke st.calls e.2) = (st.slab.map Prod.snd).map (Event.woke st.calls) := by simp
    rw [this, h6, h5]; rfl
  rw [hsl, h7, h5] at e6
  have e6 : st'.log = [.waitMade 0, .pollBegin 0 0, .pollChecked 0, .pollPending 0] ++ .pollBegin 1 0 :: ([.pollChecked 1,
      .pollPending 1, .sendBegin 2, .sendAdd 2] ++ .sendLocked 2 :: [.woke 2 0, .woke 2 1, .sendEnd 2]) := e6
  refine ⟨st', _, _, [.waitMade 0, .pollBegin 0 0, .pollChecked 0, .pollPending 0, .pollBegin 1 0, .pollChecked 1,
    .pollPending 1, .sendBegin 2, .sendAdd 2], [.woke 2 0, .woke 2 1, .sendEnd 2], e1, e2, ?_, e6, by rw [e6]; simp, ?_, ?_, ?_⟩
  · simp
  · simp
  · rw [e6]; simp
  · rw [e6]; simp

end Parcom.Notify
