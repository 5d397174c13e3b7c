import Verif.Lemmas.Notify
/-!
# Notify: what the log says
-/
namespace Parcom.Notify

theorem adds_append (l₁ l₂ : List Event) : adds (l₁ ++ l₂) = adds l₁ + adds l₂ := List.countP_append
@[simp] theorem adds_nil : adds [] = 0 := rfl
theorem adds_cons (e : Event) (l : List Event) : adds (e :: l) = adds [e] + adds l := adds_append [e] l
@[simp] theorem adds_add (c : Nat) : adds [.sendAdd c] = 1 := rfl
@[simp] theorem adds_other {e : Event} (h : ∀ c, e ≠ .sendAdd c) : adds [e] = 0 := by
  cases e <;> simp [adds] at h ⊢

theorem adds_cons_add (c : Nat) (l : List Event) : adds (.sendAdd c :: l) = 1 + adds l := by rw [adds_cons, adds_add]
theorem adds_cons_other {e : Event} (h : ∀ c, e ≠ .sendAdd c) (l : List Event) : adds (e :: l) = adds l := by
  rw [adds_cons, adds_other h, Nat.zero_add]

theorem adds_pos {l : List Event} (h : 0 < adds l) : ∃ s, .sendAdd s ∈ l := by
  rw [adds, List.countP_pos_iff] at h
  obtain ⟨e, he, hp⟩ := h
  cases e <;> simp at hp
  exact ⟨_, he⟩
theorem adds_mem {l : List Event} {s : Nat} (h : .sendAdd s ∈ l) : 0 < adds l := by
  rw [adds, List.countP_pos_iff]
  exact ⟨_, h, rfl⟩

/-- Calls go through their stages in order. -/
structure Order (st : State) : Prop where
  send : ∀ s, NeverAfter st.log (.sendAdd s) (.sendBegin s)
  poll : ∀ p i, NeverAfter st.log (.pollChecked p) (.pollBegin p i)
  over : ∀ s, NeverAfter st.log (.sendEnd s) (.sendAdd s)

theorem order {st : State} (h : Reachable st) : Order st := by
  induction h with
  | init => exact ⟨fun _ => .nil, fun _ _ => .nil, fun _ => .nil⟩
  | step hr hs ih =>
    have hc := calls hr
    obtain ⟨h1, h2, h3⟩ := ih
    cases hs with
    | sendBegin =>
      refine ⟨fun s => (h1 s).snoc ?_, fun p i => (h2 p i).snoc (by simp), fun s => (h3 s).snoc (by simp)⟩
      intro he ha
      injection he with he
      subst he
      exact Nat.lt_irrefl _ (hc.sendOld _ (hc.sendAdded _ ha).1)
    | pollBegin i hi =>
      refine ⟨fun s => (h1 s).snoc (by simp), fun p i => (h2 p i).snoc ?_, fun s => (h3 s).snoc (by simp)⟩
      intro he ha
      injection he with he _
      subst he
      have := hc.fresh _ (Nat.le_refl _)
      have := hc.checkedAt _ ha
      grind
    | pollLoad | pollLock | pollInsert | pollRecheckReady => exact ⟨h1, h2, h3⟩
    | sendAdd c hpc =>
      refine ⟨fun s => (h1 s).snoc (by simp), fun p i => (h2 p i).snoc (by simp), fun s => (h3 s).snoc ?_⟩
      intro he ha
      injection he with he
      subst he
      have := (hc.sendEnd _ ha).1
      grind
    | _ => exact ⟨fun s => (h1 s).snoc (by simp), fun p i => (h2 p i).snoc (by simp), fun s => (h3 s).snoc (by simp)⟩

/-- Versions count increments. -/
structure Counts (st : State) : Prop where
  version : st.version = adds st.log % wrap
  waits : ∀ i m₁ m₂, st.log = m₁ ++ .waitMade i :: m₂ → st.waits[i]? = some (adds m₁ % wrap)
  checked : ∀ p i l₁ l₂, .pollBegin p i ∈ st.log → st.log = l₁ ++ .pollChecked p :: l₂ →
    st.waits[i]? = some (adds l₁ % wrap)
  ready : ∀ p i m₁ m₂, (.pollReady p ∈ st.log ∨ ∃ k, st.pc p = .pollRemove k) → .pollBegin p i ∈ st.log →
    st.log = m₁ ++ .waitMade i :: m₂ → ∃ s, .sendAdd s ∈ m₂

/-- A version that differs means an increment since. -/
theorem Counts.changed {st : State} (h : Counts st) {i : Nat} (hv : st.waits[i]? ≠ some st.version) {m₁ m₂ : List Event}
    (hl : st.log = m₁ ++ .waitMade i :: m₂) : ∃ s, .sendAdd s ∈ m₂ := by
  apply adds_pos
  apply Nat.pos_of_ne_zero
  intro hz
  apply hv
  rw [h.waits i m₁ m₂ hl, h.version, hl, adds_append, adds_cons, hz, adds_other (by simp), Nat.add_zero]

theorem counts_snoc {st : State} {e : Event} (h : Counts st) (he : ∀ c, e ≠ .sendAdd c) (hw : ∀ i, e ≠ .waitMade i)
    (hk : ∀ p, e ≠ .pollChecked p) (hb : ∀ p i, e = .pollBegin p i → .pollChecked p ∉ st.log) :
    adds (st.log ++ [e]) = adds st.log ∧
    (∀ i m₁ m₂, st.log ++ [e] = m₁ ++ .waitMade i :: m₂ → ∃ m, m₂ = m ++ [e] ∧ st.log = m₁ ++ .waitMade i :: m) ∧
    (∀ p i l₁ l₂, .pollBegin p i ∈ st.log ++ [e] → st.log ++ [e] = l₁ ++ .pollChecked p :: l₂ →
      st.waits[i]? = some (adds l₁ % wrap)) := by
  refine ⟨by rw [adds_append, adds_other he, Nat.add_zero], ?_, ?_⟩
  · intro i m₁ m₂ hl
    rcases split_snoc hl with ⟨-, -, h⟩ | ⟨m, h1, h2⟩
    · exact absurd h.symm (hw i)
    · exact ⟨m, h1, h2⟩
  · intro p i l₁ l₂ hp hl
    rcases split_snoc hl with ⟨-, -, h⟩ | ⟨m, h1, h2⟩
    · exact absurd h.symm (hk p)
    · simp only [List.mem_append, List.mem_singleton] at hp
      rcases hp with hp | hp
      · exact h.checked p i l₁ m hp h2
      · exact absurd (by rw [h2]; simp) (hb p i hp.symm)

theorem counts_step {st st' : State} (hc : Calls st) (ih' : Counts st) (hs : Step st st') : Counts st' := by
    have ih := ih'
    obtain ⟨h1, h2, h3, h4⟩ := ih
    cases hs with
    | pollLoad p i hpc hv =>
      exact ⟨h1, h2, h3, fun q j m₁ m₂ hq => h4 q j m₁ m₂ (by simp only [State.goto] at hq; grind)⟩
    | pollLock p i hpc hv =>
      exact ⟨h1, h2, h3, fun q j m₁ m₂ hq => h4 q j m₁ m₂ (by simp only [State.goto] at hq; grind)⟩
    | pollInsert p i key hpc hv =>
      exact ⟨h1, h2, h3, fun q j m₁ m₂ hq => h4 q j m₁ m₂ (by simp only [State.goto] at hq; grind)⟩
    | pollRecheckReady p i key hpc hv =>
      refine ⟨h1, h2, h3, fun q j m₁ m₂ hq hb hl => ?_⟩
      by_cases hqp : q = p
      · subst hqp
        have := hc.pollOne q i j (hc.pollAt q i (.inr (.inr (.inr ⟨key, hpc⟩)))) hb
        subst this
        exact ih'.changed hv hl
      · exact h4 q j m₁ m₂ (by simp only [State.goto, if_neg hqp] at hq; exact hq) hb hl
    | pollRecheck p i key hpc hv =>
      refine ⟨?_, ?_, ?_, ?_⟩
      · show _ = adds (_ ++ _) % wrap
        rw [adds_append, adds_other (by simp)]; exact h1
      · intro j m₁ m₂ hl
        rcases split_snoc hl with ⟨-, -, h⟩ | ⟨m, -, h2'⟩
        · simp at h
        · exact h2 j m₁ m h2'
      · intro q j l₁ l₂ hq hl
        replace hq : Event.pollBegin q j ∈ st.log := by simpa [State.emit, State.goto] using hq
        rcases split_snoc hl with ⟨-, hl1, h⟩ | ⟨m, -, h2'⟩
        · injection h with h
          subst h
          have := hc.pollOne q i j (hc.pollAt q i (.inr (.inr (.inr ⟨key, hpc⟩)))) hq
          subst this
          rw [hl1]
          show _ = some (adds st.log % wrap)
          rw [← h1]
          exact hv
        · exact h3 q j l₁ m hq h2'
      · intro q j m₁ m₂ hq hb hl
        rcases split_snoc hl with ⟨-, -, h⟩ | ⟨m, rfl, h2'⟩
        · simp at h
        · obtain ⟨s, hs⟩ := h4 q j m₁ m (by simp only [State.goto, State.emit] at hq; grind) (by simpa [State.emit, State.goto] using hb) h2'
          exact ⟨s, by simp [hs]⟩
    | sendAdd c hpc =>
      refine ⟨?_, ?_, ?_, ?_⟩
      · show (_ + 1) % wrap = adds (_ ++ _) % wrap
        rw [adds_append, adds_add, h1, Nat.mod_add_mod]; rfl
      · intro j m₁ m₂ hl
        rcases split_snoc hl with ⟨-, -, h⟩ | ⟨m, -, h2'⟩
        · simp at h
        · exact h2 j m₁ m h2'
      · intro q j l₁ l₂ hq hl
        rcases split_snoc hl with ⟨-, -, h⟩ | ⟨m, -, h2'⟩
        · simp at h
        · exact h3 q j l₁ m (by simpa [State.emit, State.goto] using hq) h2'
      · intro q j m₁ m₂ hq hb hl
        rcases split_snoc hl with ⟨-, -, h⟩ | ⟨m, rfl, h2'⟩
        · simp at h
        · obtain ⟨s, hs⟩ := h4 q j m₁ m (by simp only [State.goto, State.emit] at hq; grind) (by simpa [State.emit, State.goto] using hb) h2'
          exact ⟨s, by simp [hs]⟩
    | wait =>
      have hlt : ∀ j, .waitMade j ∈ st.log → j < st.waits.length := fun j => (hc.waitMade j).mp
      have hold : ∀ j v : Nat, st.waits[j]? = some v → (st.waits ++ [st.version])[j]? = some v := by
        intro j v hj; grind
      refine ⟨?_, ?_, ?_, ?_⟩
      · show _ = adds (_ ++ _) % wrap
        rw [adds_append, adds_other (by simp)]; exact h1
      · intro j m₁ m₂ hl
        rcases split_snoc hl with ⟨-, hl1, h⟩ | ⟨m, -, h2'⟩
        · injection h with h
          subst h
          rw [hl1]
          show (st.waits ++ [st.version])[st.waits.length]? = some (adds st.log % wrap)
          simp [h1]
        · exact hold _ _ (h2 j m₁ m h2')
      · intro q j l₁ l₂ hq hl
        rcases split_snoc hl with ⟨-, -, h⟩ | ⟨m, -, h2'⟩
        · simp at h
        · exact hold _ _ (h3 q j l₁ m (by simpa [State.emit] using hq) h2')
      · intro q j m₁ m₂ hq hb hl
        replace hb : Event.pollBegin q j ∈ st.log := by simpa [State.emit] using hb
        rcases split_snoc hl with ⟨-, -, h⟩ | ⟨m, rfl, h2'⟩
        · injection h with h
          subst h
          exact absurd (hc.pollOld _ _ hb).2 (by simp)
        · obtain ⟨s, hs⟩ := h4 q j m₁ m (by simpa [State.emit] using hq) hb h2'
          exact ⟨s, by simp [hs]⟩
    | pollLoadReady p i hpc hv =>
      obtain ⟨e1, e2, e3⟩ := counts_snoc (e := .pollReady p) ih' (by simp) (by simp) (by simp) (by simp)
      refine ⟨?_, ?_, e3, ?_⟩
      · show _ = adds (_ ++ _) % wrap
        exact e1 ▸ h1
      · intro j m₁ m₂ hl
        obtain ⟨m, -, h⟩ := e2 j m₁ m₂ hl
        exact h2 j m₁ m h
      · intro q j m₁ m₂ hq hb hl
        obtain ⟨m, rfl, h⟩ := e2 j m₁ m₂ hl
        replace hb : Event.pollBegin q j ∈ st.log := by simpa [State.emit, State.goto] using hb
        by_cases hqp : q = p
        · subst hqp
          have := hc.pollOne q i j (hc.pollAt q i (.inl hpc)) hb
          subst this
          obtain ⟨s, hs⟩ := ih'.changed hv h
          exact ⟨s, by simp [hs]⟩
        · obtain ⟨s, hs⟩ := h4 q j m₁ m (by simp only [State.goto, State.emit, if_neg hqp] at hq; grind) hb h
          exact ⟨s, by simp [hs]⟩
    | pollRemove p key hpc =>
      obtain ⟨e1, e2, e3⟩ := counts_snoc (e := .pollReady p) ih' (by simp) (by simp) (by simp) (by simp)
      refine ⟨?_, ?_, e3, ?_⟩
      · show _ = adds (_ ++ _) % wrap
        exact e1 ▸ h1
      · intro j m₁ m₂ hl
        obtain ⟨m, -, h⟩ := e2 j m₁ m₂ hl
        exact h2 j m₁ m h
      · intro q j m₁ m₂ hq hb hl
        obtain ⟨m, rfl, h⟩ := e2 j m₁ m₂ hl
        replace hb : Event.pollBegin q j ∈ st.log := by simpa [State.emit, State.goto] using hb
        obtain ⟨s, hs⟩ := h4 q j m₁ m (by simp only [State.goto, State.emit] at hq; grind) hb h
        exact ⟨s, by simp [hs]⟩
    | pollBegin i hi =>
      have hnew : .pollChecked st.calls ∉ st.log := by
        intro ha
        have := hc.fresh _ (Nat.le_refl _)
        have := hc.checkedAt _ ha
        grind
      have hnr : .pollReady st.calls ∉ st.log := by
        intro ha
        have := hc.fresh _ (Nat.le_refl _)
        have := hc.readyAt _ ha
        grind
      obtain ⟨e1, e2, e3⟩ := counts_snoc (e := .pollBegin st.calls i) ih' (by simp) (by simp) (by simp)
        (by intro p j h; injection h with h; subst h; exact hnew)
      refine ⟨?_, ?_, e3, ?_⟩
      · show _ = adds (_ ++ _) % wrap
        exact e1 ▸ h1
      · intro j m₁ m₂ hl
        obtain ⟨m, -, h⟩ := e2 j m₁ m₂ hl
        exact h2 j m₁ m h
      · intro q j m₁ m₂ hq hb hl
        obtain ⟨m, rfl, h⟩ := e2 j m₁ m₂ hl
        simp only [State.emit, State.goto, List.mem_append, List.mem_singleton] at hb hq
        have := hc.fresh _ (Nat.le_refl _)
        obtain ⟨s, hs⟩ := h4 q j m₁ m (by grind) (by grind) h
        exact ⟨s, by simp [hs]⟩
    | sendBegin | sendLock | sendWake | sendEnd | pollUnlock =>
      all_goals
      constructor
      · show _ = adds (_ ++ _) % wrap
        rw [adds_append, adds_other (by simp)]; exact h1
      · intro j m₁ m₂ hl
        rcases split_snoc hl with ⟨-, -, h⟩ | ⟨m, -, h2'⟩
        · simp at h
        · exact h2 j m₁ m h2'
      · intro q j l₁ l₂ hq hl
        rcases split_snoc hl with ⟨-, -, h⟩ | ⟨m, -, h2'⟩
        · simp at h
        · exact h3 q j l₁ m (by simpa [State.emit, State.goto] using hq) h2'
      · intro q j m₁ m₂ hq hb hl
        rcases split_snoc hl with ⟨-, -, h⟩ | ⟨m, rfl, h2'⟩
        · simp at h
        · obtain ⟨s, hs⟩ := h4 q j m₁ m (by simp only [State.goto, State.emit] at hq; grind) (by simpa [State.emit, State.goto] using hb) h2'
          exact ⟨s, by simp [hs]⟩

theorem counts {st : State} (h : Reachable st) : Counts st := by
  induction h with
  | init => constructor <;> simp [init, adds]
  | step hr hs ih => exact counts_step (calls hr) ih hs

end Parcom.Notify
