import Verif.Model.NotifyWeak
import Verif.Props.Notify
/-!
# C117: Notify with stale reads
-/
namespace Parcom.Notify

/-- The version plays no part in some invariants. -/
def State.at (st : State) (x : Nat) : State := { st with version := x }

theorem Calls.at {st : State} {x : Nat} (h : Calls st) : Calls (st.at x) := by
  obtain ⟨h1, h2, h3, h4, h5, h6, h7, h8, h9, h10, h11, h12, h13, h14, h15, h16, h17⟩ := h
  constructor <;> assumption
theorem Registered.at {st : State} {x : Nat} (h : Registered st) : Registered (st.at x) := by
  obtain ⟨h1, h2, h3, h4, h5, h6, h7⟩ := h
  constructor <;> assumption
theorem Sleep.at {st : State} {x : Nat} (h : Sleep st) : Sleep (st.at x) := by
  obtain ⟨h1, h2, h3⟩ := h
  constructor <;> assumption

/-- But for what the loads return, a step of this machine is one of `Verif.Model.Notify` at some version. -/
theorem WStep.sim {w w' : Weak} (h : WStep w w') : ∃ x y, Step (w.st.at x) (w'.st.at y) := by
  cases h with
  | sendBegin => exact ⟨0, _, .sendBegin _⟩
  | sendAdd c h => exact ⟨0, _, .sendAdd (w.st.at 0) c h⟩
  | sendLock c h h1 => exact ⟨0, _, .sendLock (w.st.at 0) c h h1⟩
  | sendWake c key p pre post h h1 => exact ⟨0, _, .sendWake (w.st.at 0) c key p pre post h h1⟩
  | sendEnd c h h1 => exact ⟨0, _, .sendEnd (w.st.at 0) c h h1⟩
  | wait v h => exact ⟨v, _, .wait (w.st.at v)⟩
  | pollBegin i h => exact ⟨0, _, .pollBegin (w.st.at 0) i h⟩
  | pollLoadReady p i v r h h1 => exact ⟨v + 1, _, .pollLoadReady (w.st.at (v + 1)) p i h (by simp [State.at, h1])⟩
  | pollLoad p i v r h h1 => exact ⟨v, _, .pollLoad (w.st.at v) p i h h1⟩
  | pollLock p i h h1 => exact ⟨0, _, .pollLock (w.st.at 0) p i h h1⟩
  | pollInsert p i key h h1 => exact ⟨0, _, .pollInsert (w.st.at 0) p i key h h1⟩
  | pollRecheckReady p i key v r h h1 =>
    exact ⟨v + 1, _, .pollRecheckReady (w.st.at (v + 1)) p i key h (by simp [State.at, h1])⟩
  | pollRecheck p i key v r h h1 => exact ⟨v, _, .pollRecheck (w.st.at v) p i key h h1⟩
  | pollRemove p key h => exact ⟨0, _, .pollRemove (w.st.at 0) p key h⟩
  | pollUnlock p h => exact ⟨0, _, .pollUnlock (w.st.at 0) p h⟩

theorem weak_base {w : Weak} (h : WReachable w) : Calls w.st ∧ Registered w.st ∧ Sleep w.st := by
  induction h with
  | init => exact ⟨calls .init, registered .init, sleep .init⟩
  | step _ hs ih =>
    obtain ⟨h1, h2, h3⟩ := ih
    obtain ⟨x, y, hs⟩ := hs.sim
    exact ⟨(calls_step h1.at hs).at (x := _), (registered_step h1.at h2.at hs).at, (sleep_step h1.at h2.at h3.at hs).at⟩

/-- What the numbers mean. -/
structure Numbers (w : Weak) : Prop where
  version : w.st.version = adds w.st.log
  added : ∀ s a b, w.st.log = a ++ .sendAdd s :: b → w.added s = adds a + 1
  waits : ∀ i m₁ m₂, w.st.log = m₁ ++ .waitMade i :: m₂ → ∃ v, w.st.waits[i]? = some v ∧ v ≤ adds m₁
  seen : w.seen ≤ w.st.version ∧ ∀ s, .sendEnd s ∈ w.st.log → w.added s ≤ w.seen
  small : ∀ c, w.added c ≤ w.st.version
  locked : ∀ s, .sendLocked s ∈ w.st.log → .sendEnd s ∈ w.st.log ∨ w.st.pc s = .sendDrain
  ready : ∀ p i v, (.pollReady p ∈ w.st.log ∨ ∃ k, w.st.pc p = .pollRemove k) → .pollBegin p i ∈ w.st.log →
    w.st.waits[i]? = some v → v < w.st.version
  checked : ∀ p i v l₁ l₂, .pollBegin p i ∈ w.st.log → w.st.log = l₁ ++ .pollChecked p :: l₂ → w.st.waits[i]? = some v →
    ∃ r, v % wrap = r % wrap ∧ v ≤ r ∧ r ≤ w.st.version ∧ ∀ s, .sendLocked s ∈ l₁ → w.added s ≤ r
  held : ∀ p k l₁ l₂ s, (k, p) ∈ w.st.slab → w.st.log = l₁ ++ .pollChecked p :: l₂ → .sendLocked s ∈ l₂ →
    .sendEnd s ∉ w.st.log

/-- Steps that leave the numbers alone, and what each event must meet. -/
theorem Numbers.snoc {w w' : Weak} {e : Event} (h : Numbers w) (hl : w'.st.log = w.st.log ++ [e])
    (hv : w'.st.version = w.st.version) (ha : w'.added = w.added) (hw : w'.st.waits = w.st.waits) (hs : w'.seen = w.seen)
    (h1 : ∀ c, e ≠ .sendAdd c) (h2 : ∀ i, e ≠ .waitMade i) (h3 : ∀ c, e ≠ .sendEnd c) (h4 : ∀ p, e ≠ .pollChecked p)
    (h5 : ∀ s, e = .sendLocked s → w'.st.pc s = .sendDrain ∧ .sendEnd s ∉ w.st.log)
    (h6 : ∀ s, w.st.pc s = .sendDrain → w'.st.pc s = .sendDrain)
    (h7 : ∀ p k, w'.st.pc p = .pollRemove k → w.st.pc p = .pollRemove k)
    (h8 : ∀ p i, .pollBegin p i ∈ w.st.log → e = .pollReady p → ∀ v, w.st.waits[i]? = some v → v < w.st.version)
    (h9 : ∀ p i, e = .pollBegin p i → .pollChecked p ∉ w.st.log ∧ .pollReady p ∉ w.st.log ∧ ∀ k, w'.st.pc p ≠ .pollRemove k)
    (h10 : ∀ p k, (k, p) ∈ w'.st.slab → (k, p) ∈ w.st.slab) : Numbers w' := by
  obtain ⟨n1, n2, n3, n4, n5, n6, n7, n8, n9⟩ := h
  constructor
  · rw [hv, hl, adds_append, adds_other h1, n1]; rfl
  · intro s a b hab
    rw [hl] at hab
    rcases split_snoc hab with ⟨-, -, h⟩ | ⟨b', -, h⟩
    · exact absurd h.symm (h1 s)
    · rw [ha]; exact n2 s a b' h
  · intro i a b hab
    rw [hl] at hab
    rcases split_snoc hab with ⟨-, -, h⟩ | ⟨b', -, h⟩
    · exact absurd h.symm (h2 i)
    · rw [hw]; exact n3 i a b' h
  · rw [hv, ha, hs, hl]
    refine ⟨n4.1, fun s hm => n4.2 s ?_⟩
    simp only [List.mem_append, List.mem_singleton] at hm
    exact hm.resolve_right fun h => h3 s h.symm
  · rw [ha, hv]; exact n5
  · intro s hm
    rw [hl] at hm ⊢
    simp only [List.mem_append, List.mem_singleton] at hm ⊢
    rcases hm with hm | hm
    · rcases n6 s hm with h | h
      · exact .inl (.inl h)
      · exact .inr (h6 s h)
    · exact .inr (h5 s hm.symm).1
  · intro p i v hm hb hwt
    rw [hl] at hm hb
    rw [hw] at hwt
    rw [hv]
    simp only [List.mem_append, List.mem_singleton] at hm hb
    rcases hb with hb | hb
    · rcases hm with (hm | hm) | ⟨k, hm⟩
      · exact n7 p i v (.inl hm) hb hwt
      · exact h8 p i hb hm.symm v hwt
      · exact n7 p i v (.inr ⟨k, h7 p k hm⟩) hb hwt
    · obtain ⟨-, g2, g3⟩ := h9 p i hb.symm
      rcases hm with (hm | hm) | ⟨k, hm⟩
      · exact absurd hm g2
      · rw [← hm] at hb; cases hb
      · exact absurd hm (g3 k)
  · intro p i v l₁ l₂ hb hc hwt
    rw [hl] at hb hc
    rw [hw] at hwt
    rw [hv, ha]
    rcases split_snoc hc with ⟨-, -, h⟩ | ⟨b', -, h⟩
    · exact absurd h.symm (h4 p)
    · simp only [List.mem_append, List.mem_singleton] at hb
      rcases hb with hb | hb
      · exact n8 p i v l₁ b' hb h hwt
      · exact absurd (by rw [h]; simp) (h9 p i hb.symm).1
  · intro p k l₁ l₂ s hk hc hm he
    rw [hl] at hc he
    simp only [List.mem_append, List.mem_singleton] at he
    have he := he.resolve_right fun h => h3 s h.symm
    rcases split_snoc hc with ⟨-, -, h⟩ | ⟨b', rfl, h⟩
    · exact h4 p h.symm
    · simp only [List.mem_append, List.mem_singleton] at hm
      rcases hm with hm | hm
      · exact n9 p k l₁ b' s (h10 p k hk) h hm he
      · exact (h5 s hm.symm).2 he

/-- Steps without an event. -/
theorem Numbers.quiet {w w' : Weak} (h : Numbers w) (hl : w'.st.log = w.st.log)
    (hv : w'.st.version = w.st.version) (ha : w'.added = w.added) (hw : w'.st.waits = w.st.waits) (hs : w'.seen = w.seen)
    (h6 : ∀ s, w.st.pc s = .sendDrain → w'.st.pc s = .sendDrain)
    (h7 : ∀ p k i v, w'.st.pc p = .pollRemove k → .pollBegin p i ∈ w.st.log → w.st.waits[i]? = some v →
      w.st.pc p = .pollRemove k ∨ v < w.st.version)
    (h10 : ∀ p k, (k, p) ∈ w'.st.slab → .pollChecked p ∈ w.st.log → (k, p) ∈ w.st.slab) : Numbers w' := by
  obtain ⟨n1, n2, n3, n4, n5, n6, n7, n8, n9⟩ := h
  constructor
  · rw [hv, hl]; exact n1
  · rw [hl, ha]; exact n2
  · rw [hl, hw]; exact n3
  · rw [hl, hv, ha, hs]; exact n4
  · rw [ha, hv]; exact n5
  · intro s hm
    rw [hl] at hm ⊢
    exact (n6 s hm).imp_right (h6 s)
  · rw [hl, hv, hw]
    intro p i v hm hb hwt
    rcases hm with hm | ⟨k, hm⟩
    · exact n7 p i v (.inl hm) hb hwt
    · rcases h7 p k i v hm hb hwt with h | h
      · exact n7 p i v (.inr ⟨k, h⟩) hb hwt
      · exact h
  · rw [hl, hv, hw, ha]; exact n8
  · rw [hl]
    intro p k l₁ l₂ s hk hc
    exact n9 p k l₁ l₂ s (h10 p k hk (by rw [hc]; simp)) hc

theorem numbers_step {w w' : Weak} (hc : Calls w.st) (h : Numbers w) (hs : WStep w w') : Numbers w' := by
  have hnew := hc.fresh w.st.calls (Nat.le_refl _)
  have hn := h
  obtain ⟨n1, n2, n3, n4, n5, n6, n7, n8, n9⟩ := h
  cases hs with
  | sendBegin =>
    refine hn.snoc rfl rfl rfl rfl rfl (by simp) (by simp) (by simp) (by simp) (by simp) ?_ ?_ (by simp) (by simp) (fun _ _ h => h) <;>
      simp only [State.goto, State.emit] <;> grind
  | sendAdd c hpc =>
    have hno : .sendAdd c ∉ w.st.log := fun h => (hc.sendAdded c h).2 hpc
    have hnl : .sendLocked c ∉ w.st.log := fun h => by have := hc.lockedAt c h; grind
    have hne : .sendEnd c ∉ w.st.log := fun h => hno (hc.sendEnd c h).2.1
    have e1 : adds (w.st.log ++ [.sendAdd c]) = w.st.version + 1 := by rw [adds_append, adds_add, n1]
    constructor <;> simp only [State.goto, State.emit]
    · exact e1.symm
    · intro s a b hab
      rcases split_snoc hab with ⟨-, rfl, h⟩ | ⟨b', -, h⟩
      · injection h with h
        subst h
        rw [if_pos rfl, n1]
      · rw [if_neg]
        · exact n2 s a b' h
        · rintro rfl
          exact hno (by rw [h]; simp)
    · intro i a b hab
      rcases split_snoc hab with ⟨-, -, h⟩ | ⟨b', -, h⟩
      · simp at h
      · exact n3 i a b' h
    · refine ⟨by omega, fun s hm => ?_⟩
      simp only [List.mem_append, List.mem_singleton, reduceCtorEq, or_false] at hm
      rw [if_neg (by rintro rfl; exact hne hm)]
      exact n4.2 s hm
    · intro d
      have := n5 d
      split <;> omega
    · intro s hm
      simp only [List.mem_append, List.mem_singleton, reduceCtorEq, or_false] at hm ⊢
      rw [if_neg (by rintro rfl; exact hnl hm)]
      exact n6 s hm
    · intro p i v hm hb hw
      simp only [List.mem_append, List.mem_singleton, reduceCtorEq, or_false] at hm hb
      have := n7 p i v (by grind) hb hw
      omega
    · intro p i v l₁ l₂ hb hl hw
      simp only [List.mem_append, List.mem_singleton, reduceCtorEq, or_false] at hb
      rcases split_snoc hl with ⟨-, -, h⟩ | ⟨b', -, h⟩
      · simp at h
      · obtain ⟨r, r1, r2, r3, r4⟩ := n8 p i v l₁ b' hb h hw
        refine ⟨r, r1, r2, by omega, fun s hm => ?_⟩
        rw [if_neg]
        · exact r4 s hm
        · rintro rfl
          exact hnl (by rw [h]; simp [hm])
    · intro p k l₁ l₂ s hk hl hm he
      simp only [List.mem_append, List.mem_singleton, reduceCtorEq, or_false] at he
      rcases split_snoc hl with ⟨-, -, h⟩ | ⟨b', rfl, h⟩
      · simp at h
      · simp only [List.mem_append, List.mem_singleton, reduceCtorEq, or_false] at hm
        exact n9 p k l₁ b' s hk h hm he
  | sendLock c hpc hlock =>
    have hne : .sendEnd c ∉ w.st.log := fun h => by have := (hc.sendEnd c h).1; grind
    refine hn.snoc rfl rfl rfl rfl rfl (by simp) (by simp) (by simp) (by simp) ?_ ?_ ?_ (by simp) (by simp) (fun _ _ h => h)
    · intro s h
      injection h with h
      subst h
      exact ⟨by simp [State.goto, State.emit], hne⟩
    · simp only [State.goto, State.emit]; grind
    · simp only [State.goto, State.emit]; grind
  | sendWake c key p pre post hpc hsl =>
    refine hn.snoc rfl rfl rfl rfl rfl (by simp) (by simp) (by simp) (by simp) (by simp) (fun _ h => h) (fun _ _ h => h)
      (by simp) (by simp) ?_
    intro q k hk
    simp only [State.emit] at hk
    rw [hsl]
    simp at hk ⊢
    grind
  | sendEnd c hpc hsl =>
    constructor <;> simp only [State.goto, State.emit]
    · rw [adds_append, adds_other (by simp), n1]; rfl
    · intro s a b hab
      rcases split_snoc hab with ⟨-, -, h⟩ | ⟨b', -, h⟩
      · simp at h
      · exact n2 s a b' h
    · intro s a b hab
      rcases split_snoc hab with ⟨-, -, h⟩ | ⟨b', -, h⟩
      · simp at h
      · exact n3 s a b' h
    · refine ⟨by have := n5 c; omega, fun s hm => ?_⟩
      simp only [List.mem_append, List.mem_singleton, Event.sendEnd.injEq] at hm
      rcases hm with hm | rfl
      · have := n4.2 s hm; omega
      · omega
    · exact n5
    · intro s hm
      simp only [List.mem_append, List.mem_singleton, reduceCtorEq, or_false] at hm
      by_cases hsc : s = c
      · subst hsc; simp
      · rw [if_neg hsc]
        rcases n6 s hm with h | h
        · simp [h]
        · exact .inr h
    · intro p i v hm hb hw
      simp only [List.mem_append, List.mem_singleton, reduceCtorEq, or_false] at hm hb
      exact n7 p i v (by grind) hb hw
    · intro p i v l₁ l₂ hb hl hw
      simp only [List.mem_append, List.mem_singleton, reduceCtorEq, or_false] at hb
      rcases split_snoc hl with ⟨-, -, h⟩ | ⟨b', -, h⟩
      · simp at h
      · exact n8 p i v l₁ b' hb h hw
    · rw [hsl]; simp
  | wait v hv =>
    have hlt : ∀ j, .waitMade j ∈ w.st.log → j < w.st.waits.length := fun j => (hc.waitMade j).mp
    have hold : ∀ j u : Nat, j < w.st.waits.length → (w.st.waits ++ [v])[j]? = some u → w.st.waits[j]? = some u := by
      intro j u hj h; rwa [List.getElem?_append_left hj] at h
    constructor <;> simp only [State.emit]
    · rw [adds_append, adds_other (by simp), n1]; rfl
    · intro s a b hab
      rcases split_snoc hab with ⟨-, -, h⟩ | ⟨b', -, h⟩
      · simp at h
      · exact n2 s a b' h
    · intro i a b hab
      rcases split_snoc hab with ⟨-, rfl, h⟩ | ⟨b', -, h⟩
      · injection h with h
        subst h
        exact ⟨v, by simp, by rw [← n1]; exact hv⟩
      · obtain ⟨u, h1, h2⟩ := n3 i a b' h
        exact ⟨u, by rw [List.getElem?_append_left (hlt i (by rw [h]; simp))]; exact h1, h2⟩
    · refine ⟨n4.1, fun s hm => n4.2 s (by simpa using hm)⟩
    · exact n5
    · intro s hm
      have := n6 s (by simpa using hm)
      simpa using this
    · intro p i u hm hb hw
      simp only [List.mem_append, List.mem_singleton, reduceCtorEq, or_false] at hm hb
      exact n7 p i u hm hb (hold i u (hc.pollOld p i hb).2 hw)
    · intro p i u l₁ l₂ hb hl hw
      simp only [List.mem_append, List.mem_singleton, reduceCtorEq, or_false] at hb
      rcases split_snoc hl with ⟨-, -, h⟩ | ⟨b', -, h⟩
      · simp at h
      · exact n8 p i u l₁ b' hb h (hold i u (hc.pollOld p i hb).2 hw)
    · intro p k l₁ l₂ s hk hl hm he
      simp only [List.mem_append, List.mem_singleton, reduceCtorEq, or_false] at he
      rcases split_snoc hl with ⟨-, -, h⟩ | ⟨b', rfl, h⟩
      · simp at h
      · simp only [List.mem_append, List.mem_singleton, reduceCtorEq, or_false] at hm
        exact n9 p k l₁ b' s hk h hm he
  | pollBegin i hi =>
    refine hn.snoc rfl rfl rfl rfl rfl (by simp) (by simp) (by simp) (by simp) (by simp) ?_ ?_ (by simp) ?_ (fun _ _ h => h)
    · simp only [State.goto, State.emit]; grind
    · simp only [State.goto, State.emit]; grind
    · intro p j h
      injection h with h
      subst h
      refine ⟨fun h => ?_, fun h => ?_, ?_⟩
      · have := hc.checkedAt _ h; grind
      · have := hc.readyAt _ h; grind
      · simp [State.goto, State.emit]
  | pollLoadReady p i v r hpc hw h1 h2 h3 =>
    refine hn.snoc rfl rfl rfl rfl rfl (by simp) (by simp) (by simp) (by simp) (by simp) ?_ ?_ ?_ (by simp) (fun _ _ h => h)
    · simp only [State.goto, State.emit]; grind
    · simp only [State.goto, State.emit]; grind
    · intro q j hb h u hu
      injection h with h
      subst h
      have := hc.pollOne p i j (hc.pollAt p i (.inl hpc)) hb
      subst this
      rw [hw] at hu
      injection hu with hu
      subst hu
      have : v ≠ r := fun h => h3 (by rw [h])
      omega
  | pollLoad p i v r hpc hw h1 h2 h3 =>
    refine hn.quiet rfl rfl rfl rfl rfl ?_ ?_ (fun _ _ h _ => h) <;> simp only [State.goto] <;> grind
  | pollLock p i hpc h1 =>
    refine hn.quiet rfl rfl rfl rfl rfl ?_ ?_ (fun _ _ h _ => h) <;> simp only [State.goto] <;> grind
  | pollInsert p i key hpc h1 =>
    refine hn.quiet rfl rfl rfl rfl rfl ?_ ?_ ?_
    · simp only [State.goto]; grind
    · simp only [State.goto]; grind
    · intro q k hk hck
      simp only [State.goto, List.mem_append, List.mem_singleton, Prod.mk.injEq] at hk
      rcases hk with hk | ⟨-, rfl⟩
      · exact hk
      · have := hc.checkedAt _ hck; grind
  | pollRecheckReady p i key v r hpc hw h1 h2 h3 h4 =>
    refine hn.quiet rfl rfl rfl rfl rfl ?_ ?_ (fun _ _ h _ => h)
    · simp only [State.goto]; grind
    · intro q k j u hq hb hu
      by_cases hqp : q = p
      · subst hqp
        have := hc.pollOne q i j (hc.pollAt q i (.inr (.inr (.inr ⟨key, hpc⟩)))) hb
        subst this
        rw [hw] at hu
        injection hu with hu
        subst hu
        have : v ≠ r := fun h => h4 (by rw [h])
        exact .inr (by omega)
      · simp only [State.goto, if_neg hqp] at hq
        exact .inl hq
  | pollRecheck p i key v r hpc hw h1 h2 h3 h4 =>
    have hlock := (hc.lock p).mp (by rw [hpc]; rfl)
    have hnck : .pollChecked p ∉ w.st.log := fun h => by have := hc.checkedAt p h; grind
    constructor <;> simp only [State.goto, State.emit]
    · rw [adds_append, adds_other (by simp), n1]; rfl
    · intro s a b hab
      rcases split_snoc hab with ⟨-, -, h⟩ | ⟨b', -, h⟩
      · simp at h
      · exact n2 s a b' h
    · intro s a b hab
      rcases split_snoc hab with ⟨-, -, h⟩ | ⟨b', -, h⟩
      · simp at h
      · exact n3 s a b' h
    · refine ⟨n4.1, fun s hm => n4.2 s (by simpa using hm)⟩
    · exact n5
    · intro s hm
      have := n6 s (by simpa using hm)
      grind
    · intro q j u hm hb hu
      simp only [List.mem_append, List.mem_singleton, reduceCtorEq, or_false] at hm hb
      exact n7 q j u (by grind) hb hu
    · intro q j u l₁ l₂ hb hl hu
      simp only [List.mem_append, List.mem_singleton, reduceCtorEq, or_false] at hb
      rcases split_snoc hl with ⟨-, rfl, h⟩ | ⟨b', -, h⟩
      · injection h with h
        subst h
        have := hc.pollOne q i j (hc.pollAt q i (.inr (.inr (.inr ⟨key, hpc⟩)))) hb
        subst this
        rw [hw] at hu
        injection hu with hu
        subst hu
        refine ⟨r, h4, h1, h3, fun s hm => ?_⟩
        rcases n6 s hm with h | h
        · have := n4.2 s h; omega
        · have := (hc.lock s).mp (by rw [h]; rfl)
          grind
      · exact n8 q j u l₁ b' hb h hu
    · intro q k l₁ l₂ s hk hl hm he
      simp only [List.mem_append, List.mem_singleton, reduceCtorEq, or_false] at he
      rcases split_snoc hl with ⟨rfl, -, -⟩ | ⟨b', rfl, h⟩
      · simp at hm
      · simp only [List.mem_append, List.mem_singleton, reduceCtorEq, or_false] at hm
        exact n9 q k l₁ b' s hk h hm he
  | pollRemove p key hpc =>
    refine hn.snoc rfl rfl rfl rfl rfl (by simp) (by simp) (by simp) (by simp) (by simp) ?_ ?_ ?_ (by simp) ?_
    · simp only [State.goto, State.emit]; grind
    · simp only [State.goto, State.emit]; grind
    · intro q j hb h u hu
      injection h with h
      subst h
      exact n7 p j u (.inr ⟨key, hpc⟩) hb hu
    · intro q k hk
      simp only [State.goto, State.emit, List.mem_filter] at hk
      exact hk.1
  | pollUnlock p hpc =>
    refine hn.snoc rfl rfl rfl rfl rfl (by simp) (by simp) (by simp) (by simp) (by simp) ?_ ?_ (by simp) (by simp) (fun _ _ h => h) <;>
      simp only [State.goto, State.emit] <;> grind

theorem numbers {w : Weak} (h : WReachable w) : Numbers w := by
  induction h with
  | init => constructor <;> simp [Weak.init, Notify.init, adds]
  | step hr hs ih => exact numbers_step (weak_base hr).1 ih hs

theorem weak_order {w : Weak} (h : WReachable w) : Order w.st := by
  induction h with
  | init => exact order .init
  | step hr hs ih =>
    have hc := (weak_base hr).1
    obtain ⟨h1, h2, h3⟩ := ih
    cases hs with
    | sendBegin =>
      refine ⟨fun s => (h1 s).snoc ?_, fun p i => (h2 p i).snoc (by simp), fun s => (h3 s).snoc (by simp)⟩
      intro he ha
      injection he with he
      subst he
      exact Nat.lt_irrefl _ (hc.sendOld _ (hc.sendAdded _ ha).1)
    | pollBegin i hi =>
      refine ⟨fun s => (h1 s).snoc (by simp), fun p i => (h2 p i).snoc ?_, fun s => (h3 s).snoc (by simp)⟩
      intro he ha
      injection he with he _
      subst he
      have := hc.fresh _ (Nat.le_refl _)
      have := hc.checkedAt _ ha
      grind
    | pollLoad | pollLock | pollInsert | pollRecheckReady => exact ⟨h1, h2, h3⟩
    | sendAdd c hpc =>
      refine ⟨fun s => (h1 s).snoc (by simp), fun p i => (h2 p i).snoc (by simp), fun s => (h3 s).snoc ?_⟩
      intro he ha
      injection he with he
      subst he
      have := (hc.sendEnd _ ha).1
      grind
    | _ => exact ⟨fun s => (h1 s).snoc (by simp), fun p i => (h2 p i).snoc (by simp), fun s => (h3 s).snoc (by simp)⟩

variable {w : Weak}

/-- C117: no lost wake-up, whatever the loads return. If a `Wait` whose load saw `v` increments was polled to `Pending`, and a `send`
whose increment it did not see (the `n`th, for `n > v`) has returned, then the waker of that poll has been woken. -/
theorem C117_no_lost_wakeup (h : WReachable w) {i p s v : Nat} {a b : List Event} (hv : w.st.waits[i]? = some v)
    (hb : .pollBegin p i ∈ w.st.log) (hp : .pollPending p ∈ w.st.log) (hs : w.st.log = a ++ .sendAdd s :: b) (hn : v < adds a + 1)
    (he : .sendEnd s ∈ w.st.log) (hfew : adds w.st.log < v + wrap) : ∃ c, .woke c p ∈ w.st.log := by
  obtain ⟨hc, hr, hsl⟩ := weak_base h
  have hnum := numbers h
  have hck := hc.pending p hp
  rcases hsl.asleep p hck with h1 | ⟨⟨k, hk⟩, -⟩
  · exact h1
  · exfalso
    obtain ⟨l₁, l₂, hl⟩ := List.append_of_mem hck
    obtain ⟨r, r1, r2, r3, r4⟩ := hnum.checked p i v l₁ l₂ hb hl hv
    have hlk := (hc.sendEnd s he).2.2
    have h2 := fun hm => hnum.held p k l₁ l₂ s hk hl hm he
    rw [hl] at hlk
    simp at hlk
    have := r4 s (hlk.resolve_right h2)
    rw [hnum.added s a b hs] at this
    rw [hnum.version] at r3
    rw [wrap] at *
    omega

/-- C117, in the words of C47: the `send` began after the `Wait` was made. -/
theorem C117_no_lost_wakeup_after (h : WReachable w) {i p s : Nat} {m₁ m₂ : List Event} (hw : w.st.log = m₁ ++ .waitMade i :: m₂)
    (hb : .pollBegin p i ∈ w.st.log) (hp : .pollPending p ∈ w.st.log) (hs : .sendBegin s ∈ m₂) (he : .sendEnd s ∈ w.st.log)
    (hfew : adds w.st.log < wrap) : ∃ c, .woke c p ∈ w.st.log := by
  have hnum := numbers h
  obtain ⟨v, hv, hle⟩ := hnum.waits i m₁ m₂ hw
  have hadd := ((weak_base h).1.sendEnd s he).2.1
  have hadd₂ : .sendAdd s ∉ m₁ := fun hm =>
    (weak_order h).send s (m₁ ++ [.waitMade i]) m₂ (by rw [hw]; simp) (by simp [hm]) hs
  rw [hw] at hadd
  simp at hadd
  obtain ⟨a, b, rfl⟩ := List.append_of_mem (hadd.resolve_left hadd₂)
  refine C117_no_lost_wakeup h hv hb hp (a := m₁ ++ .waitMade i :: a) (b := b) (by rw [hw]; simp) ?_ he (by omega)
  rw [adds_append]
  omega

/-- C117: once a `send` that the `Wait` did not see has returned, no later `poll` of it returns `Pending`. -/
theorem C117_ready_after_send (h : WReachable w) {i p s v : Nat} {m m' a b : List Event} (hv : w.st.waits[i]? = some v)
    (hm : w.st.log = m ++ .pollBegin p i :: m') (hs : m = a ++ .sendAdd s :: b) (hn : v < adds a + 1) (he : .sendEnd s ∈ m)
    (hfew : adds w.st.log < v + wrap) : .pollPending p ∉ w.st.log := by
  intro hp
  obtain ⟨hc, hr, hsl⟩ := weak_base h
  have hnum := numbers h
  have hck := hc.pending p hp
  have hck₄ : .pollChecked p ∈ m' := by
    have hno : .pollChecked p ∉ m := fun hk => (weak_order h).poll p i _ (.pollBegin p i :: m') hm hk (by simp)
    rw [hm, List.mem_append] at hck
    simpa using hck.resolve_left hno
  obtain ⟨c, d, rfl⟩ := List.append_of_mem hck₄
  have hlog : .sendLocked s ∈ m ++ .pollBegin p i :: c := by
    -- the `send` took the mutex before it returned
    have : ∀ {w : Weak}, WReachable w → ∀ m m', w.st.log = m ++ m' → .sendEnd s ∈ m → .sendLocked s ∈ m := by
      intro w h
      induction h with
      | init => intro m m' hm he; simp [Weak.init, Notify.init] at hm; simp [hm.1] at he
      | @step w w' hr hs ih =>
        intro m m' hm he
        rcases List.eq_nil_or_concat m' with rfl | ⟨m'', y, rfl⟩
        · rw [List.append_nil] at hm
          rw [← hm] at he ⊢
          exact ((weak_base (.step hr hs)).1.sendEnd s he).2.2
        · have hx : w'.st.log = w.st.log ∨ ∃ e, w'.st.log = w.st.log ++ [e] := by
            cases hs <;> simp [State.emit, State.goto]
          rcases hx with hx | ⟨e, hx⟩
          · exact ih m (m''.concat y) (by rw [← hx, hm]) he
          · rw [hx, List.concat_eq_append, ← List.append_assoc] at hm
            have := (List.append_inj' hm rfl).1
            exact ih m m'' this he
    have := this h m _ hm he
    simp [this]
  obtain ⟨r, r1, r2, r3, r4⟩ := hnum.checked p i v (m ++ .pollBegin p i :: c) d (by rw [hm]; simp) (by rw [hm]; simp) hv
  have := r4 s hlog
  rw [hnum.added s a (b ++ .pollBegin p i :: (c ++ .pollChecked p :: d)) (by rw [hm, hs]; simp)] at this
  rw [hnum.version] at r3
  rw [wrap] at *
  omega

theorem nth_add {log : List Event} {v : Nat} (h : v < adds log) : ∃ s a b, log = a ++ .sendAdd s :: b ∧ adds a = v := by
  induction log generalizing v with
  | nil => simp at h
  | cons e log ih =>
    by_cases he : ∃ c, e = .sendAdd c
    · obtain ⟨c, rfl⟩ := he
      cases v with
      | zero => exact ⟨c, [], log, rfl, rfl⟩
      | succ v =>
        rw [adds_cons_add] at h
        obtain ⟨s, a, b, h1, h2⟩ := ih (v := v) (by omega)
        exact ⟨s, .sendAdd c :: a, b, by rw [h1]; rfl, by rw [adds_cons_add, h2]; omega⟩
    · have he : ∀ c, e ≠ .sendAdd c := fun c h => he ⟨c, h⟩
      rw [adds_cons_other he] at h
      obtain ⟨s, a, b, h1, h2⟩ := ih h
      exact ⟨s, e :: a, b, by rw [h1]; rfl, by rw [adds_cons_other he, h2]⟩

/-- C117: a `Wait` is ready only if there is an increment that its load did not see. -/
theorem C117_ready_unseen (h : WReachable w) {i p v : Nat} (hv : w.st.waits[i]? = some v) (hb : .pollBegin p i ∈ w.st.log)
    (hp : .pollReady p ∈ w.st.log) : ∃ s a b, w.st.log = a ++ .sendAdd s :: b ∧ adds a = v := by
  have hnum := numbers h
  have := hnum.ready p i v (.inl hp) hb hv
  rw [hnum.version] at this
  exact nth_add this

/-- C117: but it may be one made before: C48 does need the order of the accesses. Here a `send` returns, then a `Wait` is made that
does not see it. -/
theorem C117_stale : ∃ w m₁, WReachable w ∧ w.st.log = m₁ ++ [.waitMade 0, .pollBegin 1 0, .pollReady 1] ∧ .sendEnd 0 ∈ m₁ := by
  have r1 := WReachable.step .init (.sendBegin _)
  have r2 := WReachable.step r1 (.sendAdd _ 0 (by simp [State.goto, State.emit, Weak.init, init]))
  have r3 := WReachable.step r2 (.sendLock _ 0 (by simp [State.goto, State.emit]) rfl)
  have r4 := WReachable.step r3 (.sendEnd _ 0 (by simp [State.goto, State.emit]) rfl)
  have r5 := WReachable.step r4 (.wait _ 0 (by simp))
  have r6 := WReachable.step r5 (.pollBegin _ 0 (by simp [State.goto, State.emit]))
  have r7 := WReachable.step r6 (.pollLoadReady _ 1 0 0 1 (by simp [State.goto, State.emit, Weak.init, init])
    (by simp [State.goto, State.emit, Weak.init, init]) (by simp) (by simp [State.goto, State.emit, Weak.init, init]) (by simp [wrap]))
  exact ⟨_, [.sendBegin 0, .sendAdd 0, .sendLocked 0, .sendEnd 0], r7, by simp [State.goto, State.emit, Weak.init, init], by simp⟩

/-- C117: wakers are woken at most once, and only those of polls that found the version unchanged; `wakers.remove(key)` does not
panic; a `send` that returned has woken all that slept when it took the mutex. -/
theorem C117_wakes (h : WReachable w) : (∀ p, wakes p w.st.log ≤ 1) ∧
    (∀ c p, .woke c p ∈ w.st.log → .pollChecked p ∈ w.st.log) ∧
    (∀ p key, w.st.pc p = .pollRemove key → (key, p) ∈ w.st.slab) ∧
    ∀ c p l₁ l₂, w.st.log = l₁ ++ .sendLocked c :: l₂ → .sendEnd c ∈ w.st.log → .pollPending p ∈ l₁ → (∀ d, .woke d p ∉ l₁) →
      .woke c p ∈ l₂ := by
  obtain ⟨hc, hr, hs⟩ := weak_base h
  refine ⟨hs.once, hr.woken, hr.atRemove, fun c p l₁ l₂ hl he hp hn => ?_⟩
  rcases hs.drained c l₁ l₂ hl p hp with ⟨d, h1⟩ | h1 | ⟨-, h1⟩
  · exact absurd h1 (hn d)
  · exact h1
  · have := (hc.sendEnd c he).1
    rw [h1] at this
    simp at this

/-- What has been read is not more than there was to read. -/
theorem weak_waits (h : WReachable w) {i : Nat} (hi : i < w.st.waits.length) :
    ∃ v, w.st.waits[i]? = some v ∧ v ≤ w.st.version := by
  have hnum := numbers h
  obtain ⟨m₁, m₂, hm⟩ := List.append_of_mem (((weak_base h).1.waitMade i).mpr hi)
  obtain ⟨v, h1, h2⟩ := hnum.waits i m₁ m₂ hm
  refine ⟨v, h1, ?_⟩
  rw [hnum.version, hm, adds_append]
  omega

/-- A state of `Verif.Model.Notify` for one of this machine. -/
def Weak.usize (w : Weak) : State := { w.st with version := w.st.version % wrap, waits := w.st.waits.map (· % wrap) }

theorem getElem_mod {l : List Nat} {i x : Nat} (h : (l.map (· % wrap))[i]? = some x) : ∃ v, l[i]? = some v ∧ v % wrap = x := by
  rw [List.getElem?_map] at h
  cases hl : l[i]? with
  | none => rw [hl] at h; simp at h
  | some v => rw [hl] at h; simp at h; exact ⟨v, rfl, h⟩

/-- This machine can do whatever that of `Verif.Model.Notify` does. -/
theorem weak_of_step (h : WReachable w) {st : State} (hs : Step w.usize st) : ∃ w', WStep w w' ∧ w'.usize = st := by
  have hnum := numbers h
  have hc := (weak_base h).1
  have hrd : ∀ p i, (w.st.pc p = .pollLoad i ∨ ∃ k, w.st.pc p = .pollRecheck i k) →
      ∃ v, w.st.waits[i]? = some v ∧ v ≤ w.st.version := by
    intro p i hp
    refine weak_waits h (hc.pollOld p i (hc.pollAt p i ?_)).2
    rcases hp with hp | ⟨k, hp⟩
    · exact .inl hp
    · exact .inr (.inr (.inr ⟨k, hp⟩))
  cases hs with
  | sendBegin => exact ⟨_, .sendBegin w, rfl⟩
  | sendAdd c h => exact ⟨_, .sendAdd w c h, by simp [Weak.usize, State.goto, State.emit]⟩
  | sendLock c h h1 => exact ⟨_, .sendLock w c h h1, rfl⟩
  | sendWake c key p pre post h h1 => exact ⟨_, .sendWake w c key p pre post h h1, rfl⟩
  | sendEnd c h h1 => exact ⟨_, .sendEnd w c h h1, rfl⟩
  | wait => exact ⟨_, .wait w w.st.version (Nat.le_refl _), by simp [Weak.usize, State.emit]⟩
  | pollBegin i h => exact ⟨_, .pollBegin w i (by simpa [Weak.usize] using h), rfl⟩
  | pollLoadReady p i hp h1 =>
    obtain ⟨v, hv, hle⟩ := hrd p i (.inl hp)
    refine ⟨_, .pollLoadReady w p i v w.st.version hp hv hle (Nat.le_refl _) ?_, rfl⟩
    intro he
    simp [Weak.usize, hv, he] at h1
  | pollLoad p i hp h1 =>
    obtain ⟨v, hv, hle⟩ := hrd p i (.inl hp)
    refine ⟨_, .pollLoad w p i v w.st.version hp hv hle (Nat.le_refl _) ?_, rfl⟩
    simpa [Weak.usize, hv] using h1
  | pollLock p i h h1 => exact ⟨_, .pollLock w p i h h1, rfl⟩
  | pollInsert p i key h h1 => exact ⟨_, .pollInsert w p i key h h1, rfl⟩
  | pollRecheckReady p i key hp h1 =>
    obtain ⟨v, hv, hle⟩ := hrd p i (.inr ⟨key, hp⟩)
    refine ⟨_, .pollRecheckReady w p i key v w.st.version hp hv hle hnum.seen.1 (Nat.le_refl _) ?_, rfl⟩
    intro he
    simp [Weak.usize, hv, he] at h1
  | pollRecheck p i key hp h1 =>
    obtain ⟨v, hv, hle⟩ := hrd p i (.inr ⟨key, hp⟩)
    refine ⟨_, .pollRecheck w p i key v w.st.version hp hv hle hnum.seen.1 (Nat.le_refl _) ?_, rfl⟩
    simpa [Weak.usize, hv] using h1
  | pollRemove p key h => exact ⟨_, .pollRemove w p key h, rfl⟩
  | pollUnlock p h => exact ⟨_, .pollUnlock w p h, rfl⟩

/-- C117: this machine has all the runs of that of `Verif.Model.Notify`, and more (`C117_stale`). -/
theorem C117_extends {st : State} (h : Reachable st) : ∃ w, WReachable w ∧ w.usize = st := by
  induction h with
  | init => exact ⟨_, .init, rfl⟩
  | step _ hs ih =>
    obtain ⟨w, hw, rfl⟩ := ih
    obtain ⟨w', h1, h2⟩ := weak_of_step hw hs
    exact ⟨w', .step hw h1, h2⟩

/-- A step of a call under way: not a new call. -/
def WOwnStep (w w' : Weak) : Prop := WStep w w' ∧ w'.st.calls = w.st.calls ∧ w'.st.waits = w.st.waits

/-- C117: no deadlock either. -/
theorem C117_no_deadlock (h : WReachable w) {c : Nat} (hb : w.st.pc c ≠ .absent) (hd : w.st.pc c ≠ .done) :
    ∃ w', WOwnStep w w' := by
  have hc : Calls w.usize := by
    obtain ⟨h1, h2, h3, h4, h5, h6, h7, h8, h9, h10, h11, h12, h13, h14, h15, h16, h17⟩ := (weak_base h).1
    constructor <;> first | assumption | simpa [Weak.usize]
  obtain ⟨st, hs, h1, h2⟩ := own_step hc hb hd
  obtain ⟨w', h3, h4⟩ := weak_of_step h hs
  subst h4
  refine ⟨w', h3, h1, ?_⟩
  cases h3 <;> first | rfl | (exfalso; have := congrArg List.length h2; simp [Weak.usize, State.emit] at this)

/-- C117: and the calls under way return. -/
theorem C117_calls_return (h : WReachable w) : Acc (fun b a => WOwnStep a b) w := by
  generalize hn : left w.st = n
  induction n using Nat.strongRecOn generalizing w with
  | ind n ih =>
    refine ⟨_, fun w' hs => ?_⟩
    obtain ⟨x, y, hs'⟩ := hs.1.sim
    obtain ⟨hc, hr, -⟩ := weak_base h
    have := left_decreases hc.at hr.at ⟨hs', hs.2.1, hs.2.2⟩
    exact ih (left w'.st) (by have : left w'.st < left w.st := this; omega) (.step h hs.1) rfl

/-- The hypotheses of `C117_no_lost_wakeup` can be met, by stale loads: a `Wait` is made, a `send` adds, a `poll` sees nothing of
that twice and goes to sleep; the `send` wakes it and returns. -/
example : ∃ w, WReachable w ∧ w.st.waits[0]? = some 0 ∧
    w.st.log = [.waitMade 0, .sendBegin 0, .sendAdd 0, .pollBegin 1 0, .pollChecked 1, .pollPending 1, .sendLocked 0, .woke 0 1,
      .sendEnd 0] := by
  have r := WReachable.step .init (.wait _ 0 (by simp [Weak.init, init]))
  have r := WReachable.step r (.sendBegin _)
  have r := WReachable.step r (.sendAdd _ 0 (by simp [State.goto, State.emit, Weak.init, init]))
  have r := WReachable.step r (.pollBegin _ 0 (by simp [State.goto, State.emit, Weak.init, init]))
  have r := WReachable.step r (.pollLoad _ 1 0 0 0 (by simp [State.goto, State.emit, Weak.init, init])
    (by simp [State.goto, State.emit, Weak.init, init]) (by simp) (by simp) (by simp))
  have r := WReachable.step r (.pollLock _ 1 0 (by simp [State.goto, State.emit]) (by simp [State.goto, State.emit, Weak.init, init]))
  have r := WReachable.step r (.pollInsert _ 1 0 7 (by simp [State.goto, State.emit])
    (by simp [State.goto, State.emit, Weak.init, init]))
  have r := WReachable.step r (.pollRecheck _ 1 0 7 0 0 (by simp [State.goto, State.emit])
    (by simp [State.goto, State.emit, Weak.init, init]) (by simp) (by simp [Weak.init]) (by simp) (by simp))
  have r := WReachable.step r (.pollUnlock _ 1 (by simp [State.goto, State.emit]))
  have r := WReachable.step r (.sendLock _ 0 (by simp [State.goto, State.emit, Weak.init, init]) (by simp [State.goto, State.emit]))
  have r := WReachable.step r (.sendWake _ 0 7 1 [] [] (by simp [State.goto, State.emit])
    (by simp [State.goto, State.emit, Weak.init, init]))
  have r := WReachable.step r (.sendEnd _ 0 (by simp [State.goto, State.emit]) (by simp [State.goto, State.emit]))
  exact ⟨_, r, by simp [State.goto, State.emit, Weak.init, init], by simp [State.goto, State.emit, Weak.init, init]⟩

end Parcom.Notify
