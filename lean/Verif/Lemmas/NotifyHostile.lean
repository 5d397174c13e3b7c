import Verif.Model.NotifyHostile
import Verif.Lemmas.Notify
import Verif.Lemmas.NotifyOrder
/-!
# Invariants of Notify with hostile wakers
-/
namespace Parcom.Notify

/-- The events of `Verif.Model.Notify`. -/
def calmOf : List HEvent → List Event
  | [] => []
  | .calm e :: l => e :: calmOf l
  | .sendPanic _ :: l => calmOf l
  | .pollPanic _ :: l => calmOf l
  | .callsBack _ _ :: l => calmOf l
  | .wakerEnds _ _ :: l => calmOf l

/-- A panic. -/
def HEvent.isPanic : HEvent → Bool
  | .sendPanic _ | .pollPanic _ => true
  | _ => false

/-- Calls may begin, versions go up, and a `poll` may return `Ready`; nothing else happens. -/
def Event.idle : Event → Bool
  | .sendBegin _ | .sendAdd _ | .waitMade _ | .pollBegin _ _ | .pollReady _ => true
  | _ => false

theorem calmOf_append (l₁ l₂ : List HEvent) : calmOf (l₁ ++ l₂) = calmOf l₁ ++ calmOf l₂ := by
  induction l₁ with
  | nil => rfl
  | cons e l ih => cases e <;> simp [calmOf, ih]
theorem calmOf_map (l : List Event) : calmOf (l.map .calm) = l := by
  induction l with
  | nil => rfl
  | cons e l ih => simp [calmOf, ih]
theorem mem_calmOf {e : Event} {l : List HEvent} : e ∈ calmOf l ↔ .calm e ∈ l := by
  induction l with
  | nil => simp [calmOf]
  | cons x l ih => cases x <;> simp [calmOf, ih]

/-- Where calls are, and who holds the mutex. -/
structure Held (st : Hostile) : Prop where
  fresh : ∀ c, st.base.calls ≤ c → st.base.pc c = .absent
  lock : ∀ c, (st.base.pc c).holds = true ↔ st.base.lock = some c
  free : st.poisoned = true → st.base.lock = none
  inside : ∀ c d, st.inside c = some d → st.base.pc c = .sendDrain ∨ (∃ i, st.base.pc c = .pollInsert i) ∨
    ∃ key, st.base.pc c = .pollRemove key
  begun : ∀ c d, st.inside c = some d → st.base.pc d ≠ .absent
  other : ∀ c d, st.inside c = some d → d ≠ c

/-- Whose waker is busy, that call holds the mutex. -/
theorem Held.holder {st : Hostile} (h : Held st) {c d : Nat} (hc : st.inside c = some d) : st.base.lock = some c :=
  (h.lock c).mp (by rcases h.inside c d hc with h | ⟨i, h⟩ | ⟨k, h⟩ <;> rw [h] <;> rfl)

/-- While somebody holds the mutex, it is not poisoned. -/
theorem Held.sound {st : Hostile} (h : Held st) {c : Nat} (hc : st.base.lock = some c) : st.poisoned = false := by
  cases hp : st.poisoned with
  | false => rfl
  | true => have := h.free hp; rw [hc] at this; cases this

theorem lock_step {st st' : State} (h1 : ∀ c, st.calls ≤ c → st.pc c = .absent)
    (h2 : ∀ c, (st.pc c).holds = true ↔ st.lock = some c) (hs : Step st st') :
    (∀ c, st'.calls ≤ c → st'.pc c = .absent) ∧ ∀ c, (st'.pc c).holds = true ↔ st'.lock = some c := by
  cases hs <;> constructor <;> simp only [State.goto, State.emit] <;> grind [Pc.holds]

theorem begun_step {st st' : State} (hs : Step st st') {c : Nat} (h : st.pc c ≠ .absent) : st'.pc c ≠ .absent := by
  cases hs <;> simp only [State.goto, State.emit] <;> grind

theorem back_pc_holds (b : Back) : b.pc.holds = false := by cases b <;> rfl
theorem back_pc_begun (b : Back) : b.pc ≠ .absent := by cases b <;> simp [Back.pc]

theorem held {st : Hostile} (h : HReachable st) : Held st := by
  induction h with
  | init => constructor <;> simp [Hostile.init, init, Pc.holds]
  | @step st st' hr hs ih =>
    obtain ⟨h1, h2, h3, h4, h5, h6⟩ := ih
    cases hs with
    | calm base new hs hl hp hi =>
      obtain ⟨g1, g2⟩ := lock_step h1 h2 hs
      refine ⟨g1, g2, hp, fun c d hc => ?_, fun c d hc => begun_step hs (h5 c d hc), h6⟩
      have := (hi c (by simp at hc; simp [hc])).1
      show base.pc c = _ ∨ (∃ i, base.pc c = _) ∨ ∃ k, base.pc c = _
      rw [this]; exact h4 c d hc
    | wakePanics c key p pre post hpc hi hsl =>
      constructor <;> simp only [State.goto, State.emit] <;> grind [Pc.holds]
    | clonePanics p i hpc hi =>
      constructor <;> simp only [State.goto, State.emit] <;> grind [Pc.holds]
    | dropPanics p i hpc hi =>
      constructor <;> simp only [State.goto, State.emit] <;> grind [Pc.holds]
    | sendPoisoned c hpc hl hp =>
      constructor <;> simp only [State.goto, State.emit] <;> grind [Pc.holds]
    | pollPoisoned p i hpc hl hp =>
      constructor <;> simp only [State.goto, State.emit] <;> grind [Pc.holds]
    | wakeCalls c key p pre post back hpc hi hsl hv =>
      have := back_pc_holds back
      have := back_pc_begun back
      constructor <;> simp only [State.goto, State.emit] <;> grind [Pc.holds]
    | cloneCalls p i back hpc hi hv =>
      have := back_pc_holds back
      have := back_pc_begun back
      constructor <;> simp only [State.goto, State.emit] <;> grind [Pc.holds]
    | dropCalls p i back hpc hi hv =>
      have := back_pc_holds back
      have := back_pc_begun back
      constructor <;> simp only [State.goto, State.emit] <;> grind [Pc.holds]
    | callsAgain c d back hi hd hv =>
      have := back_pc_holds back
      have := back_pc_begun back
      constructor <;> simp only [State.goto, State.emit] <;> grind [Pc.holds]
    | wakePanicsLate c d hi hd hpc =>
      constructor <;> simp only [State.goto, State.emit] <;> grind [Pc.holds]
    | clonePanicsLate p d i hi hd hpc =>
      constructor <;> simp only [State.goto, State.emit] <;> grind [Pc.holds]
    | dropPanicsLate p d i hi hd hpc =>
      constructor <;> simp only [State.goto, State.emit] <;> grind [Pc.holds]
    | wakeEnds c d hi hd =>
      constructor <;> simp only [State.goto, State.emit] <;> grind [Pc.holds]

/-- Until the first panic this is the machine of `Verif.Model.Notify`; afterwards little happens. -/
structure Trace (st : Hostile) : Prop where
  calm : ∃ st₀ tail, Reachable st₀ ∧ calmOf st.log = st₀.log ++ tail ∧ (st.poisoned = false → st₀ = st.base ∧ tail = []) ∧
    ∀ e ∈ tail, e.idle = true
  panic : ∀ e ∈ st.log, e.isPanic = true → st.poisoned = true
  after : ∀ l₁ l₂ e, st.log = l₁ ++ e :: l₂ → e.isPanic = true → ∀ x ∈ calmOf l₂, x.idle = true

/-- With nobody holding the mutex, and nobody taking it, only idle events happen. -/
theorem step_idle {st st' : State} (h : ∀ c, (st.pc c).holds = false) (hs : Step st st') (hl : st'.lock = none) {new : List Event}
    (hn : st'.log = st.log ++ new) : ∀ e ∈ new, e.idle = true := by
  cases hs <;> simp only [State.goto, State.emit] at hn hl <;> first
    | (have := List.append_cancel_left hn; subst this; simp [Event.idle]; done)
    | (have := List.append_cancel_left (as := st.log) (bs := []) (cs := new) (by simpa using hn); subst this; simp; done)
    | skip
  all_goals grind [Pc.holds]

theorem trace {st : Hostile} (h : HReachable st) : Trace st := by
  induction h with
  | init => exact ⟨⟨init, [], .init, rfl, fun _ => ⟨rfl, rfl⟩, by simp⟩, by simp [Hostile.init], by simp [Hostile.init]⟩
  | @step st st' hr hs ih =>
    have hh := held hr
    obtain ⟨⟨st₀, tail, g1, g2, g3, g4⟩, g5, g6⟩ := ih
    have noHolder : st.poisoned = true → ∀ c, (st.base.pc c).holds = false := by
      intro hp c
      cases hc : (st.base.pc c).holds with
      | false => rfl
      | true => have := (hh.lock c).mp hc; rw [hh.free hp] at this; cases this
    -- what is added after a panic
    have later : ∀ {new : List HEvent}, (st.poisoned = true → ∀ x ∈ calmOf new, x.idle = true) →
        (∀ m₁ m₂ e, new = m₁ ++ e :: m₂ → e.isPanic = true → ∀ x ∈ calmOf m₂, x.idle = true) →
        ∀ l₁ l₂ e, st.log ++ new = l₁ ++ e :: l₂ → e.isPanic = true → ∀ x ∈ calmOf l₂, x.idle = true := by
      intro new hn hm l₁ l₂ e he hpan x hx
      rcases List.append_eq_append_iff.mp he with ⟨m, h1, h2⟩ | ⟨m, h1, h2⟩
      · exact hm m l₂ e h2 hpan x hx
      · cases m with
        | nil => exact hm [] l₂ e (by simpa using h2.symm) hpan x hx
        | cons y m =>
          simp only [List.cons_append, List.cons.injEq] at h2
          obtain ⟨rfl, rfl⟩ := h2
          rw [calmOf_append, List.mem_append] at hx
          rcases hx with hx | hx
          · exact g6 l₁ m e h1 hpan x hx
          · exact hn (g5 e (by rw [h1]; simp) hpan) x hx
    cases hs with
    | calm base new hs hl hp hi =>
      have hidle : st.poisoned = true → ∀ e ∈ new, e.idle = true := fun h => step_idle (noHolder h) hs (hp h) hl
      refine ⟨?_, ?_, later ?_ ?_⟩
      · cases hpo : st.poisoned with
        | false =>
          obtain ⟨rfl, rfl⟩ := g3 hpo
          refine ⟨base, [], .step g1 hs, ?_, fun _ => ⟨rfl, rfl⟩, by simp⟩
          simp [calmOf_append, calmOf_map, g2, hl]
        | true =>
          refine ⟨st₀, tail ++ new, g1, ?_, by simp [hpo], ?_⟩
          · simp [calmOf_append, calmOf_map, g2]
          · intro e he
            rcases List.mem_append.mp he with he | he
            · exact g4 e he
            · exact hidle hpo e he
      · intro e he hpan
        rcases List.mem_append.mp he with he | he
        · exact g5 e he hpan
        · obtain ⟨x, -, rfl⟩ := List.mem_map.mp he; simp [HEvent.isPanic] at hpan
      · intro h; rw [calmOf_map]; exact hidle h
      · intro m₁ m₂ e he hpan
        have : e ∈ new.map HEvent.calm := by rw [he]; simp
        obtain ⟨x, -, rfl⟩ := List.mem_map.mp this
        simp [HEvent.isPanic] at hpan
    | wakePanics c key p pre post hpc hi hsl =>
      have hpo : st.poisoned = false := by
        cases hpo : st.poisoned with
        | false => rfl
        | true => have := noHolder hpo c; rw [hpc] at this; cases this
      obtain ⟨rfl, rfl⟩ := g3 hpo
      refine ⟨⟨_, [], .step g1 (.sendWake _ c key p pre post hpc hsl), ?_, by simp, by simp⟩, fun _ _ _ => rfl, later ?_ ?_⟩
      · simp [calmOf_append, g2, calmOf, State.emit]
      · simp [hpo]
      · intro m₁ m₂ e he hpan x hx
        match m₁, m₂ with
        | [], _ => simp at he; rw [← he.1] at hpan; cases hpan
        | [_], [] => simp [calmOf] at hx
        | [_], _ :: _ => simp at he
        | _ :: _ :: _, _ => simp at he
    | clonePanics p i hpc hi =>
      have hpo : st.poisoned = false := by
        cases hpo : st.poisoned with
        | false => rfl
        | true => have := noHolder hpo p; rw [hpc] at this; cases this
      obtain ⟨rfl, rfl⟩ := g3 hpo
      refine ⟨⟨_, [], g1, ?_, by simp, by simp⟩, fun _ _ _ => rfl, later ?_ ?_⟩
      · simp [calmOf_append, g2, calmOf]
      · simp [hpo]
      · intro m₁ m₂ e he hpan x hx
        match m₁, m₂ with
        | [], [] => simp [calmOf] at hx
        | [], _ :: _ => simp at he
        | _ :: _, _ => simp at he
    | dropPanics p i hpc hi =>
      have hpo : st.poisoned = false := by
        cases hpo : st.poisoned with
        | false => rfl
        | true => have := noHolder hpo p; rw [hpc] at this; cases this
      obtain ⟨rfl, rfl⟩ := g3 hpo
      refine ⟨⟨_, [], g1, ?_, by simp, by simp⟩, fun _ _ _ => rfl, later ?_ ?_⟩
      · simp [calmOf_append, g2, calmOf]
      · simp [hpo]
      · intro m₁ m₂ e he hpan x hx
        match m₁, m₂ with
        | [], [] => simp [calmOf] at hx
        | [], _ :: _ => simp at he
        | _ :: _, _ => simp at he
    | sendPoisoned c hpc hl hpo =>
      refine ⟨⟨st₀, tail, g1, ?_, by simp [hpo], g4⟩, fun _ _ _ => hpo, later ?_ ?_⟩
      · simp [calmOf_append, g2, calmOf]
      · simp [calmOf]
      · intro m₁ m₂ e he hpan x hx
        match m₁, m₂ with
        | [], [] => simp [calmOf] at hx
        | [], _ :: _ => simp at he
        | _ :: _, _ => simp at he
    | pollPoisoned p i hpc hl hpo =>
      refine ⟨⟨st₀, tail, g1, ?_, by simp [hpo], g4⟩, fun _ _ _ => hpo, later ?_ ?_⟩
      · simp [calmOf_append, g2, calmOf]
      · simp [calmOf]
      · intro m₁ m₂ e he hpan x hx
        match m₁, m₂ with
        | [], [] => simp [calmOf] at hx
        | [], _ :: _ => simp at he
        | _ :: _, _ => simp at he
    | wakeCalls c key p pre post back hpc hi hsl hv =>
      have hpo : st.poisoned = false := by
        cases hpo : st.poisoned with
        | false => rfl
        | true => have := noHolder hpo c; rw [hpc] at this; cases this
      obtain ⟨rfl, rfl⟩ := g3 hpo
      have r1 := Reachable.step g1 (.sendWake _ c key p pre post hpc hsl)
      refine ⟨⟨_, [], ?_, ?_, fun _ => ⟨rfl, rfl⟩, by simp⟩, ?_, later (by simp [hpo]) ?_⟩
      · cases back with
        | send => exact .step r1 (.sendBegin _)
        | poll i => exact .step r1 (.pollBegin _ i hv)
      · simp [calmOf_append, g2, calmOf, State.emit, State.goto]
      · intro e he hpan
        simp only [List.mem_append, List.mem_cons, List.not_mem_nil, or_false] at he
        rcases he with he | rfl | rfl | rfl
        · exact g5 e he hpan
        all_goals cases hpan
      · intro m₁ m₂ e he hpan x hx
        match m₁, m₂ with
        | [], _ => simp at he; rw [← he.1] at hpan; cases hpan
        | [_], _ => simp at he; rw [← he.2.1] at hpan; cases hpan
        | [_, _], _ => simp at he; rw [← he.2.2.1] at hpan; cases hpan
        | _ :: _ :: _ :: _, _ => simp at he
    | cloneCalls p i back hpc hi hv =>
      have hpo := hh.sound ((hh.lock p).mp (by rw [hpc]; rfl))
      obtain ⟨rfl, rfl⟩ := g3 hpo
      refine ⟨⟨_, [], ?_, ?_, fun _ => ⟨rfl, rfl⟩, by simp⟩, ?_, later (by simp [hpo]) ?_⟩
      · cases back with
        | send => exact .step g1 (.sendBegin _)
        | poll i => exact .step g1 (.pollBegin _ i hv)
      · simp [calmOf_append, g2, calmOf, State.emit, State.goto]
      · intro e he hpan
        simp only [List.mem_append, List.mem_cons, List.not_mem_nil, or_false] at he
        rcases he with he | rfl | rfl
        · exact g5 e he hpan
        all_goals cases hpan
      · intro m₁ m₂ e he hpan x hx
        match m₁, m₂ with
        | [], _ => simp at he; rw [← he.1] at hpan; cases hpan
        | [_], _ => simp at he; rw [← he.2.1] at hpan; cases hpan
        | _ :: _ :: _, _ => simp at he
    | dropCalls p i back hpc hi hv =>
      have hpo := hh.sound ((hh.lock p).mp (by rw [hpc]; rfl))
      obtain ⟨rfl, rfl⟩ := g3 hpo
      refine ⟨⟨_, [], ?_, ?_, fun _ => ⟨rfl, rfl⟩, by simp⟩, ?_, later (by simp [hpo]) ?_⟩
      · cases back with
        | send => exact .step g1 (.sendBegin _)
        | poll i => exact .step g1 (.pollBegin _ i hv)
      · simp [calmOf_append, g2, calmOf, State.emit, State.goto]
      · intro e he hpan
        simp only [List.mem_append, List.mem_cons, List.not_mem_nil, or_false] at he
        rcases he with he | rfl | rfl
        · exact g5 e he hpan
        all_goals cases hpan
      · intro m₁ m₂ e he hpan x hx
        match m₁, m₂ with
        | [], _ => simp at he; rw [← he.1] at hpan; cases hpan
        | [_], _ => simp at he; rw [← he.2.1] at hpan; cases hpan
        | _ :: _ :: _, _ => simp at he
    | callsAgain c d back hi hd hv =>
      have hpo := hh.sound (hh.holder hi)
      obtain ⟨rfl, rfl⟩ := g3 hpo
      refine ⟨⟨_, [], ?_, ?_, fun _ => ⟨rfl, rfl⟩, by simp⟩, ?_, later (by simp [hpo]) ?_⟩
      · cases back with
        | send => exact .step g1 (.sendBegin _)
        | poll i => exact .step g1 (.pollBegin _ i hv)
      · simp [calmOf_append, g2, calmOf, State.emit, State.goto]
      · intro e he hpan
        simp only [List.mem_append, List.mem_cons, List.not_mem_nil, or_false] at he
        rcases he with he | rfl | rfl
        · exact g5 e he hpan
        all_goals cases hpan
      · intro m₁ m₂ e he hpan x hx
        match m₁, m₂ with
        | [], _ => simp at he; rw [← he.1] at hpan; cases hpan
        | [_], _ => simp at he; rw [← he.2.1] at hpan; cases hpan
        | _ :: _ :: _, _ => simp at he
    | wakePanicsLate c d hi hd hpc =>
      have hpo := hh.sound (hh.holder hi)
      obtain ⟨rfl, rfl⟩ := g3 hpo
      refine ⟨⟨_, [], g1, ?_, by simp, by simp⟩, fun _ _ _ => rfl, later ?_ ?_⟩
      · simp [calmOf_append, g2, calmOf]
      · simp [hpo]
      · intro m₁ m₂ e he hpan x hx
        match m₁, m₂ with
        | [], [] => simp [calmOf] at hx
        | [], _ :: _ => simp at he
        | _ :: _, _ => simp at he
    | clonePanicsLate p d i hi hd hpc =>
      have hpo := hh.sound (hh.holder hi)
      obtain ⟨rfl, rfl⟩ := g3 hpo
      refine ⟨⟨_, [], g1, ?_, by simp, by simp⟩, fun _ _ _ => rfl, later ?_ ?_⟩
      · simp [calmOf_append, g2, calmOf]
      · simp [hpo]
      · intro m₁ m₂ e he hpan x hx
        match m₁, m₂ with
        | [], [] => simp [calmOf] at hx
        | [], _ :: _ => simp at he
        | _ :: _, _ => simp at he
    | dropPanicsLate p d i hi hd hpc =>
      have hpo := hh.sound (hh.holder hi)
      obtain ⟨rfl, rfl⟩ := g3 hpo
      refine ⟨⟨_, [], g1, ?_, by simp, by simp⟩, fun _ _ _ => rfl, later ?_ ?_⟩
      · simp [calmOf_append, g2, calmOf]
      · simp [hpo]
      · intro m₁ m₂ e he hpan x hx
        match m₁, m₂ with
        | [], [] => simp [calmOf] at hx
        | [], _ :: _ => simp at he
        | _ :: _, _ => simp at he
    | wakeEnds c d hi hd =>
      refine ⟨⟨st₀, tail, g1, ?_, g3, g4⟩, ?_, later ?_ ?_⟩
      · simp [calmOf_append, g2, calmOf]
      · intro e he hpan
        simp only [List.mem_append, List.mem_cons, List.not_mem_nil, or_false] at he
        rcases he with he | rfl
        · exact g5 e he hpan
        · cases hpan
      · simp [calmOf]
      · intro m₁ m₂ e he hpan x hx
        match m₁, m₂ with
        | [], [] => simp [calmOf] at hx
        | [], _ :: _ => simp at he
        | _ :: _, _ => simp at he

end Parcom.Notify
