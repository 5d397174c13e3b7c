import Verif.Spec.Keeping
import Verif.Props.Spin
import Verif.Props.NotifyStale
/-!
# C126: at most one waker is kept for the user
-/
namespace Parcom.Notify

theorem checked_begun {st : State} (h : Reachable st) {p : Nat} (hp : .pollChecked p ∈ st.log) : ∃ i, .pollBegin p i ∈ st.log := by
  induction h with
  | init => simp [init] at hp
  | @step st st' hr hs ih =>
    have hc := (calls hr).pollAt
    cases hs with
    | pollRecheck q i key hpc hv =>
      simp only [State.goto, State.emit, List.mem_append, List.mem_singleton, Event.pollChecked.injEq] at hp ⊢
      rcases hp with hp | rfl
      · obtain ⟨j, h⟩ := ih hp
        exact ⟨j, .inl h⟩
      · exact ⟨i, .inl (hc p i (.inr (.inr (.inr ⟨key, hpc⟩))))⟩
    | _ => simp only [State.goto, State.emit] at hp ⊢; grind

end Parcom.Notify

namespace Parcom.Runner
open Parcom
variable {T E : Type} {b : Build} {st st' : State T E}

/-- The waker given to the `k`th poll is, or may get, kept. -/
structure Held (log : List (Event T E)) (f : Fut) (k p : Nat) : Prop where
  begun : .pollBegin f k (some p) ∈ log
  ready : .signal (.pollReady p) ∉ log
  asleep : ∀ c, .signal (.woke c p) ∉ log

/-- The future was dropped later. -/
def DroppedAfter (log : List (Event T E)) (f : Fut) (k p : Nat) : Prop :=
  ∃ l₁ l₂, log = l₁ ++ .pollBegin f k (some p) :: l₂ ∧ .nextDrop ∈ l₂

theorem DroppedAfter.more {log new : List (Event T E)} {f : Fut} {k p : Nat} (h : DroppedAfter log f k p) :
    DroppedAfter (log ++ new) f k p := by
  obtain ⟨l₁, l₂, rfl, h⟩ := h
  exact ⟨l₁, l₂ ++ new, by simp, List.mem_append_left _ h⟩

theorem DroppedAfter.now {log new : List (Event T E)} {f : Fut} {k p : Nat} (h : .pollBegin f k (some p) ∈ log) (hn : .nextDrop ∈ new) :
    DroppedAfter (log ++ new) f k p := by
  obtain ⟨l₁, l₂, rfl⟩ := List.append_of_mem h
  exact ⟨l₁, l₂ ++ new, by simp, List.mem_append_right _ hn⟩

theorem Held.before {log new : List (Event T E)} {f : Fut} {k p : Nat} (h : Held (log ++ new) f k p)
    (hb : .pollBegin f k (some p) ∈ log) : Held log f k p :=
  ⟨hb, fun h1 => h.ready (List.mem_append_left _ h1), fun c h1 => h.asleep c (List.mem_append_left _ h1)⟩

/-- The user waits for that poll. -/
def Listens (st : State T E) (k p : Nat) : Prop :=
  match st.task with
  | .next (some _) => True
  | .advance (some _) _ => True
  | .nextPoll k' _ (.wait p') => k' = k ∧ p' = p
  | .advancePoll k' _ _ (.wait p') => k' = k ∧ p' = p
  | _ => False

/-- That was the last poll. -/
structure Current (st : State T E) (k p : Nat) : Prop where
  last : k + 1 = st.polls
  self : .wokeSelf k ∉ st.log
  waits : Listens st k p

theorem poll_unique (h : Reachable b st) {f f' : Fut} {k : Nat} {o o' : Option Nat} (h1 : .pollBegin f k o ∈ st.log)
    (h2 : .pollBegin f' k o' ∈ st.log) : f = f' ∧ o = o' := by
  induction h with
  | init => simp [init] at h1
  | @step st st' hr hs ih =>
    have hk := (known hr).begun
    cases hs <;> grind

/-- A waker that is kept was given to the last poll, or its future was dropped. -/
theorem held (h : Reachable b st) (hp : Polite st.log) {f : Fut} {k p : Nat} (hh : Held st.log f k p) :
    Current st k p ∨ DroppedAfter st.log f k p := by
  induction h with
  | init => exact absurd hh.begun (by simp [init])
  | @step st st' hr hs ih =>
    have hk := known hr
    have hi := inv hr
    have hist := hist hr
    have hu := under hr
    -- the waker was there before
    have old : ∀ {new}, st'.log = st.log ++ new → .pollBegin f k (some p) ∈ st.log → (Current st k p → Current st' k p ∨ DroppedAfter st'.log f k p) →
        Current st' k p ∨ DroppedAfter st'.log f k p := by
      intro new hl hb hc
      rw [hl] at hp hh
      rcases ih hp.before (hh.before hb) with h1 | h1
      · exact hc h1
      · rw [hl]; exact .inr h1.more
    have gone : ∀ {k' fut pc}, st.task = .nextPoll k' fut pc → (∀ q, pc ≠ .wait q) → ¬ Current st k p := by
      intro k' fut pc ht hne hc
      have := hc.waits
      unfold Listens at this
      rw [ht] at this
      cases pc <;> simp at this hne
    have gone' : ∀ {k' fut r pc}, st.task = .advancePoll k' fut r pc → (∀ q, pc ≠ .wait q) → ¬ Current st k p := by
      intro k' fut r pc ht hne hc
      have := hc.waits
      unfold Listens at this
      rw [ht] at this
      cases pc <;> simp at this hne
    cases hs with
    | loader m sys new hm he hl =>
      exact old rfl (by simpa using hh.begun) fun hc => .inl ⟨hc.last, by simpa using hc.self, hc.waits⟩
    | setDone => exact old rfl (by simpa using hh.begun) fun hc => .inl ⟨hc.last, by simpa using hc.self, hc.waits⟩
    | signal signal new hstep hl =>
      exact old rfl (by simpa using hh.begun) fun hc => .inl ⟨hc.last, by simpa using hc.self, hc.waits⟩
    | segments sys ht he | next ht | advance delta ht =>
      exact old rfl (by simpa using hh.begun) fun hc => absurd hc.waits (by simp [Listens, ht])
    | dropStream sys ht he =>
      exact old (new := []) (by simp) hh.begun fun hc => absurd hc.waits (by simp [Listens, ht])
    | nextDrop fut ht =>
      exact old rfl (by simpa using hh.begun) fun hc => .inr (.now (by simpa using hh.begun) (by simp))
    | nextPoll ht | advancePoll remain ht =>
      exact old rfl (by simpa using hh.begun) fun hc => absurd hc.waits (by simp [Listens, ht])
    | nextPollWait i signal ht hlt hsig | advancePollWait i remain signal ht hlt hsig =>
      by_cases hb : .pollBegin f k (some p) ∈ st.log
      · refine old rfl hb fun hc => ?_
        have hw := hp st.log _ _ _ [.signal (.pollBegin st.signal.calls i)] rfl
        have e : st.polls - 1 = k := by have := hc.last; omega
        rw [e] at hw
        rcases hw with hw | ⟨f', p', c, h1, h2⟩
        · exact absurd hw hc.self
        · have := (poll_unique hr hb h1).2
          injection this with this
          subst this
          exact absurd (List.mem_append_left _ h2) (hh.asleep c)
      · have h1 := hh.begun
        simp [hb] at h1
        obtain ⟨-, rfl, rfl⟩ := h1
        refine .inl ⟨rfl, ?_, by simp [Listens]⟩
        intro h1
        have := hk.woke st.polls (by simpa using h1)
        omega
    | nextWaitReady k' p' fut ht hp' | advanceWaitReady k' p' remain fut ht hp' =>
      refine old (new := []) (by simp) hh.begun fun hc => ?_
      have h1 := hc.waits
      unfold Listens at h1
      rw [ht] at h1
      obtain ⟨rfl, rfl⟩ := h1
      rw [hi.signalLog, mem_signalLog] at hp'
      exact absurd hp' hh.ready
    | nextWaitPending k' p' fut ht hp' =>
      refine old rfl (by simpa using hh.begun) fun hc => ?_
      rw [ht] at hist
      obtain ⟨-, i, rfl, -⟩ := hist
      exact .inl ⟨hc.last, by simpa using hc.self, by simp [Listens]⟩
    | advanceWaitPending k' p' remain fut ht hp' =>
      refine old rfl (by simpa using hh.begun) fun hc => ?_
      rw [ht] at hist
      obtain ⟨-, i, rfl, -⟩ := hist
      exact .inl ⟨hc.last, by simpa using hc.self, by simp [Listens]⟩
    | firstSome k' fut sys seg ht he hl | firstNone k' fut sys ht he hl | makeWait k' fut signal ht hsig | secondSome k' i fut sys seg ht he hl
      | secondNone k' i fut sys ht he hl | isDone k' i fut ht _ | notDone k' i fut ht _ =>
      exact old rfl (by simpa using hh.begun) fun hc => absurd hc (gone ht (by simp))
    | advanceMakeWait k' remain fut signal ht hsig | advanced k' remain n r fut sys ht he hl | advanceReady k' remain r fut ht _
      | advancePending k' remain r fut ht _ _ =>
      exact old rfl (by simpa using hh.begun) fun hc => absurd hc (gone' ht (by simp))
    | replace k' remain fut sys ht he | advancing k' remain fut sys ht he hl =>
      exact old (new := []) (by simp) hh.begun fun hc => absurd hc (gone' ht (by simp))

theorem split_more {α : Type} {log new l₁ l₂ : List α} {e : α} (h : log ++ new = l₁ ++ e :: l₂) :
    (∃ m, log = l₁ ++ e :: m ∧ l₂ = m ++ new) ∨ ∃ m, l₁ = log ++ m ∧ new = m ++ e :: l₂ := by
  rcases List.append_eq_append_iff.mp h with ⟨a, h1, h2⟩ | ⟨a, h1, h2⟩
  · exact .inr ⟨a, h1, h2⟩
  · cases a with
    | nil => exact .inr ⟨[], by simpa using h1.symm, by simpa using h2.symm⟩
    | cons x a =>
      simp at h2
      exact .inl ⟨a, by rw [h1, h2.1], h2.2⟩

theorem DroppedAfter.of_more {log new : List (Event T E)} {f : Fut} {k p : Nat} (h : DroppedAfter (log ++ new) f k p)
    (h1 : .nextDrop ∉ new) (h2 : .pollBegin f k (some p) ∉ new) : DroppedAfter log f k p := by
  obtain ⟨l₁, l₂, he, hd⟩ := h
  rcases split_more he with ⟨m, h3, h4⟩ | ⟨m, -, h3⟩
  · rw [h4] at hd
    exact ⟨l₁, m, h3, (List.mem_append.mp hd).resolve_right h1⟩
  · exact absurd (by rw [h3]; simp) h2

/-- What a step adds to the log, if it begins a poll. -/
theorem step_poll (h : Reachable b st) (hs : Step b st st') : ∃ new, st'.log = st.log ++ new ∧ ((∀ f k o, .pollBegin f k o ∉ new) ∨
    ∃ f o rest, new = .pollBegin f st.polls o :: rest ∧ st'.polls = st.polls + 1 ∧ (∀ f k o, .pollBegin f k o ∉ rest) ∧ .nextDrop ∉ rest ∧
      ∀ p, o = some p → ∃ i, .waitMade i ∈ st.signal.log ∧ .signal (.pollBegin p i) ∈ rest) := by
  have hw := (Notify.calls (inv h).signal).waitMade
  cases hs with
  | nextPoll ht | advancePoll remain ht => exact ⟨_, rfl, .inr ⟨_, none, [], rfl, rfl, by simp, by simp, by simp⟩⟩
  | nextPollWait i signal ht hlt hsig | advancePollWait i remain signal ht hlt hsig =>
    refine ⟨_, rfl, .inr ⟨_, some _, _, rfl, rfl, by simp, by simp, ?_⟩⟩
    rintro p hp
    injection hp with hp
    subst hp
    exact ⟨i, (hw i).mpr hlt, by simp⟩
  | loader m sys new hm he hl => exact ⟨_, rfl, .inl (by simp)⟩
  | signal signal new hstep hl => exact ⟨_, rfl, .inl (by simp)⟩
  | dropStream | nextWaitReady | advanceWaitReady | replace | advancing => exact ⟨[], by simp, .inl (by simp)⟩
  | _ => exact ⟨_, rfl, .inl (by simp)⟩

/-- Polls are numbered as they begin. -/
theorem poll_order (h : Reachable b st) {l₁ l₂ : List (Event T E)} {f f' : Fut} {k k' : Nat} {o o' : Option Nat}
    (hl : st.log = l₁ ++ .pollBegin f k o :: l₂) (hm : .pollBegin f' k' o' ∈ l₂) : k < k' := by
  induction h generalizing l₁ l₂ with
  | init => simp [init] at hl
  | @step st st' hr hs ih =>
    obtain ⟨new, hn, hnew⟩ := step_poll hr hs
    rw [hn] at hl
    rcases split_more hl with ⟨m, h1, h2⟩ | ⟨m, h1, h2⟩
    · rw [h2] at hm
      rcases List.mem_append.mp hm with hm | hm
      · exact ih h1 hm
      · rcases hnew with h3 | ⟨f₂, o₂, rest, h3, -, h4, -⟩
        · exact absurd hm (h3 _ _ _)
        · rw [h3] at hm
          simp [h4] at hm
          rw [hm.2.1]
          exact (known hr).begun f k o (by rw [h1]; simp)
    · rcases hnew with h3 | ⟨f₂, o₂, rest, h3, -, h4, -⟩
      · exact absurd (by rw [h2]; simp) (h3 f k o)
      · rw [h3] at h2
        cases m with
        | nil => simp at h2; rw [← h2.2] at hm; exact absurd hm (h4 _ _ _)
        | cons x m => simp at h2; exact absurd (by rw [h2.2]; simp) (h4 f k o)

/-- Before the next poll begins, the future of a waker that is kept was dropped. -/
theorem between (h : Reachable b st) (hp : Polite st.log) {l₁ l₂ : List (Event T E)} {f f' : Fut} {k k' p : Nat} {o : Option Nat}
    (hl : st.log = l₁ ++ .pollBegin f' k' o :: l₂) (hb : .pollBegin f k (some p) ∈ l₁) (hh : Held st.log f k p) : DroppedAfter l₁ f k p := by
  induction h generalizing l₁ l₂ with
  | init => simp [init] at hl
  | @step st st' hr hs ih =>
    have hr' := hr.step hs
    obtain ⟨new, hn, hnew⟩ := step_poll hr hs
    have hp' := hp
    have hh' := hh
    rw [hn] at hl hp hh
    rcases split_more hl with ⟨m, h1, h2⟩ | ⟨m, h1, h2⟩
    · exact ih hp.before h1 hb (hh.before (by rw [h1]; simp [hb]))
    · rcases hnew with h3 | ⟨f₂, o₂, rest, h3, h5, h4, h6, -⟩
      · exact absurd (by rw [h2]; simp) (h3 f' k' o)
      · rw [h3] at h2
        cases m with
        | cons x m => simp at h2; exact absurd (by rw [h2.2]; simp) (h4 f' k' o)
        | nil =>
          rw [List.append_nil] at h1
          subst h1
          have hlt := (known hr).begun f k (some p) hb
          rcases held hr' hp' hh' with h7 | h7
          · have := h7.last
            omega
          · rw [hn, h3] at h7
            refine h7.of_more (by simp [h6]) ?_
            simp [h4]
            omega

theorem Keeps.held (h : Reachable b st) {k : Nat} (hk : Keeps st.log k) : ∃ f p, Held st.log f k p := by
  obtain ⟨f, p, h1, h2, h3⟩ := hk
  refine ⟨f, p, h1, fun h4 => ?_, h3⟩
  rw [← mem_signalLog, ← (inv h).signalLog] at h2 h4
  exact Notify.ready_unchecked (inv h).signal p h4 ((Notify.calls (inv h).signal).pending p h2)

/-- C126: of any two wakers that are kept, the future of the first was dropped before the second was given. -/
theorem C126_between (h : Reachable b st) (hp : Polite st.log) {k k' : Nat} (hk : Keeps st.log k) (hk' : Keeps st.log k') (hlt : k < k') :
    ∃ l₁ f o l₂ f' o' l₃, st.log = l₁ ++ .pollBegin f k o :: l₂ ++ .pollBegin f' k' o' :: l₃ ∧ .nextDrop ∈ l₂ := by
  obtain ⟨f, p, hh⟩ := hk.held h
  obtain ⟨f', p', hb', -⟩ := hk'
  obtain ⟨l, l₃, hl⟩ := List.append_of_mem hb'
  have hb : .pollBegin f k (some p) ∈ l := by
    have := hh.begun
    rw [hl] at this
    rcases List.mem_append.mp this with h1 | h1
    · exact h1
    · rcases List.mem_cons.mp h1 with h1 | h1
      · simp at h1; omega
      · have := poll_order h hl h1
        omega
  obtain ⟨l₁, l₂, h1, h2⟩ := between h hp hl hb hh
  exact ⟨l₁, f, some p, l₂, f', some p', l₃, by rw [hl, h1], h2⟩

theorem dropsOf_append (l₁ l₂ : List (Event T E)) : dropsOf (l₁ ++ l₂) = dropsOf l₁ + dropsOf l₂ := List.countP_append

theorem dropsOf_pos {log : List (Event T E)} (h : .nextDrop ∈ log) : 0 < dropsOf log :=
  List.countP_pos_iff.mpr ⟨_, h, rfl⟩

/-- There is a drop for every waker before the last. -/
theorem drops_before (h : Reachable b st) (hp : Polite st.log) {pre : List (Event T E)} (hpre : pre <+: st.log) :
    ∀ (k : Nat) (ks : List Nat), (k :: ks).Pairwise (· > ·) → (∀ j ∈ k :: ks, Keeps st.log j ∧ ∀ f o, .pollBegin f j o ∉ pre) →
      ∀ l₁ f o l₂, st.log = l₁ ++ .pollBegin f k o :: l₂ → dropsOf pre + ks.length ≤ dropsOf l₁
  | k, [], _, hks, l₁, f, o, l₂, hl => by
    have hpref : pre <+: l₁ := by
      obtain ⟨suf, hsuf⟩ := hpre
      rcases split_more (hsuf.trans hl) with ⟨m, h1, -⟩ | ⟨m, h1, -⟩
      · exact absurd (by rw [h1]; simp) ((hks k (by simp)).2 f o)
      · exact ⟨m, h1.symm⟩
    obtain ⟨m, rfl⟩ := hpref
    rw [dropsOf_append]
    simp
  | k, j :: ks, hsort, hks, l₁, f, o, l₂, hl => by
    have hlt : j < k := by simp at hsort; exact hsort.1.1
    obtain ⟨m₁, f₁, o₁, m₂, f₂, o₂, m₃, h1, h2⟩ := C126_between h hp (hks j (by simp)).1 (hks k (by simp)).1 hlt
    have ih := drops_before h hp hpre j ks hsort.of_cons (fun i hi => hks i (List.mem_cons_of_mem _ hi)) m₁ f₁ o₁
      (m₂ ++ .pollBegin f₂ k o₂ :: m₃) (by rw [h1]; simp)
    have hl₁ : l₁ = m₁ ++ .pollBegin f₁ j o₁ :: m₂ := by
      have h3 := h1.symm.trans hl
      rcases split_more (new := .pollBegin f₂ k o₂ :: m₃) h3 with ⟨m, h4, -⟩ | ⟨m, h4, h5⟩
      · have := poll_order h (l₁ := l₁) (f := f) (k := k) (o := o) (l₂ := m ++ .pollBegin f₂ k o₂ :: m₃) (by rw [h1, h4]; simp) (f' := f₂) (k' := k) (o' := o₂) (by simp)
        omega
      · cases m with
        | nil => simpa using h4
        | cons x m =>
          simp at h5
          have := poll_order h (l₁ := m₁ ++ .pollBegin f₁ j o₁ :: m₂) (l₂ := m₃) h1 (f' := f) (k' := k) (o' := o) (by rw [h5.2]; simp)
          omega
    rw [hl₁, dropsOf_append, List.length_cons]
    have := dropsOf_pos h2
    have e : dropsOf (Event.pollBegin f₁ j o₁ :: m₂) = dropsOf m₂ := by simp [dropsOf]
    omega

/-- C126: apart from one, every waker that is kept costs a `Next` dropped after the given moment. -/
theorem count_kept (h : Reachable b st) (hp : Polite st.log) {pre suf : List (Event T E)} (hl : st.log = pre ++ suf) {ks : List Nat}
    (hn : ks.Nodup) (hk : ∀ k ∈ ks, Keeps st.log k ∧ ∀ f o, .pollBegin f k o ∉ pre) : ks.length ≤ 1 + dropsOf suf := by
  have hperm := List.mergeSort_perm ks (fun a b => decide (b ≤ a))
  have hsort := List.pairwise_mergeSort (le := fun a b : Nat => decide (b ≤ a)) (by simp; omega) (by simp; omega) ks
  have hsort : (ks.mergeSort fun a b => decide (b ≤ a)).Pairwise (· > ·) := by
    have hn' := hperm.nodup_iff.mpr hn
    refine (hsort.and hn').imp ?_
    simp
    omega
  rw [← hperm.length_eq]
  have hk : ∀ k ∈ ks.mergeSort (fun a b => decide (b ≤ a)), Keeps st.log k ∧ ∀ f o, .pollBegin f k o ∉ pre :=
    fun k h => hk k (hperm.mem_iff.mp h)
  generalize ks.mergeSort (fun a b => decide (b ≤ a)) = ks at *
  cases ks with
  | nil => simp
  | cons k ks =>
    obtain ⟨f, p, hb, -⟩ := (hk k (by simp)).1
    obtain ⟨l₁, l₂, he⟩ := List.append_of_mem hb
    have := drops_before h hp ⟨suf, hl.symm⟩ k ks hsort hk l₁ f (some p) l₂ he
    have e := congrArg dropsOf (hl.symm.trans he)
    simp only [dropsOf_append] at e
    simp only [List.length_cons]
    omega

/-- C126, if no `Next` is dropped while it waits: at most one. What is missing: one for each that is. -/
theorem C126_partial (h : Reachable b st) (hp : Polite st.log) {ks : List Nat} (hn : ks.Nodup) (hk : ∀ k ∈ ks, Keeps st.log k) :
    ks.length ≤ 1 + dropsOf st.log :=
  count_kept (pre := []) h hp rfl hn fun k hm => ⟨hk k hm, by simp⟩

/-- A `Wait` was made before it was polled. -/
theorem wait_before (h : Reachable b st) {l₁ l₂ : List (Event T E)} {f : Fut} {k p : Nat} (hl : st.log = l₁ ++ .pollBegin f k (some p) :: l₂) :
    ∃ i, .signal (.waitMade i) ∈ l₁ ∧ .signal (.pollBegin p i) ∈ l₂ := by
  induction h generalizing l₁ l₂ with
  | init => simp [init] at hl
  | @step st st' hr hs ih =>
    obtain ⟨new, hn, hnew⟩ := step_poll hr hs
    rw [hn] at hl
    rcases split_more hl with ⟨m, h1, h2⟩ | ⟨m, h1, h2⟩
    · obtain ⟨i, h3, h4⟩ := ih h1
      exact ⟨i, h3, by rw [h2]; simp [h4]⟩
    · rcases hnew with h3 | ⟨f₂, o₂, rest, h3, -, h4, -, h5⟩
      · exact absurd (by rw [h2]; simp) (h3 f k (some p))
      · rw [h3] at h2
        cases m with
        | nil =>
          simp at h2
          obtain ⟨i, h6, h7⟩ := h5 p h2.1.2.2
          rw [(inv hr).signalLog, mem_signalLog] at h6
          exact ⟨i, by rw [h1]; simp [h6], by rw [← h2.2]; exact h7⟩
        | cons x m => simp at h2; exact absurd (by rw [h2.2]; simp) (h4 f k (some p))

/-- C126: a `send` that has returned leaves nothing behind: only `Next`s dropped after it began count. -/
theorem C126_since (h : Reachable b st) (hp : Polite st.log) {pre suf : List (Event T E)} {s : Nat}
    (hl : st.log = pre ++ .signal (.sendBegin s) :: suf) (he : .signal (.sendEnd s) ∈ suf)
    (hfew : Notify.adds (signalLog st.log) < Notify.wrap) {ks : List Nat} (hn : ks.Nodup) (hk : ∀ k ∈ ks, Keeps st.log k) :
    ks.length ≤ 1 + dropsOf suf := by
  have e : dropsOf (.signal (.sendBegin s) :: suf) = dropsOf suf := by simp [dropsOf]
  rw [← e]
  refine count_kept h hp hl hn fun k hm => ⟨hk k hm, fun f o hb => ?_⟩
  have hi := inv h
  obtain ⟨f', p, h1, h2, h3⟩ := hk k hm
  obtain ⟨-, rfl⟩ := poll_unique h (f := f) (o := o) (by rw [hl]; simp [hb]) h1
  obtain ⟨a, c, hac⟩ := List.append_of_mem hb
  obtain ⟨i, h4, h5⟩ := wait_before h (l₁ := a) (f := f) (k := k) (p := p) (l₂ := c ++ .signal (.sendBegin s) :: suf) (by rw [hl, hac]; simp)
  obtain ⟨x, y, hxy⟩ := List.append_of_mem (mem_signalLog.mpr h4)
  have hsplit : st.signal.log = x ++ .waitMade i :: (y ++ signalLog (.pollBegin f k (some p) :: c ++ .signal (.sendBegin s) :: suf)) := by
    rw [hi.signalLog, hl, hac, List.append_assoc, signalLog_append, hxy]; simp
  have hsig : ∀ {e : Notify.Event}, .signal e ∈ st.log → e ∈ st.signal.log := fun hm => by rw [hi.signalLog]; exact mem_signalLog.mpr hm
  have hfew' : Notify.adds (y ++ signalLog (.pollBegin f k (some p) :: c ++ .signal (.sendBegin s) :: suf)) < Notify.wrap := by
    rw [← hi.signalLog, hsplit, Notify.adds_append, Notify.adds_cons] at hfew
    omega
  obtain ⟨d, hd⟩ := Notify.C47_no_lost_wakeup hi.signal hsplit (p := p) (s := s) (hsig (by rw [hl, hac]; simp at h5 ⊢; grind)) (hsig h2)
    (List.mem_append_right _ (mem_signalLog.mpr (by simp))) (hsig (by rw [hl]; simp [he])) hfew'
  exact h3 d (mem_signalLog.mp (by rw [← hi.signalLog]; exact hd))

/-- With the mutex free and nobody else polling, the wakers in the list are those that are kept. -/
theorem slab_kept (h : Reachable b st) (hlock : st.signal.lock = none)
    (hown : ∀ p i, .signal (.pollBegin p i) ∈ st.log → ∃ f k, .pollBegin f k (some p) ∈ st.log) :
    ∃ ks : List Nat, ks.Nodup ∧ ks.length = st.signal.slab.length ∧ ∀ k ∈ ks, Keeps st.log k := by
  have hi := inv h
  obtain ⟨hn, hmem⟩ := Notify.C86_exact hi.signal hlock
  have key : ∀ ps : List Nat, ps.Nodup → (∀ p ∈ ps, .pollPending p ∈ st.signal.log ∧ ∀ c, .woke c p ∉ st.signal.log) →
      ∃ ks : List Nat, ks.Nodup ∧ ks.length = ps.length ∧ ∀ k ∈ ks, Keeps st.log k ∧ ∃ f p, p ∈ ps ∧ .pollBegin f k (some p) ∈ st.log := by
    intro ps
    induction ps with
    | nil => exact fun _ _ => ⟨[], by simp⟩
    | cons p ps ih =>
      intro h1 h2
      simp only [List.nodup_cons] at h1
      obtain ⟨ks, e1, e2, e3⟩ := ih h1.2 fun q hq => h2 q (List.mem_cons_of_mem _ hq)
      obtain ⟨h3, h4⟩ := h2 p (by simp)
      obtain ⟨i, h5⟩ := Notify.checked_begun hi.signal ((Notify.calls hi.signal).pending p h3)
      rw [hi.signalLog, mem_signalLog] at h3 h5
      obtain ⟨f, k, h6⟩ := hown p i h5
      refine ⟨k :: ks, ?_, by simp [e2], ?_⟩
      · rw [List.nodup_cons]
        refine ⟨fun hk => ?_, e1⟩
        obtain ⟨-, f', p', h7, h8⟩ := e3 k hk
        have := (poll_unique h h6 h8).2
        injection this with this
        exact h1.1 (this ▸ h7)
      · intro j hj
        rcases List.mem_cons.mp hj with rfl | hj
        · refine ⟨⟨f, p, h6, h3, fun c hc => h4 c ?_⟩, f, p, by simp, h6⟩
          rw [hi.signalLog, mem_signalLog]
          exact hc
        · obtain ⟨h7, f', p', h8, h9⟩ := e3 j hj
          exact ⟨h7, f', p', List.mem_cons_of_mem _ h8, h9⟩
  obtain ⟨ks, h1, h2, h3⟩ := key _ hn fun p hp => (hmem p).mp hp
  exact ⟨ks, h1, by simpa using h2, fun k hk => (h3 k hk).1⟩

/-- C126: so the list is that short. -/
theorem C126_list (h : Reachable b st) (hp : Polite st.log) (hlock : st.signal.lock = none)
    (hown : ∀ p i, .signal (.pollBegin p i) ∈ st.log → ∃ f k, .pollBegin f k (some p) ∈ st.log) :
    st.signal.slab.length ≤ 1 + dropsOf st.log := by
  obtain ⟨ks, h1, h2, h3⟩ := slab_kept h hlock hown
  rw [← h2]
  exact C126_partial h hp h1 h3

/-! ## Dropping `Next`s -/

/-- What happens if a `Next` is polled until it waits, and dropped. -/
def roundLog (polls waits calls : Nat) : List (Event T E) := [.nextCall, .pollBegin .next polls none, .sys .exhausted, .signal (.waitMade waits),
  .sys .exhausted, .wokeSelf polls, .pollPending polls, .pollBegin .next (polls + 1) (some calls), .signal (.pollBegin calls waits),
  .signal (.pollChecked calls), .signal (.pollPending calls), .pollPending (polls + 1), .nextDrop]

/-- Nothing was ever loaded or signalled. -/
structure Waiting (st : State T E) : Prop where
  cell : st.sys.cells.get 0 = none
  reader : st.sys.reader = .iterating ⟨0, 0⟩
  lock : st.signal.lock = none
  keys : ∀ e ∈ st.signal.slab, e.1 < st.signal.calls
  done : st.doneFlag = false
  task : st.task = .stream

theorem drop_round (h : Reachable b st) (hw : Waiting st) : ∃ st', Reachable b st' ∧ Waiting st' ∧
    st'.log = st.log ++ roundLog st.polls st.signal.waits.length st.signal.calls ∧ st'.signal.slab.length = st.signal.slab.length + 1 ∧
    st'.polls = st.polls + 2 := by
  obtain ⟨⟨cells, loader, head, reader, slog⟩, ⟨version, lock, slab, waits, pc, calls, nlog⟩, doneFlag, task, polls, log⟩ := st
  obtain ⟨hcell, hreader, hlock, hkeys, hdone, htask⟩ := hw
  simp only at hcell hreader hlock hkeys hdone htask
  subst hreader hlock hdone htask
  have hkeys' : calls ∉ slab.map Prod.fst := by
    intro h
    obtain ⟨e, h1, h2⟩ := List.mem_map.mp h
    have := hkeys e h1
    omega
  have hnext : ∀ s, Loading.move b (⟨cells, loader, head, .iterating ⟨0, 0⟩, s⟩ : Loading T E) .next =
      Run.ret ⟨cells, loader, head, .iterating ⟨0, 0⟩, s ++ [.exhausted]⟩ := by
    intro s
    simp only [Loading.move, iterNext, hcell]
    rfl
  have h := h.step (.next _ rfl)
  have h := h.step (.nextPoll _ rfl)
  have h := h.step (.firstNone _ polls none _ rfl (hnext _) rfl)
  have h := h.step (.makeWait _ polls none _ rfl rfl)
  have h := h.step (.secondNone _ polls waits.length none _ rfl (hnext _) rfl)
  have h := h.step (.notDone _ polls waits.length none rfl rfl)
  have h := h.step (.nextPollWait _ waits.length _ rfl (by simp [Notify.State.emit]) rfl)
  have hw : (waits ++ [version])[waits.length]? = some version := by simp
  have h := h.step (.signal _ _ [] (.pollLoad _ calls waits.length (by simp [Notify.State.emit, Notify.State.goto]) hw) (by simp [Notify.State.goto]))
  have h := h.step (.signal _ _ [] (.pollLock _ calls waits.length (by simp [Notify.State.emit, Notify.State.goto]) rfl) (by simp [Notify.State.goto]))
  have h := h.step (.signal _ _ [] (.pollInsert _ calls waits.length calls (by simp [Notify.State.emit, Notify.State.goto]) hkeys') (by simp [Notify.State.goto]))
  have h := h.step (.signal _ _ [.pollChecked calls] (.pollRecheck _ calls waits.length calls (by simp [Notify.State.emit, Notify.State.goto]) hw) rfl)
  have h := h.step (.signal _ _ [.pollPending calls] (.pollUnlock _ calls (by simp [Notify.State.emit, Notify.State.goto])) rfl)
  have h := h.step (.nextWaitPending _ (polls + 1) calls (some waits.length) rfl (by simp [Notify.State.emit, Notify.State.goto]))
  have h := h.step (.nextDrop _ (some waits.length) rfl)
  refine ⟨_, h, ⟨hcell, rfl, rfl, ?_, rfl, rfl⟩, ?_, ?_, rfl⟩
  · simp only [Notify.State.emit, Notify.State.goto]
    intro e he
    rcases List.mem_append.mp he with he | he
    · have := hkeys e he
      omega
    · simp at he
      rw [he]
      simp
  · simp [roundLog, Notify.State.emit]
  · simp [Notify.State.emit, Notify.State.goto]

/-- C126: there is no bound: whoever drops `n` `Next`s that wait has `n` wakers kept. -/
theorem C126_unbounded (n : Nat) : ∃ st : State T E, Reachable b st ∧ Polite st.log ∧ st.signal.lock = none ∧ st.signal.slab.length = n ∧
    dropsOf st.log = n ∧ (∀ c, .signal (.sendBegin c) ∉ st.log) ∧
    ∃ ks : List Nat, ks.Nodup ∧ ks.length = n ∧ ∀ k ∈ ks, Keeps st.log k := by
  have main : ∃ st : State T E, Reachable b st ∧ Polite st.log ∧ Waiting st ∧ st.signal.slab.length = n ∧ dropsOf st.log = n ∧
      (∀ c, .signal (.sendBegin c) ∉ st.log) ∧
      ∀ p i, .signal (.pollBegin p i) ∈ st.log → ∃ f k, .pollBegin f k (some p) ∈ st.log := by
    induction n with
    | zero =>
      have h := Reachable.init (T := T) (E := E) (b := b) 0
      have h := h.step (.segments _ _ rfl rfl)
      refine ⟨_, h, ?_, ⟨rfl, rfl, rfl, ?_, rfl, rfl⟩, rfl, rfl, ?_, ?_⟩
      · exact Polite.more (log := []) (fun l₁ f k p l₂ h => by simp at h) (by simp)
      all_goals simp [init, Notify.init]
    | succ n ih =>
      obtain ⟨st, h1, h2, h3, h4, h5, h6, h7⟩ := ih
      obtain ⟨st', e1, e2, e3, e4, -⟩ := drop_round h1 h3
      refine ⟨st', e1, ?_, e2, by omega, ?_, ?_, ?_⟩
      · rw [e3]
        have h := h2.more (new := [.nextCall, .pollBegin .next st.polls none, .sys .exhausted, .signal (.waitMade st.signal.waits.length),
          .sys .exhausted, .wokeSelf st.polls, .pollPending st.polls]) (by simp)
        have h := h.snoc (e := .pollBegin .next (st.polls + 1) (some st.signal.calls)) fun f k p he => by
          simp at he; rw [← he.2.1]; exact .inl (by simp)
        have h := h.more (new := [.signal (.pollBegin st.signal.calls st.signal.waits.length),
          .signal (.pollChecked st.signal.calls), .signal (.pollPending st.signal.calls), .pollPending (st.polls + 1), .nextDrop]) (by simp)
        simpa [roundLog] using h
      · rw [e3, dropsOf_append, h5]; rfl
      · intro c; rw [e3]; simp [h6, roundLog]
      · intro p i hm
        rw [e3] at hm
        rcases List.mem_append.mp hm with hm | hm
        · obtain ⟨f, k, h⟩ := h7 p i hm
          exact ⟨f, k, by rw [e3]; simp [h]⟩
        · simp [roundLog] at hm
          exact ⟨.next, st.polls + 1, by rw [e3, hm.1]; simp [roundLog]⟩
  obtain ⟨st, h1, h2, h3, h4, h5, h6, h7⟩ := main
  obtain ⟨ks, h8, h9, h10⟩ := slab_kept h1 h3.lock h7
  exact ⟨st, h1, h2, h3.lock, h4, h5, h6, ks, h8, by omega, h10⟩

/-- C126: for a user who polls only after being woken, at most one waker is kept. -/
def C126Statement : Prop := ∀ (b : Build) (st : State Nat Nat), Reachable b st → Polite st.log →
  ∀ k k', Keeps st.log k → Keeps st.log k' → k = k'

/-- C126 does not hold: a `Next` that is dropped while it waits leaves its waker behind. -/
theorem C126_false : ¬ C126Statement := by
  intro h
  obtain ⟨st, h1, h2, -, -, -, -, ks, h3, h4, h5⟩ := C126_unbounded (T := Nat) (E := Nat) (b := .checked) 2
  match ks, h4 with
  | [k, k'], _ =>
    simp at h3
    exact h3 (h _ st h1 h2 k k' (h5 k (by simp)) (h5 k' (by simp)))

/-- Nothing arrives, but `send` is called once, and the user goes on waiting. -/
theorem idle_resend : ∃ st : State Nat Nat, Reachable .checked st ∧ st.log = [.sys .iterates, .nextCall, .pollBegin .next 0 none, .sys .exhausted, .signal (.waitMade 0), .sys .exhausted, .wokeSelf 0,
    .pollPending 0, .pollBegin .next 1 (some 0), .signal (.pollBegin 0 0), .signal (.pollChecked 0), .signal (.pollPending 0), .pollPending 1] ++ .signal (.sendBegin 1) ::
    [.signal (.sendAdd 1), .signal (.sendLocked 1), .signal (.woke 1 0), .signal (.sendEnd 1), .pollBegin .next 2 (some 2),
    .signal (.pollBegin 2 0), .signal (.pollReady 2), .sys .exhausted, .signal (.waitMade 1), .sys .exhausted, .wokeSelf 2, .pollPending 2,
    .pollBegin .next 3 (some 3), .signal (.pollBegin 3 1), .signal (.pollChecked 3), .signal (.pollPending 3)] := by
  have h := Reachable.init (T := Nat) (E := Nat) (b := .checked) 0
  have h := h.step (.segments _ _ rfl rfl)
  have h := h.step (.next _ rfl)
  have h := h.step (.nextPoll _ rfl)
  have h := h.step (.firstNone _ 0 none _ rfl rfl rfl)
  have h := h.step (.makeWait _ 0 none _ rfl rfl)
  have h := h.step (.secondNone _ 0 0 none _ rfl rfl rfl)
  have h := h.step (.notDone _ 0 0 none rfl rfl)
  have h := h.step (.nextPollWait _ 0 _ rfl (by decide) rfl)
  have h := h.step (.signal _ _ [] (.pollLoad _ 0 0 rfl rfl) rfl)
  have h := h.step (.signal _ _ [] (.pollLock _ 0 0 rfl rfl) rfl)
  have h := h.step (.signal _ _ [] (.pollInsert _ 0 0 0 rfl (by decide)) rfl)
  have h := h.step (.signal _ _ [.pollChecked 0] (.pollRecheck _ 0 0 0 rfl rfl) rfl)
  have h := h.step (.signal _ _ [.pollPending 0] (.pollUnlock _ 0 rfl) rfl)
  have h := h.step (.nextWaitPending _ 1 0 (some 0) rfl (by decide))
  have h := h.step (.signal _ _ [.sendBegin 1] (.sendBegin _) rfl)
  have h := h.step (.signal _ _ [.sendAdd 1] (.sendAdd _ 1 rfl) rfl)
  have h := h.step (.signal _ _ [.sendLocked 1] (.sendLock _ 1 rfl rfl) rfl)
  have h := h.step (.signal _ _ [.woke 1 0] (.sendWake _ 1 0 0 [] [] rfl rfl) rfl)
  have h := h.step (.signal _ _ [.sendEnd 1] (.sendEnd _ 1 rfl rfl) rfl)
  have h := h.step (.nextPollWait _ 0 _ rfl (by decide) rfl)
  have h := h.step (.signal _ _ [.pollReady 2] (.pollLoadReady _ 2 0 rfl (by decide)) rfl)
  have h := h.step (.nextWaitReady _ 2 2 (some 0) rfl (by decide))
  have h := h.step (.firstNone _ 2 (some 0) _ rfl rfl rfl)
  have h := h.step (.makeWait _ 2 (some 0) _ rfl rfl)
  have h := h.step (.secondNone _ 2 1 (some 0) _ rfl rfl rfl)
  have h := h.step (.notDone _ 2 1 (some 0) rfl rfl)
  have h := h.step (.nextPollWait _ 1 _ rfl (by decide) rfl)
  have h := h.step (.signal _ _ [] (.pollLoad _ 3 1 rfl rfl) rfl)
  have h := h.step (.signal _ _ [] (.pollLock _ 3 1 rfl rfl) rfl)
  have h := h.step (.signal _ _ [] (.pollInsert _ 3 1 0 rfl (by decide)) rfl)
  have h := h.step (.signal _ _ [.pollChecked 3] (.pollRecheck _ 3 1 0 rfl rfl) rfl)
  have h := h.step (.signal _ _ [.pollPending 3] (.pollUnlock _ 3 rfl) rfl)
  exact ⟨_, h, rfl⟩

/-- The hypotheses of `C126_since` are met, with a waker that is kept. -/
example : ∃ (st : State Nat Nat) (pre suf : List (Event Nat Nat)), Reachable .checked st ∧ Polite st.log ∧
    st.log = pre ++ .signal (.sendBegin 1) :: suf ∧ .signal (.sendEnd 1) ∈ suf ∧ Notify.adds (signalLog st.log) < Notify.wrap ∧ Keeps st.log 3 := by
  obtain ⟨st, h, hl⟩ := idle_resend
  refine ⟨st, _, _, h, ?_, hl, by simp, by rw [hl]; decide, .next, 3, by rw [hl]; simp, by rw [hl]; simp, by rw [hl]; simp⟩
  rw [hl]
  have h : Polite ([] : List (Event Nat Nat)) := by intro l₁ f k p l₂ h; simp at h
  have h := h.more (new := [.sys .iterates, .nextCall, .pollBegin .next 0 none,
    .sys .exhausted, .signal (.waitMade 0), .sys .exhausted, .wokeSelf 0, .pollPending 0]) (by simp)
  have h := h.snoc (e := .pollBegin .next 1 (some 0)) fun f k p he => by
    simp at he; rw [← he.2.1]; exact .inl (by simp)
  have h := h.more (new := [.signal (.pollBegin 0 0), .signal (.pollChecked 0), .signal (.pollPending 0), .pollPending 1,
    .signal (.sendBegin 1), .signal (.sendAdd 1), .signal (.sendLocked 1), .signal (.woke 1 0), .signal (.sendEnd 1)]) (by simp)
  have h := h.snoc (e := .pollBegin .next 2 (some 2)) fun f k p he => by
    simp at he; rw [← he.2.1]; exact .inr ⟨.next, 0, 1, by simp, by simp⟩
  have h := h.more (new := [.signal (.pollBegin 2 0), .signal (.pollReady 2), .sys .exhausted, .signal (.waitMade 1), .sys .exhausted,
    .wokeSelf 2, .pollPending 2]) (by simp)
  have h := h.snoc (e := .pollBegin .next 3 (some 3)) fun f k p he => by
    simp at he; rw [← he.2.1]; exact .inl (by simp)
  exact h.more (new := [.signal (.pollBegin 3 1), .signal (.pollChecked 3), .signal (.pollPending 3)]) (by simp)

end Parcom.Runner
