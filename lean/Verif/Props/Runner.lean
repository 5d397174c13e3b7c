import Verif.Lemmas.Runner
import Verif.Props.Notify
/-!
# The default runner's sequence (C64, C65, C66, C67)
-/
namespace Parcom.Runner
open Parcom Spec
variable {T E : Type} {b : Build} {st : State T E}

/-- C64: a segment `next()` resolves to continues what was delivered since `segments()`: no gap, no item twice, and nothing
that is not visible yet. -/
theorem C64_in_order (h : Reachable b st) {pre post : List (Event T E)} {k : Nat} {seg : List T}
    (hl : st.log = pre ++ .nextReady k (some seg) :: post) : deliveredOf pre ++ seg <+: availableOf pre := by
  obtain ⟨st₀, st₁, n₁, n₂, hr, hs, hn, rfl⟩ := moment h hl
  have hi := inv hr
  have key : ∀ sys, st₀.sys.move b .next = Run.ret sys → sys.log = st₀.sys.log ++ [.yielded seg] →
      deliveredOf (st₀.log ++ [.sys (.yielded seg)]) ++ seg <+: availableOf (st₀.log ++ [.sys (.yielded seg)]) := by
    intro sys he hl
    obtain ⟨ms, hm⟩ := reaches_move hi.sys he
    have := C59_in_order (post := []) hm hl
    rw [deliveredOf_still (by simp [Event.still]), hi.delivered, availableOf, sysLog_append, committedOf_append, consumedOf_append, ← hi.sysLog]
    have e1 : committedOf (sysLog [(.sys (.yielded seg) : Event T E)]) = [] := rfl
    have e2 : consumedOf (sysLog [(.sys (.yielded seg) : Event T E)]) = 0 := rfl
    rw [e1, e2, List.append_nil, Nat.add_zero]
    exact this
  cases hs with
  | firstSome k' fut sys seg' ht he hl' | secondSome k' i fut sys seg' ht he hl' =>
    replace hn := List.append_cancel_left hn
    rcases n₁ with _ | ⟨e₁, _ | ⟨e₂, n₁⟩⟩ <;> simp at hn
    obtain ⟨rfl, ⟨rfl, rfl⟩, rfl⟩ := hn
    exact key sys he hl'
  | _ =>
    first
    | (replace hn := List.append_cancel_left hn; have := congrArg (Event.nextReady k (some seg) ∈ ·) hn; simp at this)
    | (simp at hn)

/-- C64: what was delivered is always a prefix of what there is. -/
theorem C64_prefix (h : Reachable b st) (ht : st.task ≠ .idle) (ha : ∀ fut remain, st.task ≠ .advance fut remain)
    (hp : ∀ k fut remain pc, st.task ≠ .advancePoll k fut remain pc) : deliveredOf st.log <+: availableOf st.log := by
  have hi := inv h
  obtain ⟨ms, hm⟩ := hi.sys
  have hrd := (inv_reaches hm).reader
  have hfits := hi.fits
  have : ∃ c, st.sys.reader = .iterating c := by
    cases hst : st.task with
    | idle => exact absurd hst ht
    | stream | next | nextPoll => rw [hst] at hfits; exact hfits
    | advance => exact absurd hst (ha _ _)
    | advancePoll => exact absurd hst (hp _ _ _ _)
  obtain ⟨c, hc⟩ := this
  unfold ReaderOk at hrd
  rw [hc] at hrd
  rw [hi.delivered, availableOf, ← hi.sysLog]
  exact hrd.2

/-! ## The end -/

/-- C65 as intended: `next()` resolves to `None` only when everything visible was delivered. -/
def C65Statement : Prop := ∀ (T E : Type) (b : Build) (st : State T E) (pre post : List (Event T E)) (k : Nat), Reachable b st →
  st.log = pre ++ .nextReady k none :: post → deliveredOf pre = availableOf pre

/-- C65, what does hold: `done_flag` was set, and everything was delivered that was visible at some moment during the poll. All
that was made visible between that moment and the end of the poll was not. -/
theorem C65_exact (h : Reachable b st) {pre post : List (Event T E)} {k : Nat} (hl : st.log = pre ++ .nextReady k none :: post) :
    .done ∈ pre ∧ ∃ A B o, pre = A ++ B ∧ .pollBegin .next k o ∈ A ∧ (∀ e ∈ B, e.own = false) ∧ deliveredOf pre = availableOf A ∧
      availableOf pre = deliveredOf pre ++ committedOf (sysLog B) := by
  obtain ⟨st₀, st₁, n₁, n₂, hr, hs, hn, rfl⟩ := moment h hl
  have hi := inv hr
  have hh := hist hr
  cases hs with
  | isDone k' i fut ht hd =>
    replace hn := List.append_cancel_left hn
    rcases n₁ with _ | ⟨e₁, n₁⟩ <;> simp at hn
    obtain ⟨rfl, rfl⟩ := hn
    rw [ht] at hh
    obtain ⟨-, A, B, e, hB, -, h2, o, h3⟩ := hh
    have hq : ∀ e ∈ B, e.quiet = true := fun e he => Event.quiet_of_env (hB e he)
    have hd' : deliveredOf st₀.log = availableOf A := by
      rw [e, deliveredOf_still fun e he => Event.still_of_quiet (hq e he), h2]
    simp only [List.append_nil]
    refine ⟨hi.done.mp hd, A, B, o, e, h3, hB, hd', ?_⟩
    have := available_grows hr (A := A) (B := B) (C := []) (by rw [e, List.append_nil]) (consumedOf_quiet hq)
    rw [hd', ← this, e]
  | _ =>
    first
    | (replace hn := List.append_cancel_left hn; have := congrArg (Event.nextReady k none ∈ ·) hn; simp at this)
    | (simp at hn)

/-- C65, if nothing is made visible during the poll. What is missing: items made visible while the poll is between its
second look at the iterator and its look at `done_flag`. -/
theorem C65_partial (h : Reachable b st) {l₁ l₂ post : List (Event T E)} {k : Nat} {o : Option Nat}
    (hl : st.log = (l₁ ++ .pollBegin .next k o :: l₂) ++ .nextReady k none :: post) (hno : ∀ xs, .sys (.committed xs) ∉ l₂) :
    deliveredOf (l₁ ++ .pollBegin .next k o :: l₂) = availableOf (l₁ ++ .pollBegin .next k o :: l₂) := by
  obtain ⟨-, A, B, o', hAB, -, hB, h2, h3⟩ := C65_exact h hl
  rw [h3]
  rcases List.append_eq_append_iff.mp hAB with ⟨a, h4, h5⟩ | ⟨a, h4, h5⟩
  · cases a with
    | nil =>
      simp at h5
      have := hB (.pollBegin .next k o) (by rw [← h5]; simp)
      simp [Event.own] at this
    | cons x a =>
      simp at h5
      rw [committedOf_nil, List.append_nil]
      intro xs hm
      exact hno xs (by rw [h5.2]; simp [hm])
  · have := hB (.pollBegin .next k o) (by rw [h5]; simp)
    simp [Event.own] at this

/-- C65 in use: if `done_flag` was set before the poll began, and nothing is made visible after `done_flag` is set, then all
that there is and ever will be was delivered. -/
theorem C65_done_before (h : Reachable b st) {pre l₁ l₂ l₃ post : List (Event T E)} {k : Nat} {o : Option Nat}
    (hpre : pre = l₁ ++ .done :: l₂ ++ .pollBegin .next k o :: l₃) (hl : st.log = pre ++ .nextReady k none :: post)
    (hno : ∀ xs, .sys (.committed xs) ∉ l₂ ++ l₃ ++ post) :
    deliveredOf pre = (committedOf (sysLog st.log)).drop (consumedOf (sysLog pre)) := by
  have h1 := C65_partial h (l₁ := l₁ ++ .done :: l₂) (by rw [hl, hpre]) fun xs hm => hno xs (by simp [hm])
  rw [← hpre] at h1
  rw [h1, hl, sysLog_append, committedOf_append, committedOf_nil (l := .nextReady k none :: post), List.append_nil]
  · rfl
  · intro xs hm
    simp at hm
    exact hno xs (by simp [hm])

/-! ## Being woken -/

/-- C66: if the last thing the user did was to return `Pending`, and since then somebody called `send` and that has returned, the
waker given to the poll has been woken. This presumes fewer than 2^64 sends (see `Notify.C49_wraps`). -/
theorem C66_woken (h : Reachable b st) {pre post : List (Event T E)} {k s : Nat} (hl : st.log = pre ++ .pollPending k :: post)
    (hpost : ∀ e ∈ post, e.own = false) (hb : .signal (.sendBegin s) ∈ post) (he : .signal (.sendEnd s) ∈ post)
    (hfew : Notify.adds (signalLog st.log) < Notify.wrap) : Woken st.log k := by
  have hi := inv h
  have hlast : lastOwn st.log = some (.pollPending k) := by rw [hl]; exact lastOwn_split rfl hpost
  have hsl : ∃ i, Slept st.log i := by
    have hh := hist h
    cases ht : st.task with
    | next fut =>
      rw [ht] at hh
      cases fut with
      | none => exact absurd hlast (hh k)
      | some i => exact ⟨i, hh.2⟩
    | advance fut remain =>
      rw [ht] at hh
      cases fut with
      | none => exact absurd hlast (hh k)
      | some i => exact ⟨i, hh⟩
    | idle | stream => rw [ht] at hh; exact absurd hlast (hh k)
    | nextPoll | advancePoll => rw [ht] at hh; exact absurd hlast (hh.1 k)
  obtain ⟨i, f, k', A, B, h1, hB, h2, h3⟩ := hsl
  obtain ⟨rfl, hk, rfl⟩ := split_unique (p := Event.own) rfl rfl hpost hB (hl.symm.trans h1)
  injection hk with hk
  subst hk
  have hmem : ∀ {e : Event T E}, e ∈ pre → e ∈ st.log := fun hm => by rw [hl]; simp [hm]
  rcases h3 with h3 | ⟨p, h3, h4, h5⟩
  · exact .inl (hmem h3)
  · obtain ⟨a, c, hac⟩ := List.append_of_mem (mem_signalLog.mpr h2)
    have hsplit : st.signal.log = a ++ .waitMade i :: (c ++ signalLog (.pollPending k :: post)) := by
      rw [hi.signalLog, hl, signalLog_append, hac]; simp
    have hfew' : Notify.adds (c ++ signalLog (.pollPending k :: post)) < Notify.wrap := by
      rw [← hi.signalLog, hsplit, Notify.adds_append, Notify.adds_cons] at hfew
      omega
    have hsig : ∀ {e : Notify.Event}, .signal e ∈ st.log → e ∈ st.signal.log := fun hm => by rw [hi.signalLog]; exact mem_signalLog.mpr hm
    obtain ⟨c', hw⟩ := Notify.C47_no_lost_wakeup hi.signal hsplit (hsig (hmem h4)) (hsig (hmem h5))
      (List.mem_append_right _ (mem_signalLog.mpr (List.mem_cons_of_mem _ hb))) (hsig (by rw [hl]; simp [he])) hfew'
    exact .inr ⟨f, p, c', hmem h3, mem_signalLog.mp (by rw [← hi.signalLog]; exact hw)⟩

/-- What has to be told to a `Next` that waits happened after it looked. -/
theorem news_later (h : Reachable b st) {i : Nat} (ha : Asked st.log i) (hn : Behind st.log ∨ .done ∈ st.log) (hs : Signalled st.log) :
    ∃ A B s, st.log = A ++ B ∧ .signal (.waitMade i) ∈ A ∧ .signal (.sendBegin s) ∈ B ∧ .signal (.sendEnd s) ∈ B := by
  obtain ⟨A, B, hl, hB, h1, h2, h3⟩ := ha
  have hev : ∃ e ∈ B, e.news = true := by
    rcases hn with hn | hn
    · have hc : ∃ xs, .sys (.committed xs) ∈ B := by
        apply Classical.byContradiction
        intro hno
        have := available_grows h (C := []) (by rw [hl, List.append_nil]) (consumedOf_quiet hB)
        rw [committedOf_nil fun xs hm => hno ⟨xs, hm⟩, List.append_nil] at this
        rw [Behind, hl, this, deliveredOf_still fun e he => Event.still_of_quiet (hB e he), h2] at hn
        omega
      obtain ⟨xs, hc⟩ := hc
      exact ⟨_, hc, rfl⟩
    · refine ⟨.done, ?_, rfl⟩
      rw [hl] at hn
      exact (List.mem_append.mp hn).resolve_left h3
  obtain ⟨e, he, hnews⟩ := hev
  obtain ⟨b₁, b₂, rfl⟩ := List.append_of_mem he
  obtain ⟨s, hs1, hs2⟩ := hs (A ++ b₁) e b₂ (by rw [hl]; simp) hnews
  exact ⟨A, b₁ ++ e :: b₂, s, hl, h1, by simp [hs1], by simp [hs2]⟩

/-- C66: a `Next` is never asleep for ever. If its last poll returned `Pending` although there are items it has not delivered,
or the end was reached, then it has been woken, as soon as what was made visible was followed by a `send`. It does not
matter when during the poll the items were made visible. -/
theorem C66_not_stuck (h : Reachable b st) {pre post : List (Event T E)} {k : Nat} {fut : Option Nat} (ht : st.task = .next fut)
    (hl : st.log = pre ++ .pollPending k :: post) (hpost : ∀ e ∈ post, e.own = false) (hn : Behind st.log ∨ .done ∈ st.log)
    (hs : Signalled st.log) (hfew : Notify.adds (signalLog st.log) < Notify.wrap) : Woken st.log k := by
  have hi := inv h
  have hlast : lastOwn st.log = some (.pollPending k) := by rw [hl]; exact lastOwn_split rfl hpost
  have hh := hist h
  rw [ht] at hh
  cases fut with
  | none => exact absurd hlast (hh k)
  | some i =>
    obtain ⟨ha, f, k', A, B, h1, hB, h2, h3⟩ := hh
    obtain ⟨rfl, hk, rfl⟩ := split_unique (p := Event.own) rfl rfl hpost hB (hl.symm.trans h1)
    injection hk with hk
    subst hk
    have hmem : ∀ {e : Event T E}, e ∈ pre → e ∈ st.log := fun hm => by rw [hl]; simp [hm]
    rcases h3 with h3 | ⟨p, h3, h4, h5⟩
    · exact .inl (hmem h3)
    · obtain ⟨A, B, s, hAB, h6, h7, h8⟩ := news_later h ha hn hs
      obtain ⟨a, c, hac⟩ := List.append_of_mem (mem_signalLog.mpr h6)
      have hsplit : st.signal.log = a ++ .waitMade i :: (c ++ signalLog B) := by
        rw [hi.signalLog, hAB, signalLog_append, hac]; simp
      have hfew' : Notify.adds (c ++ signalLog B) < Notify.wrap := by
        rw [← hi.signalLog, hsplit, Notify.adds_append, Notify.adds_cons] at hfew
        omega
      have hsig : ∀ {e : Notify.Event}, .signal e ∈ st.log → e ∈ st.signal.log := fun hm => by rw [hi.signalLog]; exact mem_signalLog.mpr hm
      obtain ⟨c', hw⟩ := Notify.C47_no_lost_wakeup hi.signal hsplit (hsig (hmem h4)) (hsig (hmem h5))
        (List.mem_append_right _ (mem_signalLog.mpr h7)) (hsig (by rw [hAB]; simp [h8])) hfew'
      exact .inr ⟨f, p, c', hmem h3, mem_signalLog.mp (by rw [← hi.signalLog]; exact hw)⟩

/-- From `st` on, as long as its `Next` is not dropped, poll `k` is still to come, under way, or over. -/
inductive Goes (st : State T E) (fut : Option Nat) (st' : State T E) : Prop where
  | before (B : List (Event T E)) : st'.task = .next fut → st'.polls = st.polls → st'.log = st.log ++ B → (∀ e ∈ B, e.quiet = true) →
      Goes st fut st'
  | waiting (B : List (Event T E)) (p i s : Nat) (m₁ m₂ m₃ m₄ : List Notify.Event) : st'.task = .nextPoll st.polls fut (.wait p) →
      st'.log = st.log ++ B → (∀ e ∈ B, e.quiet = true) →
      st'.signal.log = m₁ ++ .waitMade i :: m₂ ++ .sendAdd s :: m₃ ++ .pollBegin p i :: m₄ → Goes st fut st'
  | looking (B : List (Event T E)) : st'.task = .nextPoll st.polls fut .first → st'.log = st.log ++ B → (∀ e ∈ B, e.quiet = true) →
      Goes st fut st'
  | ending (pc : NextPc) : st'.task = .nextPoll st.polls fut pc → (∀ p, pc ≠ .wait p) → .done ∈ st'.log → Goes st fut st'
  | over : st.polls < st'.polls → (∀ fut pc, st'.task ≠ .nextPoll st.polls fut pc) →
      (∀ fut remain pc, st'.task ≠ .advancePoll st.polls fut remain pc) → Goes st fut st'

theorem Behind.more (h : Reachable b st) {A B : List (Event T E)} (hl : st.log = A ++ B) (hq : ∀ e ∈ B, e.quiet = true) (hb : Behind A) :
    Behind st.log := by
  have := available_grows h (C := []) (by rw [hl, List.append_nil]) (consumedOf_quiet hq)
  rw [Behind, hl, deliveredOf_still fun e he => Event.still_of_quiet (hq e he), this, List.length_append]
  rw [Behind] at hb
  omega

/-- A step of somebody else. -/
theorem Goes.env {st st' st'' : State T E} {fut : Option Nat} (h : Goes st fut st') {new : List (Event T E)} (ht : st''.task = st'.task)
    (hp : st''.polls = st'.polls) (hl : st''.log = st'.log ++ new) (hn : ∀ e ∈ new, e.own = false) {more : List Notify.Event}
    (hs : st''.signal.log = st'.signal.log ++ more) : Goes st fut st'' := by
  have hq : ∀ B : List (Event T E), (∀ e ∈ B, e.quiet = true) → ∀ e ∈ B ++ new, e.quiet = true := by
    intro B hB e he
    rcases List.mem_append.mp he with he | he
    · exact hB e he
    · exact Event.quiet_of_env (hn e he)
  cases h with
  | before B h1 h2 h3 h4 => exact .before (B ++ new) (ht.trans h1) (hp.trans h2) (by rw [hl, h3]; simp) (hq B h4)
  | waiting B p i s m₁ m₂ m₃ m₄ h1 h2 h3 h4 =>
    exact .waiting (B ++ new) p i s m₁ m₂ m₃ (m₄ ++ more) (ht.trans h1) (by rw [hl, h2]; simp) (hq B h3) (by rw [hs, h4]; simp)
  | looking B h1 h2 h3 => exact .looking (B ++ new) (ht.trans h1) (by rw [hl, h2]; simp) (hq B h3)
  | ending pc h1 h2 h3 => exact .ending pc (ht.trans h1) h2 (by rw [hl]; exact List.mem_append_left _ h3)
  | over h1 h2 h3 => exact .over (by rw [hp]; exact h1) (by rw [ht]; exact h2) (by rw [ht]; exact h3)

theorem goes_step {st st' st'' : State T E} {fut : Option Nat} (h₀ : Reachable b st) (ht₀ : st.task = .next fut)
    (hn : Behind st.log ∨ .done ∈ st.log) (hsig : Signalled st.log) (h : Reachable b st') (hg : Goes st fut st') (hs : Step b st' st'')
    (hfew : Notify.adds (signalLog st'.log) < Notify.wrap) {new : List (Event T E)} (hl : st''.log = st'.log ++ new) :
    .nextDrop ∈ new ∨ Goes st fut st'' ∧ .pollPending st.polls ∉ new := by
  have hi := inv h
  have hlook : ∀ B, st'.log = st.log ++ B → (∀ e ∈ B, e.quiet = true) → Behind st'.log ∨ .done ∈ st'.log := by
    intro B hB hq
    rcases hn with hn | hn
    · exact .inl (hn.more h hB hq)
    · exact .inr (by rw [hB]; exact List.mem_append_left _ hn)
  have henv : ∀ {log : List (Event T E)}, (∀ e ∈ log, e.own = false) → .pollPending st.polls ∉ log := by
    intro log ho hm
    simpa [Event.own] using ho _ hm
  -- what the others do
  have hother : (∀ e ∈ new, e.own = false) → st''.task = st'.task → st''.polls = st'.polls →
      (∃ more, st''.signal.log = st'.signal.log ++ more) → .nextDrop ∈ new ∨ Goes st fut st'' ∧ .pollPending st.polls ∉ new :=
    fun h1 h2 h3 ⟨more, h4⟩ => .inr ⟨hg.env h2 h3 hl h1 h4, henv h1⟩
  cases hs with
  | loader m sys new' hm he hl' =>
    replace hl := List.append_cancel_left hl
    obtain ⟨-, hnew⟩ := move_loader hm he hl'
    refine hother ?_ rfl rfl ⟨[], by simp⟩
    rw [← hl]
    intro e he
    obtain ⟨o, ho, rfl⟩ := List.mem_map.mp he
    rcases hnew o ho with ⟨xs, rfl⟩ | ⟨t, r, rfl⟩ <;> rfl
  | setDone =>
    replace hl := List.append_cancel_left hl
    exact hother (by rw [← hl]; simp [Event.own]) rfl rfl ⟨[], by simp⟩
  | signal signal new' hstep hl' =>
    replace hl := List.append_cancel_left hl
    refine hother ?_ rfl rfl ⟨new', hl'⟩
    rw [← hl]
    intro e he
    obtain ⟨o, -, rfl⟩ := List.mem_map.mp he
    rfl
  | nextDrop fut' ht =>
    replace hl := List.append_cancel_left hl
    exact .inl (by rw [← hl]; simp)
  | nextPoll ht =>
    replace hl := List.append_cancel_left hl
    cases hg with
    | before B h1 h2 h3 h4 =>
      rw [ht] at h1
      injection h1 with h1
      subst h1
      refine .inr ⟨.looking (B ++ [.pollBegin .next st'.polls none]) (by rw [← h2]) (by simp [h3]) ?_, by rw [← hl]; simp⟩
      intro e he
      rcases List.mem_append.mp he with he | he
      · exact h4 e he
      · simp at he; rw [he]; rfl
    | waiting _ _ _ _ _ _ _ _ h1 => rw [ht] at h1; simp at h1
    | looking _ h1 => rw [ht] at h1; simp at h1
    | ending _ h1 => rw [ht] at h1; simp at h1
    | over h1 h2 h3 => exact .inr ⟨.over (Nat.lt_succ_of_lt h1) (by simp; omega) (by simp), by rw [← hl]; simp⟩
  | nextPollWait i signal ht hlt hsg =>
    replace hl := List.append_cancel_left hl
    cases hg with
    | before B h1 h2 h3 h4 =>
      rw [ht] at h1
      injection h1 with h1
      subst h1
      have hh := hist h₀
      rw [ht₀] at hh
      obtain ⟨A, C, s, h5, h6, h7, h8⟩ := news_later h₀ hh.1 hn hsig
      have hi₀ := inv h₀
      -- the increment comes after the `Wait`
      have hadd : .sendAdd s ∈ signalLog C := by
        have h9 := ((Notify.calls hi₀.signal).sendEnd s (by rw [hi₀.signalLog, mem_signalLog, h5]; simp [h8])).2.1
        rw [hi₀.signalLog, h5, signalLog_append] at h9
        refine (List.mem_append.mp h9).resolve_left fun h10 => ?_
        obtain ⟨x, y, hxy⟩ := List.append_of_mem (mem_signalLog.mpr h7)
        exact (Notify.order hi₀.signal).send s (signalLog A ++ x) (.sendBegin s :: y)
          (by rw [hi₀.signalLog, h5, signalLog_append, hxy]; simp) (by simp [h10]) (by simp)
      obtain ⟨a₁, a₂, ha⟩ := List.append_of_mem (mem_signalLog.mpr h6)
      obtain ⟨c₁, c₂, hc⟩ := List.append_of_mem hadd
      refine .inr ⟨.waiting (B ++ [.pollBegin .next st'.polls (some st'.signal.calls), .signal (.pollBegin st'.signal.calls i)])
        st'.signal.calls i s a₁ (a₂ ++ c₁) (c₂ ++ signalLog B) [] (by rw [← h2]) (by simp [h3]) ?_ ?_, by rw [← hl]; simp⟩
      · intro e he
        rcases List.mem_append.mp he with he | he
        · exact h4 e he
        · simp at he; rcases he with rfl | rfl <;> rfl
      · rw [hsg]
        show st'.signal.log ++ [_] = _
        rw [hi.signalLog, h3, h5, signalLog_append, signalLog_append, ha, hc]
        simp
    | waiting _ _ _ _ _ _ _ _ h1 => rw [ht] at h1; simp at h1
    | looking _ h1 => rw [ht] at h1; simp at h1
    | ending _ h1 => rw [ht] at h1; simp at h1
    | over h1 h2 h3 => exact .inr ⟨.over (Nat.lt_succ_of_lt h1) (by simp; omega) (by simp), by rw [← hl]; simp⟩
  | nextWaitReady k p fut' ht hp =>
    have hl : new = [] := by simpa using hl
    subst hl
    cases hg with
    | waiting B p' i s m₁ m₂ m₃ m₄ h1 h2 h3 h4 =>
      rw [ht] at h1
      simp at h1
      obtain ⟨rfl, rfl, rfl⟩ := h1
      exact .inr ⟨.looking B rfl h2 h3, by simp⟩
    | before _ h1 => rw [ht] at h1; simp at h1
    | looking _ h1 => rw [ht] at h1; simp at h1
    | ending pc h1 h2 => rw [ht] at h1; simp at h1; exact absurd h1.2.2.symm (h2 p)
    | over h1 h2 h3 =>
      have : st.polls ≠ k := fun e => h2 fut' (.wait p) (by rw [ht, e])
      exact .inr ⟨.over h1 (by simp; omega) (by simp), by simp⟩
  | nextWaitPending k p fut' ht hp =>
    replace hl := List.append_cancel_left hl
    cases hg with
    | waiting B p' i s m₁ m₂ m₃ m₄ h1 h2 h3 h4 =>
      rw [ht] at h1
      simp at h1
      obtain ⟨rfl, rfl, rfl⟩ := h1
      refine absurd hp (Notify.C49_ready_after_send hi.signal h4 ?_)
      rw [← hi.signalLog, h4] at hfew
      have e : m₁ ++ .waitMade i :: m₂ ++ .sendAdd s :: m₃ ++ .pollBegin p i :: m₄ =
        m₁ ++ [.waitMade i] ++ (m₂ ++ .sendAdd s :: m₃ ++ .pollBegin p i :: m₄) := by simp
      rw [e, Notify.adds_append] at hfew
      omega
    | before _ h1 => rw [ht] at h1; simp at h1
    | looking _ h1 => rw [ht] at h1; simp at h1
    | ending pc h1 h2 => rw [ht] at h1; simp at h1; exact absurd h1.2.2.symm (h2 p)
    | over h1 h2 h3 =>
      have : st.polls ≠ k := fun e => h2 fut' (.wait p) (by rw [ht, e])
      exact .inr ⟨.over h1 (by simp) (by simp), by rw [← hl]; simp; omega⟩
  | firstSome k fut' sys seg ht he hl' =>
    replace hl := List.append_cancel_left hl
    refine .inr ⟨.over ?_ (by simp) (by simp), by rw [← hl]; simp⟩
    have hk := (numbered h).next k fut' _ ht
    show st.polls < st'.polls
    cases hg with
    | looking B h1 => rw [ht] at h1; simp at h1; omega
    | ending pc h1 h2 => rw [ht] at h1; simp at h1; omega
    | over h1 => exact h1
    | before _ h1 => rw [ht] at h1; simp at h1
    | waiting _ _ _ _ _ _ _ _ h1 => rw [ht] at h1; simp at h1
  | firstNone k fut' sys ht he hl' =>
    replace hl := List.append_cancel_left hl
    cases hg with
    | looking B h1 h2 h3 =>
      rw [ht] at h1
      simp at h1
      obtain ⟨rfl, rfl⟩ := h1
      refine .inr ⟨.ending .makeWait rfl (by simp) ?_, by rw [← hl]; simp⟩
      rcases hlook B h2 h3 with h4 | h4
      · exfalso
        have h5 := exhausted hi he hl'
        rw [deliveredOf_still (by simp [Event.still]), available_grows (.step h (.firstNone st' st.polls fut' sys ht he hl')) (C := [])
          (by simp) rfl] at h5
        rw [Behind, h5] at h4
        simp [sysLog, committedOf, segmentsOf] at h4
      · simp [h4]
    | ending pc h1 h2 h3 =>
      rw [ht] at h1
      simp at h1
      obtain ⟨rfl, rfl, -⟩ := h1
      exact .inr ⟨.ending .makeWait rfl (by simp) (by simp [h3]), by rw [← hl]; simp⟩
    | over h1 h2 h3 =>
      have : st.polls ≠ k := fun e => h2 fut' .first (by rw [ht, e])
      exact .inr ⟨.over h1 (by simp; omega) (by simp), by rw [← hl]; simp⟩
    | before _ h1 => rw [ht] at h1; simp at h1
    | waiting _ _ _ _ _ _ _ _ h1 => rw [ht] at h1; simp at h1
  | makeWait k fut' signal ht hsg =>
    replace hl := List.append_cancel_left hl
    cases hg with
    | ending pc h1 h2 h3 =>
      rw [ht] at h1
      simp at h1
      obtain ⟨rfl, rfl, -⟩ := h1
      exact .inr ⟨.ending (.second st'.signal.waits.length) rfl (by simp) (by simp [h3]), by rw [← hl]; simp⟩
    | over h1 h2 h3 =>
      have : st.polls ≠ k := fun e => h2 fut' .makeWait (by rw [ht, e])
      exact .inr ⟨.over h1 (by simp; omega) (by simp), by rw [← hl]; simp⟩
    | looking _ h1 => rw [ht] at h1; simp at h1
    | before _ h1 => rw [ht] at h1; simp at h1
    | waiting _ _ _ _ _ _ _ _ h1 => rw [ht] at h1; simp at h1
  | secondNone k i fut' sys ht he hl' =>
    replace hl := List.append_cancel_left hl
    cases hg with
    | ending pc h1 h2 h3 =>
      rw [ht] at h1
      simp at h1
      obtain ⟨rfl, rfl, -⟩ := h1
      exact .inr ⟨.ending (.loadDone i) rfl (by simp) (by simp [h3]), by rw [← hl]; simp⟩
    | over h1 h2 h3 =>
      have : st.polls ≠ k := fun e => h2 fut' (.second i) (by rw [ht, e])
      exact .inr ⟨.over h1 (by simp; omega) (by simp), by rw [← hl]; simp⟩
    | looking _ h1 => rw [ht] at h1; simp at h1
    | before _ h1 => rw [ht] at h1; simp at h1
    | waiting _ _ _ _ _ _ _ _ h1 => rw [ht] at h1; simp at h1
  | secondSome k i fut' sys seg ht he hl' =>
    replace hl := List.append_cancel_left hl
    refine .inr ⟨.over ?_ (by simp) (by simp), by rw [← hl]; simp⟩
    have hk := (numbered h).next k fut' _ ht
    show st.polls < st'.polls
    cases hg with
    | looking B h1 => rw [ht] at h1; simp at h1
    | ending pc h1 h2 => rw [ht] at h1; simp at h1; omega
    | over h1 => exact h1
    | before _ h1 => rw [ht] at h1; simp at h1
    | waiting _ _ _ _ _ _ _ _ h1 => rw [ht] at h1; simp at h1
  | isDone k i fut' ht hd =>
    replace hl := List.append_cancel_left hl
    refine .inr ⟨.over ?_ (by simp) (by simp), by rw [← hl]; simp⟩
    have hk := (numbered h).next k fut' _ ht
    show st.polls < st'.polls
    cases hg with
    | looking B h1 => rw [ht] at h1; simp at h1
    | ending pc h1 h2 => rw [ht] at h1; simp at h1; omega
    | over h1 => exact h1
    | before _ h1 => rw [ht] at h1; simp at h1
    | waiting _ _ _ _ _ _ _ _ h1 => rw [ht] at h1; simp at h1
  | notDone k i fut' ht hd =>
    replace hl := List.append_cancel_left hl
    cases hg with
    | ending pc h1 h2 h3 => rw [hi.done.mpr h3] at hd; simp at hd
    | over h1 h2 h3 =>
      have : st.polls ≠ k := fun e => h2 fut' (.loadDone i) (by rw [ht, e])
      exact .inr ⟨.over h1 (by simp) (by simp), by rw [← hl]; simp; omega⟩
    | looking _ h1 => rw [ht] at h1; simp at h1
    | before _ h1 => rw [ht] at h1; simp at h1
    | waiting _ _ _ _ _ _ _ _ h1 => rw [ht] at h1; simp at h1
  | _ =>
    first | replace hl := List.append_cancel_left hl | (have hl : [] = new := by simpa using hl)
    cases hg with
    | over h1 h2 h3 =>
      subst hl
      refine .inr ⟨.over (by simp; omega) ?_ ?_, ?_⟩ <;> grind
    | _ => simp_all

/-- C66: and then it gets on. If there are items a `Next` has not delivered, or the end was reached, and that was followed by a
`send`, then the next poll of that `Next` does not return `Pending`, whatever happens meanwhile. -/
theorem C66_progress (h : Reachable b st) {fut : Option Nat} (ht : st.task = .next fut) (hn : Behind st.log ∨ .done ∈ st.log)
    (hsig : Signalled st.log) {st' : State T E} (hs : Steps b st st') {new : List (Event T E)} (hl : st'.log = st.log ++ new)
    (hkeep : .nextDrop ∉ new) (hfew : Notify.adds (signalLog st'.log) < Notify.wrap) : .pollPending st.polls ∉ st'.log := by
  have key : ∀ st', Steps b st st' → ∀ new, st'.log = st.log ++ new → .nextDrop ∉ new → Notify.adds (signalLog st'.log) < Notify.wrap →
      Reachable b st' ∧ Goes st fut st' ∧ .pollPending st.polls ∉ st'.log := by
    intro st' hs
    induction hs with
    | refl => exact fun _ _ _ _ => ⟨h, .before [] ht rfl (by simp) (by simp), fun hp => Nat.lt_irrefl _ ((numbered h).pending _ hp)⟩
    | @step st₁ st₂ hs hstep ih =>
      intro new hl hk hfew
      obtain ⟨new₁, hl₁⟩ : ∃ new, st₁.log = st.log ++ new := by
        clear ih hstep hl hfew
        induction hs with
        | refl => exact ⟨[], by simp⟩
        | step _ hstep ih =>
          obtain ⟨n, hn⟩ := ih
          obtain ⟨n', hn'⟩ := step_log hstep
          exact ⟨n ++ n', by rw [hn', hn]; simp⟩
      obtain ⟨new₂, hl₂⟩ := step_log hstep
      have e : new = new₁ ++ new₂ := by
        rw [hl₂, hl₁, List.append_assoc] at hl
        exact (List.append_cancel_left hl).symm
      rw [hl₂, signalLog_append, Notify.adds_append] at hfew
      have hfew₁ : Notify.adds (signalLog st₁.log) < Notify.wrap := by omega
      obtain ⟨h1, h2, h3⟩ := ih new₁ hl₁ (fun hm => hk (by rw [e]; simp [hm])) hfew₁
      rcases goes_step h ht hn hsig h1 h2 hstep hfew₁ hl₂ with h4 | ⟨h4, h5⟩
      · exact absurd (by rw [e]; simp [h4]) hk
      · exact ⟨.step h1 hstep, h4, by rw [hl₂]; simp [h3, h5]⟩
  exact (key st' hs new hl hkeep hfew).2.2

/-! ## `advance` -/

/-- C67 as intended: `advance(n)` resolves when `n` more items have been skipped, or all there are if the end was reached. -/
def C67Statement : Prop := ∀ (T E : Type) (b : Build) (st : State T E) (l₁ l₂ l₃ : List (Event T E)) (n k : Nat), Reachable b st →
  st.log = l₁ ++ .advanceCall n :: l₂ ++ .advanceReady k :: l₃ → (∀ m, .advanceCall m ∉ l₂) →
  consumedOf (sysLog (l₁ ++ .advanceCall n :: l₂)) = consumedOf (sysLog l₁) + n ∨
    .done ∈ l₁ ++ .advanceCall n :: l₂ ∧ availableOf (l₁ ++ .advanceCall n :: l₂) = []

theorem consumedOf_plain {l : List (Event T E)} (h : ∀ e ∈ l, e.plain = true ∨ e = .sys (.advanced 0 0)) : consumedOf (sysLog l) = 0 := by
  induction l with
  | nil => rfl
  | cons e l ih =>
    have he := h e List.mem_cons_self
    have := ih fun e' h' => h e' (List.mem_cons_of_mem _ h')
    cases e with
    | sys o =>
      cases o with
      | advanced n r =>
        simp [Event.plain] at he
        obtain ⟨rfl, rfl⟩ := he
        show 0 - 0 + consumedOf (sysLog l) = 0
        rw [this]
      | _ => exact this
    | _ => exact this

/-- C67, what does hold: `buffer.advance` is called with `n` once, and skips as many of the items visible when it last looks as
it can. Whatever becomes visible later is not skipped, also if fewer than `n` items were. -/
theorem C67_exact (h : Reachable b st) {l₁ l₂ l₃ : List (Event T E)} {n k : Nat}
    (hl : st.log = l₁ ++ .advanceCall n :: l₂ ++ .advanceReady k :: l₃) (hone : ∀ m, .advanceCall m ∉ l₂) :
    ∃ a r c, l₂ = a ++ .sys (.advanced n r) :: c ∧ r = n - (availableOf (l₁ ++ .advanceCall n :: a)).length ∧
      (∀ m r', .sys (.advanced m r') ∉ a) ∧ (∀ m r', .sys (.advanced m r') ∈ c → m = 0) ∧
      consumedOf (sysLog (l₁ ++ .advanceCall n :: l₂)) =
        consumedOf (sysLog l₁) + min n (availableOf (l₁ ++ .advanceCall n :: a)).length := by
  obtain ⟨st₀, st₁, n₁, n₂, hr, hs, hn, hpre⟩ := moment h hl
  have ha := adv hr
  cases hs with
  | advanceReady k' remain r fut ht hd =>
    replace hn := List.append_cancel_left hn
    rcases n₁ with _ | ⟨e₁, n₁⟩ <;> simp at hn
    obtain ⟨rfl, rfl⟩ := hn
    rw [List.append_nil] at hpre
    rw [ht] at ha
    obtain ⟨⟨l₁', d, a, r', c, h1, h2, h3, h4⟩, -⟩ := ha
    let call : Event T E → Bool := fun | .advanceCall _ => true | _ => false
    have hcall : ∀ l : List (Event T E), (∀ m, .advanceCall m ∉ l) → ∀ e ∈ l, call e = false := by
      intro l hl e he
      cases e with
      | advanceCall m => exact absurd he (hl m)
      | _ => rfl
    have hnot : ∀ m, .advanceCall m ∉ a ++ .sys (.advanced d r') :: c := by
      intro m hm
      rcases List.mem_append.mp hm with hm | hm
      · simpa [Event.plain] using h2 _ hm
      · rcases List.mem_cons.mp hm with hm | hm
        · cases hm
        · simpa [Event.plain] using h3 _ hm
    have heq : l₁ ++ .advanceCall n :: l₂ = l₁' ++ .advanceCall d :: (a ++ .sys (.advanced d r') :: c) := by rw [hpre, h1]; simp
    obtain ⟨rfl, he, rfl⟩ := split_unique (p := call) rfl rfl (hcall _ hone) (hcall _ hnot) heq
    injection he with he
    subst he
    refine ⟨a, r', c, rfl, h4, fun m x hm => ?_, fun m x hm => ?_, ?_⟩
    · simpa [Event.plain] using h2 _ hm
    · rcases h3 _ hm with h5 | h5
      · simp [Event.plain] at h5
      · injection h5 with h5
        injection h5
    · have e : ∀ x : List (Event T E), sysLog (.advanceCall n :: x) = sysLog x := fun _ => rfl
      have e' : ∀ x : List (Event T E), sysLog (.sys (.advanced n r') :: x) = .advanced n r' :: sysLog x := fun _ => rfl
      rw [sysLog_append, e, sysLog_append, e', consumedOf_append, consumedOf_append, consumedOf,
        consumedOf_plain fun e he => .inl (h2 e he), consumedOf_plain h3]
      omega
  | _ =>
    first
    | (replace hn := List.append_cancel_left hn; have := congrArg (Event.advanceReady k ∈ ·) hn; simp at this)
    | (simp at hn)

/-- C67: never more than `n` items. -/
theorem C67_at_most (h : Reachable b st) {l₁ l₂ l₃ : List (Event T E)} {n k : Nat}
    (hl : st.log = l₁ ++ .advanceCall n :: l₂ ++ .advanceReady k :: l₃) (hone : ∀ m, .advanceCall m ∉ l₂) :
    consumedOf (sysLog (l₁ ++ .advanceCall n :: l₂)) ≤ consumedOf (sysLog l₁) + n := by
  obtain ⟨a, r, c, -, -, -, -, h5⟩ := C67_exact h hl hone
  omega

/-- C67, if the items to skip are there before the first poll. What is missing: items that arrive later, because what
`buffer.advance` could not skip is forgotten when the poll returns `Pending`. -/
theorem C67_partial (h : Reachable b st) {l₁ l₂ l₃ l₄ : List (Event T E)} {n k j : Nat} {o : Option Nat}
    (hl : st.log = l₁ ++ .advanceCall n :: (l₂ ++ .pollBegin .advance j o :: l₃) ++ .advanceReady k :: l₄)
    (hone : ∀ m, .advanceCall m ∉ l₂ ++ .pollBegin .advance j o :: l₃) (hfirst : ∀ e ∈ l₂, e.own = false)
    (hthere : n ≤ (availableOf (l₁ ++ .advanceCall n :: l₂)).length) :
    consumedOf (sysLog (l₁ ++ .advanceCall n :: (l₂ ++ .pollBegin .advance j o :: l₃))) = consumedOf (sysLog l₁) + n := by
  obtain ⟨a, r, c, h1, h2, h3, h4, h5⟩ := C67_exact h hl hone
  rw [h5]
  have hbefore : ∃ x, a = l₂ ++ .pollBegin .advance j o :: x := by
    rcases List.append_eq_append_iff.mp h1 with ⟨x, h6, h7⟩ | ⟨x, h6, h7⟩
    · cases x with
      | nil => simp at h7
      | cons y x => simp at h7; exact ⟨x, by rw [h6, ← h7.1]⟩
    · cases x with
      | nil => simp at h7
      | cons y x =>
        simp at h7
        have := hfirst (.sys (.advanced n r)) (by rw [h6, ← h7.1]; simp)
        simp [Event.own] at this
  obtain ⟨x, rfl⟩ := hbefore
  have hx : consumedOf (sysLog (.pollBegin .advance j o :: x)) = 0 := by
    have : ∀ l : List (Event T E), (∀ m r', .sys (.advanced m r') ∉ l) → consumedOf (sysLog l) = 0 := by
      intro l
      induction l with
      | nil => exact fun _ => rfl
      | cons e l ih =>
        intro hno
        have := ih fun m r' hm => hno m r' (List.mem_cons_of_mem _ hm)
        cases e with
        | sys o =>
          cases o with
          | advanced m r' => exact absurd List.mem_cons_self (hno m r')
          | _ => exact this
        | _ => exact this
    exact this _ fun m r' hm => h3 m r' (List.mem_append_right _ hm)
  have := available_grows h (A := l₁ ++ .advanceCall n :: l₂) (B := .pollBegin .advance j o :: x)
    (C := .sys (.advanced n r) :: c ++ .advanceReady k :: l₄) (by rw [hl, h1]; simp) hx
  have e : l₁ ++ .advanceCall n :: (l₂ ++ .pollBegin .advance j o :: x) = l₁ ++ .advanceCall n :: l₂ ++ .pollBegin .advance j o :: x := by simp
  rw [e, this, List.length_append]
  omega

/-! ## The statements are about something, and two of them are false -/

/-- Loading `7`. -/
def load7 : Move Nat Nat := .load plainEnv (IteratorSource.script [[7]])

/-- An item becomes visible after the poll has looked for the last time, and before it looks at `done_flag`. -/
theorem race : ∃ st : State Nat Nat, Reachable .checked st ∧ st.log = [.sys .iterates, .nextCall, .pollBegin .next 0 none, .sys .exhausted,
    .signal (.waitMade 0), .sys .exhausted, .sys (.loaded [7] (some (.ok (.new 0 1 1)))), .sys (.committed [7]), .done] ++
    .nextReady 0 none :: [] := by
  have h := Reachable.init (T := Nat) (E := Nat) (b := .checked) 0
  have h := h.step (.segments _ _ rfl rfl)
  have h := h.step (.next _ rfl)
  have h := h.step (.nextPoll _ rfl)
  have h := h.step (.firstNone _ 0 none _ rfl rfl rfl)
  have h := h.step (.makeWait _ 0 none _ rfl rfl)
  have h := h.step (.secondNone _ 0 0 none _ rfl rfl rfl)
  have h := h.step (.loader _ load7 _ [.loaded [7] (some (.ok (.new 0 1 1)))] (.inl ⟨_, _, rfl⟩) rfl rfl)
  have h := h.step (.loader _ (.forceCommit plainEnv) _ [.committed [7]] (.inr ⟨_, rfl⟩) rfl rfl)
  have h := h.step (.setDone _)
  have h := h.step (.isDone _ 0 0 none rfl rfl)
  exact ⟨_, h, rfl⟩

/-- C65 is false: `next()` resolves to `None` although `7` is visible and was not delivered. -/
theorem C65_false : ¬ C65Statement := by
  intro h
  obtain ⟨st, hr, hl⟩ := race
  have := h Nat Nat .checked st _ _ 0 hr hl
  revert this
  decide

/-- One item is to be skipped, and arrives between the first poll and the second. -/
theorem forgotten : ∃ st : State Nat Nat, Reachable .checked st ∧ st.log = [] ++ .advanceCall 1 :: [.pollBegin .advance 0 none,
    .signal (.waitMade 0), .sys (.advanced 1 1), .wokeSelf 0, .pollPending 0, .sys (.loaded [7] (some (.ok (.new 0 1 1)))),
    .sys (.committed [7]), .signal (.sendBegin 0), .signal (.sendAdd 0), .signal (.sendLocked 0), .signal (.sendEnd 0),
    .pollBegin .advance 1 (some 1), .signal (.pollBegin 1 0), .signal (.pollReady 1), .signal (.waitMade 1), .sys (.advanced 0 0)] ++
    .advanceReady 1 :: [] := by
  have h := Reachable.init (T := Nat) (E := Nat) (b := .checked) 0
  have h := h.step (.advance _ 1 rfl)
  have h := h.step (.advancePoll _ 1 rfl)
  have h := h.step (.advanceMakeWait _ 0 1 none _ rfl rfl)
  have h := h.step (.replace _ 0 1 (some 0) _ rfl rfl)
  have h := h.step (.advanced _ 0 0 1 1 (some 0) _ rfl rfl rfl)
  have h := h.step (.advancePending _ 0 0 1 (some 0) rfl (by decide) rfl)
  have h := h.step (.loader _ load7 _ [.loaded [7] (some (.ok (.new 0 1 1)))] (.inl ⟨_, _, rfl⟩) rfl rfl)
  have h := h.step (.loader _ (.forceCommit plainEnv) _ [.committed [7]] (.inr ⟨_, rfl⟩) rfl rfl)
  have h := h.step (.signal _ _ [.sendBegin 0] (.sendBegin _) rfl)
  have h := h.step (.signal _ _ [.sendAdd 0] (.sendAdd _ 0 rfl) rfl)
  have h := h.step (.signal _ _ [.sendLocked 0] (.sendLock _ 0 rfl rfl) rfl)
  have h := h.step (.signal _ _ [.sendEnd 0] (.sendEnd _ 0 rfl rfl) rfl)
  have h := h.step (.advancePollWait _ 0 0 _ rfl (by decide) rfl)
  have h := h.step (.signal _ _ [.pollReady 1] (.pollLoadReady _ 1 0 rfl (by decide)) rfl)
  have h := h.step (.advanceWaitReady _ 1 1 0 (some 0) rfl (by decide))
  have h := h.step (.advanceMakeWait _ 1 0 (some 0) _ rfl rfl)
  have h := h.step (.replace _ 1 0 (some 1) _ rfl rfl)
  have h := h.step (.advanced _ 1 0 0 0 (some 1) _ rfl rfl rfl)
  have h := h.step (.advanceReady _ 1 0 0 (some 1) rfl (.inl rfl))
  exact ⟨_, h, rfl⟩

/-- C67 is false: `advance(1)` resolves, the end was not reached, and nothing was skipped. -/
theorem C67_false : ¬ C67Statement := by
  intro h
  obtain ⟨st, hr, hl⟩ := forgotten
  have := h Nat Nat .checked st _ _ _ 1 1 hr hl (by simp)
  revert this
  simp [sysLog, consumedOf]

theorem signalled_one {pre post : List (Event T E)} {e : Event T E} (h1 : ∀ e ∈ pre, e.news = false)
    (h2 : ∀ e ∈ post, e.news = false) {s : Nat} (h3 : .signal (.sendBegin s) ∈ post) (h4 : .signal (.sendEnd s) ∈ post) :
    Signalled (pre ++ e :: post) := by
  intro l₁ e' l₂ hl hn
  rcases List.append_eq_append_iff.mp hl with ⟨a, h5, h6⟩ | ⟨a, h5, h6⟩
  · cases a with
    | nil => simp at h6; rw [← h6.2]; exact ⟨s, h3, h4⟩
    | cons x a =>
      simp at h6
      have := h2 e' (by rw [h6.2]; simp)
      rw [hn] at this; simp at this
  · cases a with
    | nil => simp at h6; rw [h6.2]; exact ⟨s, h3, h4⟩
    | cons x a =>
      simp at h6
      have := h1 e' (by rw [h5, ← h6.1]; simp)
      rw [hn] at this; simp at this

/-- The hypotheses of `C66_woken`, `C66_not_stuck` and `C66_progress` are met by a `Next` polled twice, before an item becomes
visible and is announced. -/
theorem announced : ∃ st : State Nat Nat, Reachable .checked st ∧ st.task = .next (some 0) ∧ st.log = [.sys .iterates, .nextCall,
    .pollBegin .next 0 none, .sys .exhausted, .signal (.waitMade 0), .sys .exhausted, .wokeSelf 0, .pollPending 0,
    .pollBegin .next 1 (some 0), .signal (.pollBegin 0 0), .signal (.pollChecked 0), .signal (.pollPending 0)] ++ .pollPending 1 ::
    ([.sys (.loaded [7] (some (.ok (.new 0 1 1))))] ++ .sys (.committed [7]) :: [.signal (.sendBegin 1), .signal (.sendAdd 1),
    .signal (.sendLocked 1), .signal (.woke 1 0), .signal (.sendEnd 1)]) := by
  have h := Reachable.init (T := Nat) (E := Nat) (b := .checked) 0
  have h := h.step (.segments _ _ rfl rfl)
  have h := h.step (.next _ rfl)
  have h := h.step (.nextPoll _ rfl)
  have h := h.step (.firstNone _ 0 none _ rfl rfl rfl)
  have h := h.step (.makeWait _ 0 none _ rfl rfl)
  have h := h.step (.secondNone _ 0 0 none _ rfl rfl rfl)
  have h := h.step (.notDone _ 0 0 none rfl rfl)
  have h := h.step (.nextPollWait _ 0 _ rfl (by decide) rfl)
  have h := h.step (.signal _ _ [] (.pollLoad _ 0 0 rfl rfl) rfl)
  have h := h.step (.signal _ _ [] (.pollLock _ 0 0 rfl rfl) rfl)
  have h := h.step (.signal _ _ [] (.pollInsert _ 0 0 0 rfl (by decide)) rfl)
  have h := h.step (.signal _ _ [.pollChecked 0] (.pollRecheck _ 0 0 0 rfl rfl) rfl)
  have h := h.step (.signal _ _ [.pollPending 0] (.pollUnlock _ 0 rfl) rfl)
  have h := h.step (.nextWaitPending _ 1 0 (some 0) rfl (by decide))
  have h := h.step (.loader _ load7 _ [.loaded [7] (some (.ok (.new 0 1 1)))] (.inl ⟨_, _, rfl⟩) rfl rfl)
  have h := h.step (.loader _ (.forceCommit plainEnv) _ [.committed [7]] (.inr ⟨_, rfl⟩) rfl rfl)
  have h := h.step (.signal _ _ [.sendBegin 1] (.sendBegin _) rfl)
  have h := h.step (.signal _ _ [.sendAdd 1] (.sendAdd _ 1 rfl) rfl)
  have h := h.step (.signal _ _ [.sendLocked 1] (.sendLock _ 1 rfl rfl) rfl)
  have h := h.step (.signal _ _ [.woke 1 0] (.sendWake _ 1 0 0 [] [] rfl rfl) rfl)
  have h := h.step (.signal _ _ [.sendEnd 1] (.sendEnd _ 1 rfl rfl) rfl)
  exact ⟨_, h, rfl, rfl⟩

example : ∃ st : State Nat Nat, Reachable .checked st ∧ Behind st.log ∧ Signalled st.log ∧ Woken st.log 1 := by
  obtain ⟨st, hr, ht, hl⟩ := announced
  have hb : Behind st.log := by rw [hl]; unfold Behind; decide
  have hs : Signalled st.log := by
    rw [hl, ← List.cons_append, ← List.append_assoc]
    exact signalled_one (by simp [Event.news]) (by simp [Event.news]) (s := 1) (by simp) (by simp)
  exact ⟨st, hr, hb, hs, C66_not_stuck hr ht hl (by simp [Event.own]) (.inl hb) hs (by rw [hl]; decide)⟩

/-- The hypotheses of `C64_in_order` are met. -/
example : ∃ st : State Nat Nat, ∃ pre, Reachable .checked st ∧ st.log = pre ++ .nextReady 0 (some [7]) :: [] := by
  have h := Reachable.init (T := Nat) (E := Nat) (b := .checked) 0
  have h := h.step (.loader _ load7 _ [.loaded [7] (some (.ok (.new 0 1 1)))] (.inl ⟨_, _, rfl⟩) rfl rfl)
  have h := h.step (.loader _ (.forceCommit plainEnv) _ [.committed [7]] (.inr ⟨_, rfl⟩) rfl rfl)
  have h := h.step (.segments _ _ rfl rfl)
  have h := h.step (.next _ rfl)
  have h := h.step (.nextPoll _ rfl)
  have h := h.step (.firstSome _ 0 none _ [7] rfl rfl rfl)
  exact ⟨_, [.sys (.loaded [7] (some (.ok (.new 0 1 1)))), .sys (.committed [7]), .sys .iterates, .nextCall, .pollBegin .next 0 none,
    .sys (.yielded [7])], h, rfl⟩

/-- The hypotheses of `C65_partial` and `C65_done_before` are met. -/
example : ∃ st : State Nat Nat, Reachable .checked st ∧ st.log = ([.sys .iterates, .nextCall] ++ .done :: [] ++ .pollBegin .next 0 none ::
    [.sys .exhausted, .signal (.waitMade 0), .sys .exhausted]) ++ .nextReady 0 none :: [] := by
  have h := Reachable.init (T := Nat) (E := Nat) (b := .checked) 0
  have h := h.step (.segments _ _ rfl rfl)
  have h := h.step (.next _ rfl)
  have h := h.step (.setDone _)
  have h := h.step (.nextPoll _ rfl)
  have h := h.step (.firstNone _ 0 none _ rfl rfl rfl)
  have h := h.step (.makeWait _ 0 none _ rfl rfl)
  have h := h.step (.secondNone _ 0 0 none _ rfl rfl rfl)
  have h := h.step (.isDone _ 0 0 none rfl rfl)
  exact ⟨_, h, rfl⟩

/-- The hypotheses of `C67_partial` are met. -/
example : ∃ st : State Nat Nat, Reachable .checked st ∧ st.log = [.sys (.loaded [7] (some (.ok (.new 0 1 1)))), .sys (.committed [7])] ++
    .advanceCall 1 :: ([] ++ .pollBegin .advance 0 none :: [.signal (.waitMade 0), .sys (.advanced 1 0)]) ++ .advanceReady 0 :: [] := by
  have h := Reachable.init (T := Nat) (E := Nat) (b := .checked) 0
  have h := h.step (.loader _ load7 _ [.loaded [7] (some (.ok (.new 0 1 1)))] (.inl ⟨_, _, rfl⟩) rfl rfl)
  have h := h.step (.loader _ (.forceCommit plainEnv) _ [.committed [7]] (.inr ⟨_, rfl⟩) rfl rfl)
  have h := h.step (.advance _ 1 rfl)
  have h := h.step (.advancePoll _ 1 rfl)
  have h := h.step (.advanceMakeWait _ 0 1 none _ rfl rfl)
  have h := h.step (.replace _ 0 1 (some 0) _ rfl rfl)
  have h := h.step (.advancing _ 0 0 (some 0) _ rfl rfl rfl)
  have h := h.step (.advanced _ 0 0 1 0 (some 0) _ rfl rfl rfl)
  have h := h.step (.advanceReady _ 0 0 0 (some 0) rfl (.inl rfl))
  exact ⟨_, h, rfl⟩

end Parcom.Runner
