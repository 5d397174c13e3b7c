import Verif.Props.Runner
/-!
# An `advance` that waits is woken, and gets on (C104)

`Props/Runner.lean` has the same for `next` (C66).
-/
namespace Parcom.Runner
open Parcom Spec
variable {T E : Type} {b : Build} {st : State T E}

/-! ## What led to an `Advance` waiting -/

/-- When `buffer.advance` returned nothing was left, `done_flag` was not set later, and the `i`th `Wait` was there before. -/
def Waits (log : List (Event T E)) (i : Nat) : Prop := ∃ A B, log = A ++ B ∧ (∀ e ∈ B, e.quiet = true) ∧
  .signal (.waitMade i) ∈ A ∧ availableOf A = [] ∧ .done ∉ A

def AdvancePc.Waits (log : List (Event T E)) (fut : Option Nat) (remain : Nat) : AdvancePc → Prop
  | .wait _ => ∃ i, fut = some i ∧ Runner.Waits log i ∧ remain = 0
  | .check r => ∃ i A B, fut = some i ∧ log = A ++ B ∧ (∀ e ∈ B, e.own = false) ∧ .signal (.waitMade i) ∈ A ∧ (r ≠ 0 → availableOf A = [])
  | _ => True

def Task.Waits (log : List (Event T E)) : Task → Prop
  | .advance (some i) remain => Runner.Waits log i ∧ remain = 0
  | .advancePoll _ fut remain pc => pc.Waits log fut remain
  | _ => True

theorem Waits.more {log new : List (Event T E)} {i : Nat} (h : Waits log i) (hn : ∀ e ∈ new, e.quiet = true) : Waits (log ++ new) i := by
  obtain ⟨A, B, rfl, hB, h1⟩ := h
  refine ⟨A, B ++ new, by rw [List.append_assoc], fun e he => ?_, h1⟩
  rcases List.mem_append.mp he with he | he
  · exact hB e he
  · exact hn e he

theorem Task.Waits.env {log new : List (Event T E)} {t : Task} (h : t.Waits log) (hn : ∀ e ∈ new, e.own = false) : t.Waits (log ++ new) := by
  have hq : ∀ e ∈ new, e.quiet = true := fun e he => Event.quiet_of_env (hn e he)
  cases t with
  | advance fut remain =>
    cases fut with
    | none => trivial
    | some i => exact ⟨h.1.more hq, h.2⟩
  | advancePoll k fut remain pc =>
    cases pc with
    | wait p =>
      obtain ⟨i, h1, h2, h3⟩ := h
      exact ⟨i, h1, h2.more hq, h3⟩
    | check r =>
      obtain ⟨i, A, B, h1, rfl, h2, h3⟩ := h
      refine ⟨i, A, B ++ new, h1, by rw [List.append_assoc], fun e he => ?_, h3⟩
      rcases List.mem_append.mp he with he | he
      · exact h2 e he
      · exact hn e he
    | _ => trivial
  | _ => trivial

/-- What `buffer.advance` leaves. -/
theorem advanced_leaves {sys : Loading T E} {n r : Nat} (hi : Inv b st) (he : st.sys.move b .get = Run.ret sys)
    (hl : sys.log = st.sys.log ++ [.advanced n r]) : r = n - (availableOf st.log).length ∧
      availableOf (st.log ++ [.sys (.advanced n r)]) = (availableOf st.log).drop n := by
  obtain ⟨ms, hreach⟩ := reaches_move hi.sys he
  obtain ⟨h1, h2⟩ := C58_skips (post := []) hreach hl
  rw [hi.sysLog] at h1 h2
  refine ⟨by rw [h1, availableOf, List.length_drop], ?_⟩
  rw [availableOf, sysLog_append]
  exact h2

theorem waits (h : Reachable b st) : st.task.Waits st.log := by
  induction h with
  | init c => trivial
  | @step st st' hr hs ih =>
    have hi := inv hr
    cases hs with
    | loader m sys new hm he hl =>
      obtain ⟨-, hnew⟩ := move_loader hm he hl
      refine ih.env fun e he => ?_
      obtain ⟨o, ho, rfl⟩ := List.mem_map.mp he
      rcases hnew o ho with ⟨xs, rfl⟩ | ⟨t, r, rfl⟩ <;> rfl
    | setDone => exact ih.env (by simp [Event.own])
    | signal signal new hstep hl =>
      refine ih.env fun e he => ?_
      obtain ⟨o, -, rfl⟩ := List.mem_map.mp he
      rfl
    | advancePollWait i remain signal ht hlt hsig =>
      rw [ht] at ih
      exact ⟨i, rfl, ih.1.more (by simp [Event.quiet]), ih.2⟩
    | advanceWaitPending k p remain fut ht hp =>
      rw [ht] at ih
      obtain ⟨i, rfl, h1, h2⟩ := ih
      exact ⟨h1.more (by simp [Event.quiet]), h2⟩
    | advancing k remain fut sys ht he hl =>
      simp only [ht]
      trivial
    | advanced k remain n r fut sys ht he hl =>
      have hh := hist hr
      rw [ht] at hh
      obtain ⟨-, i, h1, h2⟩ := hh
      refine ⟨i, st.log ++ [.sys (.advanced n r)], [], h1, by simp, by simp, List.mem_append_left _ h2, fun hr => ?_⟩
      obtain ⟨h3, h4⟩ := advanced_leaves hi he hl
      rw [h4, List.drop_eq_nil_iff]
      omega
    | advancePending k remain r fut ht hne hd =>
      rw [ht] at ih
      have ha := adv hr
      rw [ht] at ha
      have hz : remain = 0 := ha.2
      subst hz
      obtain ⟨i, A, B, rfl, h1, h2, h3, h4⟩ := ih
      have hnd : .done ∉ st.log := by rw [← hi.done]; simp [hd]
      refine ⟨⟨A, B ++ [.wokeSelf k, .pollPending k], ?_, ?_, h3, h4 hne, ?_⟩, rfl⟩
      · show st.log ++ _ = _
        rw [h1, List.append_assoc]
      · intro x hx
        rcases List.mem_append.mp hx with hx | hx
        · exact Event.quiet_of_env (h2 x hx)
        · simp at hx
          rcases hx with rfl | rfl <;> rfl
      · intro hd'
        exact hnd (by rw [h1]; exact List.mem_append_left _ hd')
    | _ => trivial

/-- What has to be told to an `Advance` that waits happened after it looked. -/
theorem advance_news (h : Reachable b st) {i : Nat} (ha : Waits st.log i) (hn : availableOf st.log ≠ [] ∨ .done ∈ st.log)
    (hs : Signalled st.log) :
    ∃ A B s, st.log = A ++ B ∧ .signal (.waitMade i) ∈ A ∧ .signal (.sendBegin s) ∈ B ∧ .signal (.sendEnd s) ∈ B := by
  obtain ⟨A, B, hl, hB, h1, h2, h3⟩ := ha
  have hev : ∃ e ∈ B, e.news = true := by
    rcases hn with hn | hn
    · have hc : ∃ xs, .sys (.committed xs) ∈ B := by
        apply Classical.byContradiction
        intro hno
        have := available_grows h (C := []) (by rw [hl, List.append_nil]) (consumedOf_quiet hB)
        rw [committedOf_nil fun xs hm => hno ⟨xs, hm⟩, List.append_nil, h2] at this
        exact hn (by rw [hl, this])
      obtain ⟨xs, hc⟩ := hc
      exact ⟨_, hc, rfl⟩
    · refine ⟨.done, ?_, rfl⟩
      rw [hl] at hn
      exact (List.mem_append.mp hn).resolve_left h3
  obtain ⟨e, he, hnews⟩ := hev
  obtain ⟨b₁, b₂, rfl⟩ := List.append_of_mem he
  obtain ⟨s, hs1, hs2⟩ := hs (A ++ b₁) e b₂ (by rw [hl]; simp) hnews
  exact ⟨A, b₁ ++ e :: b₂, s, hl, h1, by simp [hs1], by simp [hs2]⟩

/-- C104: an `Advance` is never asleep for ever. If its last poll returned `Pending` although there are items behind the position
of the sequence, or the end was reached, then it has been woken, as soon as what was made visible was followed by a `send`.
It does not matter when during the poll the items were made visible. -/
theorem C104_not_stuck (h : Reachable b st) {pre post : List (Event T E)} {k remain : Nat} {fut : Option Nat}
    (ht : st.task = .advance fut remain) (hl : st.log = pre ++ .pollPending k :: post) (hpost : ∀ e ∈ post, e.own = false)
    (hn : availableOf st.log ≠ [] ∨ .done ∈ st.log) (hs : Signalled st.log) (hfew : Notify.adds (signalLog st.log) < Notify.wrap) :
    Woken st.log k := by
  have hi := inv h
  have hlast : lastOwn st.log = some (.pollPending k) := by rw [hl]; exact lastOwn_split rfl hpost
  have hh := hist h
  have hw := waits h
  rw [ht] at hh hw
  cases fut with
  | none => exact absurd hlast (hh k)
  | some i =>
    obtain ⟨f, k', A, B, h1, hB, h2, h3⟩ := hh
    obtain ⟨rfl, hk, rfl⟩ := split_unique (p := Event.own) rfl rfl hpost hB (hl.symm.trans h1)
    injection hk with hk
    subst hk
    have hmem : ∀ {e : Event T E}, e ∈ pre → e ∈ st.log := fun hm => by rw [hl]; simp [hm]
    rcases h3 with h3 | ⟨p, h3, h4, h5⟩
    · exact .inl (hmem h3)
    · obtain ⟨A, B, s, hAB, h6, h7, h8⟩ := advance_news h hw.1 hn hs
      obtain ⟨a, c, hac⟩ := List.append_of_mem (mem_signalLog.mpr h6)
      have hsplit : st.signal.log = a ++ .waitMade i :: (c ++ signalLog B) := by
        rw [hi.signalLog, hAB, signalLog_append, hac]; simp
      have hfew' : Notify.adds (c ++ signalLog B) < Notify.wrap := by
        rw [← hi.signalLog, hsplit, Notify.adds_append, Notify.adds_cons] at hfew
        omega
      have hsig : ∀ {e : Notify.Event}, .signal e ∈ st.log → e ∈ st.signal.log := fun hm => by rw [hi.signalLog]; exact mem_signalLog.mpr hm
      obtain ⟨c', hw⟩ := Notify.C47_no_lost_wakeup hi.signal hsplit (hsig (hmem h4)) (hsig (hmem h5))
        (List.mem_append_right _ (mem_signalLog.mpr h7)) (hsig (by rw [hAB]; simp [h8])) hfew'
      exact .inr ⟨f, p, c', hmem h3, mem_signalLog.mp (by rw [← hi.signalLog]; exact hw)⟩

/-! ## The next poll -/

/-- The poll will not return `Pending`: the end was reached, or what is still to be skipped is there. -/
def Enough (st : State T E) (remain : Nat) (pc : AdvancePc) : Prop := .done ∈ st.log ∨ match pc with
  | .wait _ => False
  | .makeWait => remain ≤ (availableOf st.log).length
  | .replace => remain ≤ (availableOf st.log).length
  | .advancing => ∃ n m c, st.sys.reader = .advancing n m c ∧ n ≤ (availableOf st.log).length
  | .check r => r = 0

/-- From `st` on the next poll of its `Advance` is still to come, under way, or over. -/
inductive GoesOn (st : State T E) (fut : Option Nat) (remain : Nat) (st' : State T E) : Prop where
  | before (B : List (Event T E)) : st'.task = .advance fut remain → st'.polls = st.polls → st'.log = st.log ++ B →
      (∀ e ∈ B, e.own = false) → GoesOn st fut remain st'
  | waiting (p i s : Nat) (m₁ m₂ m₃ m₄ : List Notify.Event) : st'.task = .advancePoll st.polls fut 0 (.wait p) →
      st'.signal.log = m₁ ++ .waitMade i :: m₂ ++ .sendAdd s :: m₃ ++ .pollBegin p i :: m₄ → GoesOn st fut remain st'
  | going (fut' : Option Nat) (remain' : Nat) (pc : AdvancePc) : st'.task = .advancePoll st.polls fut' remain' pc → (∀ p, pc ≠ .wait p) →
      Enough st' remain' pc → GoesOn st fut remain st'
  | over : st.polls < st'.polls → (∀ fut pc, st'.task ≠ .nextPoll st.polls fut pc) →
      (∀ fut remain pc, st'.task ≠ .advancePoll st.polls fut remain pc) → GoesOn st fut remain st'

theorem available_more (h : Reachable b st) {A B : List (Event T E)} (hl : st.log = A ++ B) (hq : ∀ e ∈ B, e.own = false) :
    (availableOf A).length ≤ (availableOf st.log).length := by
  have := available_grows h (C := []) (by rw [hl, List.append_nil]) (consumedOf_quiet fun e he => Event.quiet_of_env (hq e he))
  rw [hl, this, List.length_append]
  omega

/-- A step of somebody else. -/
theorem GoesOn.env {st st' st'' : State T E} {fut : Option Nat} {remain : Nat} (h : GoesOn st fut remain st') (hr : Reachable b st'')
    {new : List (Event T E)} (ht : st''.task = st'.task) (hrd : st''.sys.reader = st'.sys.reader) (hp : st''.polls = st'.polls)
    (hl : st''.log = st'.log ++ new) (hn : ∀ e ∈ new, e.own = false) {more : List Notify.Event}
    (hs : st''.signal.log = st'.signal.log ++ more) : GoesOn st fut remain st'' := by
  cases h with
  | before B h1 h2 h3 h4 =>
    refine .before (B ++ new) (ht.trans h1) (hp.trans h2) (by rw [hl, h3]; simp) fun e he => ?_
    rcases List.mem_append.mp he with he | he
    · exact h4 e he
    · exact hn e he
  | waiting p i s m₁ m₂ m₃ m₄ h1 h2 => exact .waiting p i s m₁ m₂ m₃ (m₄ ++ more) (ht.trans h1) (by rw [hs, h2]; simp)
  | going fut' remain' pc h1 h2 h3 =>
    refine .going fut' remain' pc (ht.trans h1) h2 ?_
    have hle := available_more hr hl hn
    rcases h3 with h3 | h3
    · exact .inl (by rw [hl]; exact List.mem_append_left _ h3)
    · right
      cases pc with
      | wait p => exact h3
      | makeWait | replace => exact Nat.le_trans h3 hle
      | advancing =>
        obtain ⟨n, m, c, h4, h5⟩ := h3
        exact ⟨n, m, c, hrd.trans h4, Nat.le_trans h5 hle⟩
      | check r => exact h3
  | over h1 h2 h3 => exact .over (by rw [hp]; exact h1) (by rw [ht]; exact h2) (by rw [ht]; exact h3)

/-- What the next poll needs. -/
def Due (log : List (Event T E)) : Option Nat → Nat → Prop
  | some _, _ => (availableOf log ≠ [] ∨ .done ∈ log) ∧ Signalled log
  | none, n => n ≤ (availableOf log).length ∨ .done ∈ log

theorem goesOn_step {st st' st'' : State T E} {fut : Option Nat} {remain : Nat} (h₀ : Reachable b st) (ht₀ : st.task = .advance fut remain)
    (hdue : Due st.log fut remain) (h : Reachable b st') (hg : GoesOn st fut remain st') (hs : Step b st' st'')
    (hfew : Notify.adds (signalLog st'.log) < Notify.wrap) {new : List (Event T E)} (hl : st''.log = st'.log ++ new) :
    GoesOn st fut remain st'' ∧ .pollPending st.polls ∉ new := by
  have hi := inv h
  have hr'' : Reachable b st'' := .step h hs
  have henv : ∀ {log : List (Event T E)}, (∀ e ∈ log, e.own = false) → .pollPending st.polls ∉ log := by
    intro log ho hm
    simpa [Event.own] using ho _ hm
  cases hs with
  | loader m sys new' hm he hl' =>
    replace hl := List.append_cancel_left hl
    obtain ⟨hrd, hnew⟩ := move_loader hm he hl'
    have hown : ∀ e ∈ new, e.own = false := by
      rw [← hl]
      intro e he
      obtain ⟨o, ho, rfl⟩ := List.mem_map.mp he
      rcases hnew o ho with ⟨xs, rfl⟩ | ⟨t, r, rfl⟩ <;> rfl
    exact ⟨hg.env hr'' rfl hrd rfl (by rw [← hl]) hown (more := []) (by simp), henv hown⟩
  | setDone =>
    replace hl := List.append_cancel_left hl
    have hown : ∀ e ∈ new, e.own = false := by rw [← hl]; simp [Event.own]
    exact ⟨hg.env hr'' rfl rfl rfl (by rw [← hl]) hown (more := []) (by simp), henv hown⟩
  | signal signal new' hstep hl' =>
    replace hl := List.append_cancel_left hl
    have hown : ∀ e ∈ new, e.own = false := by
      rw [← hl]
      intro e he
      obtain ⟨o, -, rfl⟩ := List.mem_map.mp he
      rfl
    exact ⟨hg.env hr'' rfl rfl rfl (by rw [← hl]) hown hl', henv hown⟩
  | advancePoll remain' ht =>
    replace hl := List.append_cancel_left hl
    refine ⟨?_, by rw [← hl]; simp⟩
    cases hg with
    | before B h1 h2 h3 h4 =>
      rw [ht] at h1
      injection h1 with h1 h1'
      subst h1 h1'
      refine .going none remain' .makeWait (by rw [← h2]) (by simp) ?_
      rcases hdue with hd | hd
      · refine .inr (Nat.le_trans hd ?_)
        have h5 := available_more h h3 h4
        have h6 := available_grows hr'' (A := st'.log) (B := [.pollBegin .advance st'.polls none]) (C := []) (by simp) rfl
        show _ ≤ (availableOf (st'.log ++ [_])).length
        rw [h6, List.length_append]
        omega
      · exact .inl (by simp [h3, hd])
    | waiting _ _ _ _ _ _ _ h1 => rw [ht] at h1; simp at h1
    | going _ _ _ h1 => rw [ht] at h1; simp at h1
    | over h1 h2 h3 => exact .over (Nat.lt_succ_of_lt h1) (by simp) (by simp; omega)
  | advancePollWait i remain' signal ht hlt hsg =>
    replace hl := List.append_cancel_left hl
    refine ⟨?_, by rw [← hl]; simp⟩
    cases hg with
    | before B h1 h2 h3 h4 =>
      rw [ht] at h1
      injection h1 with h1 h1'
      subst h1 h1'
      have hw := waits h₀
      rw [ht₀] at hw
      obtain ⟨hw, hz⟩ := hw
      subst hz
      obtain ⟨A, C, s, h5, h6, h7, h8⟩ := advance_news h₀ hw hdue.1 hdue.2
      have hi₀ := inv h₀
      -- the increment comes after the `Wait`
      have hadd : .sendAdd s ∈ signalLog C := by
        have h9 := ((Notify.calls hi₀.signal).sendEnd s (by rw [hi₀.signalLog, mem_signalLog, h5]; simp [h8])).2.1
        rw [hi₀.signalLog, h5, signalLog_append] at h9
        refine (List.mem_append.mp h9).resolve_left fun h10 => ?_
        obtain ⟨x, y, hxy⟩ := List.append_of_mem (mem_signalLog.mpr h7)
        exact (Notify.order hi₀.signal).send s (signalLog A ++ x) (.sendBegin s :: y)
          (by rw [hi₀.signalLog, h5, signalLog_append, hxy]; simp) (by simp [h10]) (by simp)
      obtain ⟨a₁, a₂, ha⟩ := List.append_of_mem (mem_signalLog.mpr h6)
      obtain ⟨c₁, c₂, hc⟩ := List.append_of_mem hadd
      refine .waiting st'.signal.calls i s a₁ (a₂ ++ c₁) (c₂ ++ signalLog B) [] (by rw [← h2]) ?_
      rw [hsg]
      show st'.signal.log ++ [_] = _
      rw [hi.signalLog, h3, h5, signalLog_append, signalLog_append, ha, hc]
      simp
    | waiting _ _ _ _ _ _ _ h1 => rw [ht] at h1; simp at h1
    | going _ _ _ h1 => rw [ht] at h1; simp at h1
    | over h1 h2 h3 => exact .over (Nat.lt_succ_of_lt h1) (by simp) (by simp; omega)
  | advanceWaitReady k p remain' fut' ht hp =>
    have hl : new = [] := by simpa using hl
    subst hl
    refine ⟨?_, by simp⟩
    cases hg with
    | waiting p' i s m₁ m₂ m₃ m₄ h1 h2 =>
      rw [ht] at h1
      simp at h1
      obtain ⟨rfl, rfl, rfl, rfl⟩ := h1
      exact .going fut' 0 .makeWait rfl (by simp) (.inr (Nat.zero_le _))
    | before _ h1 => rw [ht] at h1; simp at h1
    | going _ _ pc h1 h2 => rw [ht] at h1; simp at h1; exact absurd h1.2.2.2.symm (h2 p)
    | over h1 h2 h3 =>
      have : st.polls ≠ k := fun e => h3 fut' remain' (.wait p) (by rw [ht, e])
      exact .over h1 (by simp) (by simp; omega)
  | advanceWaitPending k p remain' fut' ht hp =>
    replace hl := List.append_cancel_left hl
    cases hg with
    | waiting p' i s m₁ m₂ m₃ m₄ h1 h4 =>
      rw [ht] at h1
      simp at h1
      obtain ⟨rfl, rfl, rfl, rfl⟩ := h1
      refine absurd hp (Notify.C49_ready_after_send hi.signal h4 ?_)
      rw [← hi.signalLog, h4] at hfew
      have e : m₁ ++ .waitMade i :: m₂ ++ .sendAdd s :: m₃ ++ .pollBegin p i :: m₄ =
        m₁ ++ [.waitMade i] ++ (m₂ ++ .sendAdd s :: m₃ ++ .pollBegin p i :: m₄) := by simp
      rw [e, Notify.adds_append] at hfew
      omega
    | before _ h1 => rw [ht] at h1; simp at h1
    | going _ _ pc h1 h2 => rw [ht] at h1; simp at h1; exact absurd h1.2.2.2.symm (h2 p)
    | over h1 h2 h3 =>
      have : st.polls ≠ k := fun e => h3 fut' remain' (.wait p) (by rw [ht, e])
      exact ⟨.over h1 (by simp) (by simp), by rw [← hl]; simp; omega⟩
  | advanceMakeWait k remain' fut' signal ht hsg =>
    replace hl := List.append_cancel_left hl
    refine ⟨?_, by rw [← hl]; simp⟩
    cases hg with
    | going f r pc h1 h2 h3 =>
      rw [ht] at h1
      simp at h1
      obtain ⟨rfl, rfl, rfl, rfl⟩ := h1
      refine .going _ _ _ rfl (by simp) ?_
      rcases h3 with h3 | h3
      · exact .inl (by simp [h3])
      · exact .inr (Nat.le_trans h3 (available_more hr'' rfl (by simp [Event.own])))
    | before _ h1 => rw [ht] at h1; simp at h1
    | waiting _ _ _ _ _ _ _ h1 => rw [ht] at h1; simp at h1
    | over h1 h2 h3 =>
      have : st.polls ≠ k := fun e => h3 fut' remain' .makeWait (by rw [ht, e])
      exact .over h1 (by simp) (by simp; omega)
  | replace k remain' fut' sys ht he =>
    have hl : new = [] := by simpa using hl
    subst hl
    refine ⟨?_, by simp⟩
    cases hg with
    | going f r pc h1 h2 h3 =>
      rw [ht] at h1
      simp at h1
      obtain ⟨rfl, rfl, rfl, rfl⟩ := h1
      refine .going _ _ _ rfl (by simp) ?_
      rcases h3 with h3 | h3
      · exact .inl h3
      · right
        have hfits := hi.fits
        rw [ht] at hfits
        have hfits : st'.sys.reader = .idle := hfits
        simp only [Loading.move, hfits, Run.pure_eq_ret] at he
        subst he
        exact ⟨_, _, _, rfl, h3⟩
    | before _ h1 => rw [ht] at h1; simp at h1
    | waiting _ _ _ _ _ _ _ h1 => rw [ht] at h1; simp at h1
    | over h1 h2 h3 =>
      have : st.polls ≠ k := fun e => h3 fut' remain' .replace (by rw [ht, e])
      exact .over h1 (by simp) (by simp; omega)
  | advancing k remain' fut' sys ht he hl' =>
    have hl : new = [] := by simpa using hl
    subst hl
    refine ⟨?_, by simp⟩
    cases hg with
    | going f r pc h1 h2 h3 =>
      have h1' := h1
      rw [ht] at h1
      simp at h1
      obtain ⟨rfl, rfl, rfl, rfl⟩ := h1
      refine .going _ _ .advancing h1' (by simp) ?_
      rcases h3 with h3 | ⟨n, m, c, h4, h5⟩
      · exact .inl h3
      · right
        rcases move_get h4 he with ⟨⟨r', c', hr⟩, -⟩ | ⟨-, r', hl''⟩
        · exact ⟨_, _, _, hr, h5⟩
        · rw [hl'] at hl''
          simp at hl''
    | before _ h1 => rw [ht] at h1; simp at h1
    | waiting _ _ _ _ _ _ _ h1 => rw [ht] at h1; simp at h1
    | over h1 h2 h3 => exact .over h1 h2 h3
  | advanced k remain' n r fut' sys ht he hl' =>
    replace hl := List.append_cancel_left hl
    refine ⟨?_, by rw [← hl]; simp⟩
    cases hg with
    | going f r' pc h1 h2 h3 =>
      rw [ht] at h1
      simp at h1
      obtain ⟨rfl, rfl, rfl, rfl⟩ := h1
      refine .going _ _ _ rfl (by simp) ?_
      rcases h3 with h3 | ⟨n', m, c, h4, h5⟩
      · exact .inl (by simp [h3])
      · right
        show r = 0
        have h6 := (advanced_leaves hi he hl').1
        rcases move_get h4 he with ⟨-, hl''⟩ | ⟨-, r', hl''⟩
        · rw [hl'] at hl''
          simp at hl''
        · rw [hl'] at hl''
          simp at hl''
          omega
    | before _ h1 => rw [ht] at h1; simp at h1
    | waiting _ _ _ _ _ _ _ h1 => rw [ht] at h1; simp at h1
    | over h1 h2 h3 =>
      have : st.polls ≠ k := fun e => h3 fut' remain' .advancing (by rw [ht, e])
      exact .over h1 (by simp) (by simp; omega)
  | advanceReady k remain' r fut' ht hd =>
    replace hl := List.append_cancel_left hl
    refine ⟨.over ?_ (by simp) (by simp), by rw [← hl]; simp⟩
    have hk := (numbered h).advance k fut' remain' _ ht
    show st.polls < st'.polls
    cases hg with
    | going _ _ _ h1 => rw [ht] at h1; simp at h1; omega
    | over h1 => exact h1
    | before _ h1 => rw [ht] at h1; simp at h1
    | waiting _ _ _ _ _ _ _ h1 => rw [ht] at h1; simp at h1
  | advancePending k remain' r fut' ht hne hd =>
    replace hl := List.append_cancel_left hl
    cases hg with
    | going f r' pc h1 h2 h3 =>
      exfalso
      have ha := adv h
      rw [ht] at h1 ha
      simp at h1
      obtain ⟨rfl, rfl, rfl, rfl⟩ := h1
      rcases h3 with h3 | h3
      · rw [hi.done.mpr h3] at hd; simp at hd
      · exact hne (h3.trans ha.2.symm)
    | before _ h1 => rw [ht] at h1; simp at h1
    | waiting _ _ _ _ _ _ _ h1 => rw [ht] at h1; simp at h1
    | over h1 h2 h3 =>
      have : st.polls ≠ k := fun e => h3 fut' remain' (.check r) (by rw [ht, e])
      exact ⟨.over h1 (by simp) (by simp), by rw [← hl]; simp; omega⟩
  | _ =>
    first | replace hl := List.append_cancel_left hl | (have hl : [] = new := by simpa using hl)
    cases hg with
    | over h1 h2 h3 =>
      subst hl
      refine ⟨.over (by simp; omega) ?_ ?_, ?_⟩ <;> grind
    | _ => simp_all

theorem goesOn (h : Reachable b st) {fut : Option Nat} {remain : Nat} (ht : st.task = .advance fut remain) (hdue : Due st.log fut remain)
    {st' : State T E} (hs : Steps b st st') (hfew : Notify.adds (signalLog st'.log) < Notify.wrap) : .pollPending st.polls ∉ st'.log := by
  have key : ∀ st', Steps b st st' → Notify.adds (signalLog st'.log) < Notify.wrap →
      Reachable b st' ∧ GoesOn st fut remain st' ∧ .pollPending st.polls ∉ st'.log := by
    intro st' hs
    induction hs with
    | refl => exact fun _ => ⟨h, .before [] ht rfl (by simp) (by simp), fun hp => Nat.lt_irrefl _ ((numbered h).pending _ hp)⟩
    | @step st₁ st₂ hs hstep ih =>
      intro hfew
      obtain ⟨new, hl⟩ := step_log hstep
      rw [hl, signalLog_append, Notify.adds_append] at hfew
      have hfew₁ : Notify.adds (signalLog st₁.log) < Notify.wrap := by omega
      obtain ⟨h1, h2, h3⟩ := ih hfew₁
      obtain ⟨h4, h5⟩ := goesOn_step h ht hdue h1 h2 hstep hfew₁ hl
      exact ⟨.step h1 hstep, h4, by rw [hl]; simp [h3, h5]⟩
  exact (key st' hs hfew).2.2

/-- C104: and then it gets on. If an `Advance` has returned `Pending`, there are items behind the position of the sequence, or the end
was reached, and that was followed by a `send`, then its next poll does not return `Pending`, whatever happens meanwhile. -/
theorem C104_progress (h : Reachable b st) {i remain : Nat} (ht : st.task = .advance (some i) remain)
    (hn : availableOf st.log ≠ [] ∨ .done ∈ st.log) (hsig : Signalled st.log) {st' : State T E} (hs : Steps b st st')
    (hfew : Notify.adds (signalLog st'.log) < Notify.wrap) : .pollPending st.polls ∉ st'.log :=
  goesOn h ht ⟨hn, hsig⟩ hs hfew

/-- C104: the first poll of `advance(n)` does not return `Pending` if there are `n` items, or the end was reached, before it begins. -/
theorem C104_first (h : Reachable b st) {n : Nat} (ht : st.task = .advance none n)
    (hn : n ≤ (availableOf st.log).length ∨ .done ∈ st.log) {st' : State T E} (hs : Steps b st st')
    (hfew : Notify.adds (signalLog st'.log) < Notify.wrap) : .pollPending st.polls ∉ st'.log :=
  goesOn h ht hn hs hfew

/-- The hypotheses of `C104_not_stuck` and `C104_progress` are met by an `Advance` polled twice, before an item becomes visible and
is announced. -/
theorem advance_announced : ∃ st : State Nat Nat, Reachable .checked st ∧ st.task = .advance (some 0) 0 ∧ st.log = [.advanceCall 1,
    .pollBegin .advance 0 none, .signal (.waitMade 0), .sys (.advanced 1 1), .wokeSelf 0, .pollPending 0,
    .pollBegin .advance 1 (some 0), .signal (.pollBegin 0 0), .signal (.pollChecked 0), .signal (.pollPending 0)] ++ .pollPending 1 ::
    ([.sys (.loaded [7] (some (.ok (.new 0 1 1))))] ++ .sys (.committed [7]) :: [.signal (.sendBegin 1), .signal (.sendAdd 1),
    .signal (.sendLocked 1), .signal (.woke 1 0), .signal (.sendEnd 1)]) := by
  have h := Reachable.init (T := Nat) (E := Nat) (b := .checked) 0
  have h := h.step (.advance _ 1 rfl)
  have h := h.step (.advancePoll _ 1 rfl)
  have h := h.step (.advanceMakeWait _ 0 1 none _ rfl rfl)
  have h := h.step (.replace _ 0 1 (some 0) _ rfl rfl)
  have h := h.step (.advanced _ 0 0 1 1 (some 0) _ rfl rfl rfl)
  have h := h.step (.advancePending _ 0 0 1 (some 0) rfl (by decide) rfl)
  have h := h.step (.advancePollWait _ 0 0 _ rfl (by decide) rfl)
  have h := h.step (.signal _ _ [] (.pollLoad _ 0 0 rfl rfl) rfl)
  have h := h.step (.signal _ _ [] (.pollLock _ 0 0 rfl rfl) rfl)
  have h := h.step (.signal _ _ [] (.pollInsert _ 0 0 0 rfl (by decide)) rfl)
  have h := h.step (.signal _ _ [.pollChecked 0] (.pollRecheck _ 0 0 0 rfl rfl) rfl)
  have h := h.step (.signal _ _ [.pollPending 0] (.pollUnlock _ 0 rfl) rfl)
  have h := h.step (.advanceWaitPending _ 1 0 0 (some 0) rfl (by decide))
  have h := h.step (.loader _ load7 _ [.loaded [7] (some (.ok (.new 0 1 1)))] (.inl ⟨_, _, rfl⟩) rfl rfl)
  have h := h.step (.loader _ (.forceCommit plainEnv) _ [.committed [7]] (.inr ⟨_, rfl⟩) rfl rfl)
  have h := h.step (.signal _ _ [.sendBegin 1] (.sendBegin _) rfl)
  have h := h.step (.signal _ _ [.sendAdd 1] (.sendAdd _ 1 rfl) rfl)
  have h := h.step (.signal _ _ [.sendLocked 1] (.sendLock _ 1 rfl rfl) rfl)
  have h := h.step (.signal _ _ [.woke 1 0] (.sendWake _ 1 0 0 [] [] rfl rfl) rfl)
  have h := h.step (.signal _ _ [.sendEnd 1] (.sendEnd _ 1 rfl rfl) rfl)
  exact ⟨_, h, rfl, rfl⟩

example : ∃ st : State Nat Nat, Reachable .checked st ∧ availableOf st.log ≠ [] ∧ Signalled st.log ∧ Woken st.log 1 ∧
    ∀ st', Steps .checked st st' → Notify.adds (signalLog st'.log) < Notify.wrap → .pollPending st.polls ∉ st'.log := by
  obtain ⟨st, hr, ht, hl⟩ := advance_announced
  have hb : availableOf st.log ≠ [] := by rw [hl]; decide
  have hs : Signalled st.log := by
    rw [hl, ← List.cons_append, ← List.append_assoc]
    exact signalled_one (by simp [Event.news]) (by simp [Event.news]) (s := 1) (by simp) (by simp)
  exact ⟨st, hr, hb, hs, C104_not_stuck hr ht hl (by simp [Event.own]) (.inl hb) hs (by rw [hl]; decide),
    fun st' => C104_progress hr ht (.inl hb) hs⟩

/-- The hypotheses of `C104_first` are met: an item is there before `advance(1)` is called. -/
example : ∃ st : State Nat Nat, Reachable .checked st ∧ st.task = .advance none 1 ∧ 1 ≤ (availableOf st.log).length := by
  have h := Reachable.init (T := Nat) (E := Nat) (b := .checked) 0
  have h := h.step (.loader _ load7 _ [.loaded [7] (some (.ok (.new 0 1 1)))] (.inl ⟨_, _, rfl⟩) rfl rfl)
  have h := h.step (.loader _ (.forceCommit plainEnv) _ [.committed [7]] (.inr ⟨_, rfl⟩) rfl rfl)
  have h := h.step (.advance _ 1 rfl)
  exact ⟨_, h, rfl, by decide⟩

end Parcom.Runner
