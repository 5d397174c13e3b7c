import Verif.Spec.Spinning
import Verif.Props.Runner
/-!
# C124: waiting for input does not spin
-/
namespace Parcom.Notify

/-- How often the mutex was taken by a call of `send`. -/
def locks (log : List Event) : Nat := log.countP fun
  | .sendLocked _ => true
  | _ => false

theorem locks_append (l₁ l₂ : List Event) : locks (l₁ ++ l₂) = locks l₁ + locks l₂ := List.countP_append

/-- How many calls of `send` have begun. -/
def begins (log : List Event) : Nat := log.countP fun
  | .sendBegin _ => true
  | _ => false

theorem begins_append (l₁ l₂ : List Event) : begins (l₁ ++ l₂) = begins l₁ + begins l₂ := List.countP_append

/-- How many of the first `n` calls are at such a place. -/
def inState (pc : Nat → Pc) (q : Pc → Bool) (n : Nat) : Nat := (List.range n).countP fun c => q (pc c)

theorem inState_same {pc pc' : Nat → Pc} {q : Pc → Bool} {n : Nat} (h : ∀ c, c < n → q (pc' c) = q (pc c)) :
    inState pc' q n = inState pc q n := by
  induction n with
  | zero => rfl
  | succ n ih =>
    rw [inState, inState, List.range_succ, List.countP_append, List.countP_append]
    have := ih fun c hc => h c (by omega)
    rw [inState, inState] at this
    rw [this]
    simp [h n (by omega)]

theorem inState_succ {pc : Nat → Pc} {q : Pc → Bool} {n : Nat} : inState pc q (n + 1) = inState pc q n + if q (pc n) then 1 else 0 := by
  rw [inState, inState, List.range_succ, List.countP_append]
  simp [List.countP_cons]

theorem inState_goto {pc : Nat → Pc} {q : Pc → Bool} {n c : Nat} {x : Pc} (hc : c < n) :
    inState (fun d => if d = c then x else pc d) q n + (if q (pc c) then 1 else 0) = inState pc q n + if q x then 1 else 0 := by
  induction n with
  | zero => omega
  | succ n ih =>
    rw [inState_succ, inState_succ]
    by_cases h : c = n
    · subst h
      rw [inState_same (pc := pc)]
      · simp; omega
      · intro d hd
        simp [show d ≠ c by omega]
    · have := ih (by omega)
      rw [if_neg (show n ≠ c by omega)]
      omega

def Pc.atAdd : Pc → Bool
  | .sendAdd => true
  | _ => false

def Pc.atLock : Pc → Bool
  | .sendAdd => true
  | .sendLock => true
  | _ => false

/-- Every `send` increments the version, and takes the mutex, at most once. -/
theorem send_once {st : State} (h : Reachable st) :
    adds st.log + inState st.pc Pc.atAdd st.calls = begins st.log ∧ locks st.log + inState st.pc Pc.atLock st.calls = begins st.log := by
  induction h with
  | init => exact ⟨rfl, rfl⟩
  | @step st st' hr hs ih =>
    have hc := calls hr
    have old : ∀ c, st.pc c ≠ .absent → c < st.calls := fun c h => Nat.lt_of_not_le fun hle => h (hc.fresh c hle)
    have fresh := hc.fresh st.calls (Nat.le_refl _)
    obtain ⟨h1, h2⟩ := ih
    cases hs with
    | sendBegin =>
      simp only [State.emit, State.goto, adds_append, locks_append, begins_append, inState_succ, ite_true]
      rw [inState_same (pc := st.pc) (q := Pc.atAdd), inState_same (pc := st.pc) (q := Pc.atLock)]
      · simp [adds, locks, begins, Pc.atAdd, Pc.atLock] at *
        omega
      all_goals intro c hlt; simp [show c ≠ st.calls by omega]
    | pollBegin i hi =>
      simp only [State.emit, State.goto, adds_append, locks_append, begins_append, inState_succ, ite_true]
      rw [inState_same (pc := st.pc) (q := Pc.atAdd), inState_same (pc := st.pc) (q := Pc.atLock)]
      · simp [adds, locks, begins, Pc.atAdd, Pc.atLock] at *
        omega
      all_goals intro c hlt; simp [show c ≠ st.calls by omega]
    | wait =>
      simp only [State.emit, adds_append, locks_append, begins_append]
      simp [adds, locks, begins] at *
      omega
    | sendWake c key p pre post hpc hsl =>
      simp only [State.emit, adds_append, locks_append, begins_append]
      simp [adds, locks, begins] at *
      omega
    | sendAdd c hpc | sendLock c hpc hlock | sendEnd c hpc hsl | pollLoadReady c i hpc hv | pollLoad c i hpc hv | pollLock c i hpc hv
      | pollInsert c i key hpc hv | pollRecheckReady c i key hpc hv | pollRecheck c i key hpc hv | pollRemove c key hpc | pollUnlock c hpc =>
      have hlt : c < st.calls := old c (by rw [hpc]; simp)
      simp only [State.emit, State.goto, adds_append, locks_append, begins_append]
      refine ⟨Nat.add_right_cancel (m := if Pc.atAdd (st.pc c) then 1 else 0) ?_, Nat.add_right_cancel (m := if Pc.atLock (st.pc c) then 1 else 0) ?_⟩
      all_goals
        rw [Nat.add_assoc, inState_goto hlt]
        simp only [hpc, Pc.atAdd, Pc.atLock, Bool.false_eq_true, if_false, if_true]
        simp [adds, locks, begins] at *
        omega

/-- A call of `send` incremented the version after the `i`th `Wait` was made. -/
def Added (log : List Event) (i : Nat) : Prop := ∃ l₁ s l₂, log = l₁ ++ .waitMade i :: l₂ ∧ .sendAdd s ∈ l₂

theorem Added.more {log new : List Event} {i : Nat} (h : Added (log ++ new) i) : Added log i ∨ 0 < adds new := by
  obtain ⟨l₁, s, l₂, he, hs⟩ := h
  rcases List.append_eq_append_iff.mp he with ⟨a, h1, h2⟩ | ⟨a, h1, h2⟩
  · exact .inr (adds_mem (s := s) (by rw [h2]; simp [hs]))
  · cases a with
    | nil => simp at h2; exact .inr (adds_mem (s := s) (by rw [← h2]; simp [hs]))
    | cons x a =>
      simp at h2
      rw [h2.2] at hs
      rcases List.mem_append.mp hs with hs | hs
      · exact .inl ⟨l₁, s, a, by rw [h1, h2.1], hs⟩
      · exact .inr (adds_mem hs)

open Classical in
/-- 1 if so. -/
noncomputable def added (log : List Event) (i : Nat) : Nat := if Added log i then 1 else 0

theorem added_le {log : List Event} {i : Nat} : added log i ≤ 1 := by
  unfold added; split <;> omega

theorem added_more {log new : List Event} {i : Nat} : added (log ++ new) i ≤ added log i + adds new := by
  unfold added
  split
  · next h =>
    rcases h.more with h | h
    · rw [if_pos h]; omega
    · omega
  · omega

theorem added_new {st : State} (h : Reachable st) : added (st.log ++ [.waitMade st.waits.length]) st.waits.length = 0 := by
  unfold added
  rw [if_neg]
  intro ha
  rcases ha.more with ⟨l₁, s, l₂, he, -⟩ | h
  · have := (calls h).waitMade st.waits.length
    rw [he] at this
    simp at this
  · simp [adds] at h

theorem added_ready {st : State} (h : Reachable st) {i p : Nat} (hw : .waitMade i ∈ st.log) (hb : .pollBegin p i ∈ st.log)
    (hp : .pollReady p ∈ st.log) : added st.log i = 1 := by
  obtain ⟨m₁, m₂, hl⟩ := List.append_of_mem hw
  obtain ⟨s, hs, -⟩ := C48_not_ready_before_send h hl hb hp
  exact if_pos ⟨m₁, s, m₂, hl, hs⟩

theorem ready_unchecked {st : State} (h : Reachable st) : ∀ p, .pollReady p ∈ st.log → .pollChecked p ∉ st.log := by
  induction h with
  | init => simp [init]
  | @step st st' hr hs ih =>
    have hc := calls hr
    have h1 := hc.checkedAt
    have h2 := hc.readyAt
    intro p
    have := ih p
    have := h1 p
    have := h2 p
    cases hs <;> simp only [State.goto, State.emit] <;> grind

/-- Who returned `Ready` is not registered and was not woken. -/
theorem ready_alone {st : State} (h : Reachable st) {p : Nat} (hp : .pollReady p ∈ st.log) :
    (∀ c, .woke c p ∉ st.log) ∧ ∀ key, (key, p) ∉ st.slab := by
  have hr := registered h
  have hd := (calls h).readyAt p hp
  refine ⟨fun c hc => ready_unchecked h p hp (hr.woken c p hc), fun key hk => ?_⟩
  rcases hr.owner key p hk with ⟨i, h1⟩ | h1 | h1
  · rw [hd] at h1; simp at h1
  · rw [hd] at h1; simp at h1
  · exact ready_unchecked h p hp h1

end Parcom.Notify

namespace Parcom.Runner
open Parcom
variable {T E : Type} {b : Build} {st st' : State T E}

theorem callsOf_append (l₁ l₂ : List (Event T E)) : callsOf (l₁ ++ l₂) = callsOf l₁ + callsOf l₂ := List.countP_append
theorem selfWakesOf_append (l₁ l₂ : List (Event T E)) : selfWakesOf (l₁ ++ l₂) = selfWakesOf l₁ + selfWakesOf l₂ := List.countP_append
theorem pollsOf_append (l₁ l₂ : List (Event T E)) : pollsOf (l₁ ++ l₂) = pollsOf l₁ + pollsOf l₂ := List.countP_append
theorem sendsOf_append (l₁ l₂ : List (Event T E)) : sendsOf (l₁ ++ l₂) = sendsOf l₁ + sendsOf l₂ := List.countP_append

theorem sendsOf_eq (log : List (Event T E)) : sendsOf log = Notify.begins (signalLog log) := by
  induction log with
  | nil => rfl
  | cons e log ih =>
    cases e with
    | signal e => cases e <;> simp [sendsOf, signalLog, Notify.begins] at * <;> exact ih
    | _ => simpa [sendsOf, signalLog] using ih

/-- How often the user can still wake itself, if nobody calls anything. -/
noncomputable def slack (st : State T E) : Nat :=
  match st.task with
  | .idle => 0
  | .stream => 0
  | .next none => 1
  | .next (some i) => Notify.added st.signal.log i
  | .nextPoll _ (some i) (.wait _) => Notify.added st.signal.log i
  | .nextPoll _ none (.wait _) => 0
  | .nextPoll _ _ .first => 1
  | .nextPoll _ _ .makeWait => 1
  | .nextPoll _ _ (.second i) => 1 + Notify.added st.signal.log i
  | .nextPoll _ _ (.loadDone i) => 1 + Notify.added st.signal.log i
  | .advance none _ => 1
  | .advance (some i) _ => Notify.added st.signal.log i
  | .advancePoll _ (some i) _ (.wait _) => Notify.added st.signal.log i
  | .advancePoll _ none _ (.wait _) => 0
  | .advancePoll _ _ _ .makeWait => 1
  | .advancePoll _ (some i) _ _ => 1 + Notify.added st.signal.log i
  | .advancePoll _ none _ _ => 1

theorem slack_le : slack st ≤ 2 := by
  have := fun i => Notify.added_le (log := st.signal.log) (i := i)
  unfold slack
  split <;> first | omega | (rename_i i _ _; have := this i; omega) | grind

theorem slack_more {signal : Notify.State} {new : List Notify.Event} {sys : Loading T E} {d : Bool} {log : List (Event T E)}
    (hl : signal.log = st.signal.log ++ new) :
    slack { st with signal, sys, doneFlag := d, log } ≤ slack st + Notify.adds new := by
  have := fun i => Notify.added_more (log := st.signal.log) (new := new) (i := i)
  unfold slack
  simp only [hl]
  cases st.task with
  | nextPoll k fut pc => cases pc <;> cases fut <;> grind
  | advancePoll k fut r pc => cases pc <;> cases fut <;> grind
  | next fut => cases fut <;> grind
  | advance fut => cases fut <;> grind
  | _ => simp

/-- Every step costs what it uses. -/
theorem slack_step (h : Reachable b st) (hs : Step b st st') : ∃ new, st'.log = st.log ++ new ∧
    selfWakesOf new + slack st' ≤ slack st + callsOf new + Notify.adds (signalLog new) := by
  have hi := inv h
  have hh := hist h
  cases hs with
  | loader m sys new hm he hl =>
    refine ⟨_, rfl, ?_⟩
    have : selfWakesOf (new.map Event.sys : List (Event T E)) = 0 := by simp [selfWakesOf]
    rw [this, signalLog_sys]
    exact Nat.le_trans (Nat.le_of_eq (Nat.zero_add _)) (Nat.le_trans (slack_more (new := []) (by simp)) (by simp [Notify.adds]))
  | setDone =>
    refine ⟨_, rfl, ?_⟩
    exact Nat.le_trans (Nat.le_of_eq (Nat.zero_add _)) (Nat.le_trans (slack_more (new := []) (by simp)) (by simp [Notify.adds, Nat.add_assoc]))
  | signal signal new hstep hl =>
    refine ⟨_, rfl, ?_⟩
    have : selfWakesOf (new.map Event.signal : List (Event T E)) = 0 := by simp [selfWakesOf]
    rw [this, signalLog_map]
    exact Nat.le_trans (Nat.le_of_eq (Nat.zero_add _)) (Nat.le_trans (slack_more hl) (by omega))
  | makeWait k fut signal ht hsig =>
    refine ⟨_, rfl, ?_⟩
    have : signal.log = st.signal.log ++ [.waitMade st.signal.waits.length] := by rw [hsig]; rfl
    simp only [slack, ht, this, Notify.added_new hi.signal]
    simp [selfWakesOf]
    omega
  | advanceMakeWait k remain fut signal ht hsig =>
    refine ⟨_, rfl, ?_⟩
    have : signal.log = st.signal.log ++ [.waitMade st.signal.waits.length] := by rw [hsig]; rfl
    simp only [slack, ht, this, Notify.added_new hi.signal]
    simp [selfWakesOf]
    omega
  | nextPollWait i signal ht hlt hsig =>
    refine ⟨_, rfl, ?_⟩
    have : signal.log = st.signal.log ++ [.pollBegin st.signal.calls i] := by rw [hsig]; rfl
    have hm := Notify.added_more (log := st.signal.log) (new := [.pollBegin st.signal.calls i]) (i := i)
    simp only [slack, ht, this]
    simp [selfWakesOf, Notify.adds] at hm ⊢
    omega
  | advancePollWait i remain signal ht hlt hsig =>
    refine ⟨_, rfl, ?_⟩
    have : signal.log = st.signal.log ++ [.pollBegin st.signal.calls i] := by rw [hsig]; rfl
    have hm := Notify.added_more (log := st.signal.log) (new := [.pollBegin st.signal.calls i]) (i := i)
    simp only [slack, ht, this]
    simp [selfWakesOf, Notify.adds] at hm ⊢
    omega
  | nextWaitReady k p fut ht hp =>
    refine ⟨[], (List.append_nil _).symm, ?_⟩
    rw [ht] at hh
    obtain ⟨-, i, rfl, ⟨A, B, e, -, hw, -⟩, -, hb⟩ := hh
    have hw : Notify.Event.waitMade i ∈ st.signal.log := by
      rw [hi.signalLog, mem_signalLog, e]; exact List.mem_append_left _ hw
    rw [← mem_signalLog, ← hi.signalLog] at hb
    simp only [slack, ht, Notify.added_ready hi.signal hw hb hp]
    simp [selfWakesOf]
    omega
  | advanceWaitReady k p remain fut ht hp =>
    refine ⟨[], (List.append_nil _).symm, ?_⟩
    rw [ht] at hh
    obtain ⟨-, i, rfl, hw, -, hb⟩ := hh
    rw [← mem_signalLog, ← hi.signalLog] at hb hw
    simp only [slack, ht, Notify.added_ready hi.signal hw hb hp]
    simp [selfWakesOf]
    omega
  | nextWaitPending k p fut ht hp =>
    refine ⟨_, rfl, ?_⟩
    rw [ht] at hh
    obtain ⟨-, i, rfl, -⟩ := hh
    simp only [slack, ht]
    simp [selfWakesOf]
    omega
  | advanceWaitPending k p remain fut ht hp =>
    refine ⟨_, rfl, ?_⟩
    rw [ht] at hh
    obtain ⟨-, i, rfl, -⟩ := hh
    simp only [slack, ht]
    simp [selfWakesOf]
    omega
  | replace k remain fut sys ht he =>
    refine ⟨[], (List.append_nil _).symm, ?_⟩
    rw [ht] at hh
    obtain ⟨-, i, rfl, -⟩ := hh
    simp only [slack, ht]
    simp [selfWakesOf]
    omega
  | advancing k remain fut sys ht he hl =>
    refine ⟨[], (List.append_nil _).symm, ?_⟩
    simp only [slack]
    simp [selfWakesOf]
    omega
  | advanced k remain n r fut sys ht he hl =>
    refine ⟨_, rfl, ?_⟩
    rw [ht] at hh
    obtain ⟨-, i, rfl, -⟩ := hh
    simp only [slack, ht]
    simp [selfWakesOf]
    omega
  | advancePending k remain r fut ht hne hd =>
    refine ⟨_, rfl, ?_⟩
    rw [ht] at hh
    obtain ⟨-, i, rfl, -⟩ := hh
    simp only [slack, ht]
    simp [selfWakesOf]
    omega
  | advanceReady k remain r fut ht _ =>
    refine ⟨_, rfl, ?_⟩
    simp [slack, selfWakesOf]
  | dropStream sys ht he =>
    refine ⟨[], (List.append_nil _).symm, ?_⟩
    simp [slack, selfWakesOf]
  | nextDrop fut ht =>
    refine ⟨_, rfl, ?_⟩
    simp [slack, selfWakesOf]
  | segments sys ht he | next ht | nextPoll ht
    | firstSome k fut sys seg ht he hl | firstNone k fut sys ht he hl | secondSome k i fut sys seg ht he hl | secondNone k i fut sys ht he hl
    | isDone k i fut ht _ | notDone k i fut ht _ | advance delta ht | advancePoll remain ht =>
    refine ⟨_, rfl, ?_⟩
    simp only [slack, ht]
    simp [selfWakesOf, callsOf]
    try omega

/-- The same, over any number of steps. -/
theorem slack_steps (h : Reachable b st) (hs : Steps b st st') : Reachable b st' ∧ ∃ new, st'.log = st.log ++ new ∧
    selfWakesOf new + slack st' ≤ slack st + callsOf new + Notify.adds (signalLog new) := by
  induction hs with
  | refl => exact ⟨h, [], by simp, by simp [selfWakesOf]; omega⟩
  | step hs h1 ih =>
    obtain ⟨hr, n₁, hn₁, h2⟩ := ih
    obtain ⟨n₂, hn₂, h3⟩ := slack_step hr h1
    refine ⟨hr.step h1, n₁ ++ n₂, by rw [hn₂, hn₁, List.append_assoc], ?_⟩
    rw [selfWakesOf_append, callsOf_append, signalLog_append, Notify.adds_append]
    omega

/-! ## Polls -/

/-- How polls and the calls inside are numbered. -/
structure Known (st : State T E) : Prop where
  begun : ∀ f k o, .pollBegin f k o ∈ st.log → k < st.polls
  woke : ∀ k, .wokeSelf k ∈ st.log → k < st.polls
  inner : ∀ f k p, .pollBegin f k (some p) ∈ st.log → p < st.signal.calls
  next : ∀ k fut pc, st.task = .nextPoll k fut pc → k + 1 = st.polls
  advance : ∀ k fut remain pc, st.task = .advancePoll k fut remain pc → k + 1 = st.polls

theorem calls_grow {s s' : Notify.State} (h : Notify.Step s s') : s.calls ≤ s'.calls := by
  cases h <;> simp [Notify.State.emit, Notify.State.goto]

theorem known (h : Reachable b st) : Known st := by
  induction h with
  | init c => exact ⟨by simp [init], by simp [init], by simp [init], by simp [init], by simp [init]⟩
  | @step st st' hr hs ih =>
    obtain ⟨h1, h2, h3, h4, h5⟩ := ih
    cases hs with
    | loader m sys new hm he hl =>
      exact ⟨fun f k o hk => h1 f k o (by simpa using hk), fun k hk => h2 k (by simpa using hk), fun f k p hk => h3 f k p (by simpa using hk), h4, h5⟩
    | signal signal new hstep hl =>
      exact ⟨fun f k o hk => h1 f k o (by simpa using hk), fun k hk => h2 k (by simpa using hk),
        fun f k p hk => Nat.lt_of_lt_of_le (h3 f k p (by simpa using hk)) (calls_grow hstep), h4, h5⟩
    | setDone =>
      exact ⟨fun f k o hk => h1 f k o (by simpa using hk), fun k hk => h2 k (by simpa using hk), fun f k p hk => h3 f k p (by simpa using hk), h4, h5⟩
    | makeWait k fut signal ht hsig | advanceMakeWait k remain fut signal ht hsig =>
      have : signal.calls = st.signal.calls := by rw [hsig]; rfl
      constructor <;> grind
    | nextPollWait i signal ht hlt hsig | advancePollWait i remain signal ht hlt hsig =>
      have : signal.calls = st.signal.calls + 1 := by rw [hsig]; rfl
      constructor <;> grind
    | _ => constructor <;> grind

/-- The waker given to the last poll was woken, or is about to be. -/
def Called (st : State T E) : Prop := Woken st.log (st.polls - 1) ∨
  ∃ f p key c, .pollBegin f (st.polls - 1) (some p) ∈ st.log ∧ (key, p) ∈ st.signal.slab ∧ st.signal.pc c = .sendDrain

/-- Whoever polls may do so, or is about to be allowed to. -/
def MayPoll (st : State T E) : Prop :=
  match st.task with
  | .idle => False
  | .stream => False
  | .next none => True
  | .advance none _ => True
  | .next (some _) => Called st
  | .advance (some _) _ => Called st
  | .nextPoll .. => Called st
  | .advancePoll .. => Called st

open Classical in
/-- 1 if so. -/
noncomputable def mayPoll (st : State T E) : Nat := if MayPoll st then 1 else 0

theorem mayPoll_le : mayPoll st ≤ 1 := by unfold mayPoll; split <;> omega
theorem mayPoll_zero (h : ¬ MayPoll st) : mayPoll st = 0 := if_neg h
theorem mayPoll_one (h : MayPoll st) : mayPoll st = 1 := if_pos h
theorem mayPoll_mono {n : Nat} (h : MayPoll st' → MayPoll st ∨ 0 < n) : mayPoll st' ≤ mayPoll st + n := by
  by_cases h' : MayPoll st'
  · rw [mayPoll_one h']
    rcases h h' with h | h
    · rw [mayPoll_one h]; omega
    · omega
  · rw [mayPoll_zero h']; omega

theorem Woken.of_more {log new : List (Event T E)} {k : Nat} (h : Woken (log ++ new) k) (h1 : ∀ j, .wokeSelf j ∉ new)
    (h2 : ∀ f j p, .pollBegin f j (some p) ∉ new) : Woken log k ∨ ∃ f p c, .pollBegin f k (some p) ∈ log ∧ .signal (.woke c p) ∈ new := by
  rcases h with h | ⟨f, p, c, h3, h4⟩
  · exact .inl (.inl ((List.mem_append.mp h).resolve_right (h1 k)))
  · have h3 := (List.mem_append.mp h3).resolve_right (h2 f k p)
    rcases List.mem_append.mp h4 with h4 | h4
    · exact .inl (.inr ⟨f, p, c, h3, h4⟩)
    · exact .inr ⟨f, p, c, h3, h4⟩

/-- Nothing changes if nobody wakes or polls. -/
theorem called_same {new : List (Event T E)} (hl : st'.log = st.log ++ new) (hp : st'.polls = st.polls) (hs : st'.signal.slab = st.signal.slab)
    (hpc : st'.signal.pc = st.signal.pc) (h1 : ∀ j, .wokeSelf j ∉ new) (h2 : ∀ f j p, .pollBegin f j (some p) ∉ new)
    (h3 : ∀ c p, .signal (.woke c p) ∉ new) (h : Called st') : Called st := by
  unfold Called at h ⊢
  rw [hl, hp, hs, hpc] at h
  rcases h with h | ⟨f, p, key, c, h4, h5, h6⟩
  · rcases h.of_more h1 h2 with h | ⟨f, p, c, -, h⟩
    · exact .inl h
    · exact absurd h (h3 c p)
  · exact .inr ⟨f, p, key, c, (List.mem_append.mp h4).resolve_right (h2 _ _ _), h5, h6⟩

theorem slab_old {s : Notify.State} (h : Notify.Reachable s) {key p : Nat} (hm : (key, p) ∈ s.slab) : p < s.calls := by
  have hc := Notify.calls h
  refine Nat.lt_of_not_le fun hle => ?_
  have := hc.fresh p hle
  rcases (Notify.registered h).owner key p hm with ⟨i, h⟩ | h | h
  · grind
  · grind
  · have := hc.checkedAt p h; grind

theorem woke_old {s : Notify.State} (h : Notify.Reachable s) {c p : Nat} (hm : .woke c p ∈ s.log) : p < s.calls := by
  have hc := Notify.calls h
  refine Nat.lt_of_not_le fun hle => ?_
  have := hc.fresh p hle
  have := hc.checkedAt p ((Notify.registered h).woken c p hm)
  grind

/-- A step of `append_signal` lets the user be polled only if it takes the mutex. -/
theorem called_signal (h : Reachable b st) {signal : Notify.State} {new : List Notify.Event} (hs : Notify.Step st.signal signal)
    (hl : signal.log = st.signal.log ++ new) (hcall : Called { st with signal, log := st.log ++ new.map .signal }) :
    Called st ∨ 0 < Notify.locks new := by
  have hc := Notify.calls (inv h).signal
  rcases hcall with hcall | ⟨f, p, key, c, h4, h5, h6⟩
  · rcases hcall.of_more (by simp) (by simp) with h1 | ⟨f, p, c, h1, h2⟩
    · exact .inl (.inl h1)
    · simp at h2
      cases hs with
      | sendWake c' key q pre post hpc hsl =>
        simp [Notify.State.emit] at hl
        subst hl
        simp at h2
        refine .inl (.inr ⟨f, p, key, c', h1, ?_, hpc⟩)
        rw [hsl, h2.2]; simp
      | _ =>
        simp [Notify.State.emit, Notify.State.goto] at hl
        subst hl
        simp at h2
  · have h4 : .pollBegin f (st.polls - 1) (some p) ∈ st.log := by simpa using h4
    have same : (key, p) ∈ st.signal.slab → st.signal.pc c = .sendDrain → Called st := fun h7 h8 => .inr ⟨f, p, key, c, h4, h7, h8⟩
    cases hs with
    | sendLock d hpc hlock =>
      simp [Notify.State.emit, Notify.State.goto] at hl
      subst hl
      exact .inr (by simp [Notify.locks])
    | sendWake d key' q pre post hpc hsl =>
      refine .inl (same ?_ h6)
      rw [hsl]
      simp [Notify.State.emit] at h5 ⊢
      grind
    | pollInsert q i key' hpc hv =>
      exfalso
      have h6 : (if c = q then Notify.Pc.pollRecheck i key' else st.signal.pc c) = .sendDrain := h6
      split at h6
      · simp at h6
      · next hne =>
        have e1 := (hc.lock c).mp (by rw [h6]; rfl)
        have e2 := (hc.lock q).mp (by rw [hpc]; rfl)
        rw [e1] at e2
        simp at e2
        exact hne e2
    | pollRemove q key' hpc =>
      refine .inl (same ?_ ?_)
      · simp [Notify.State.emit, Notify.State.goto] at h5
        exact h5.1
      · simp only [Notify.State.emit, Notify.State.goto] at h6
        grind
    | _ =>
      refine .inl (same h5 ?_)
      simp only [Notify.State.emit, Notify.State.goto] at h6
      grind

/-- Every poll was paid for. -/
theorem poll_step (h : Reachable b st) (hs : Step b st st') : ∃ new, st'.log = st.log ++ new ∧ (Polite st'.log →
    pollsOf new + mayPoll st' ≤ mayPoll st + callsOf new + selfWakesOf new + Notify.locks (signalLog new)) := by
  have hi := inv h
  have hh := hist h
  have hk := known h
  have hle := mayPoll_le (st := st')
  have still : ∀ {new : List (Event T E)}, pollsOf new = 0 → (MayPoll st' → MayPoll st) →
      pollsOf new + mayPoll st' ≤ mayPoll st + callsOf new + selfWakesOf new + Notify.locks (signalLog new) := by
    intro new h1 h2
    have := mayPoll_mono (n := 0) (st := st) (st' := st') fun h => .inl (h2 h)
    omega
  cases hs with
  | loader m sys new hm he hl =>
    refine ⟨_, rfl, fun _ => still (by simp [pollsOf]) ?_⟩
    have hcalled := called_same (st := st) (st' := { st with sys, log := st.log ++ new.map .sys }) (new := new.map .sys) rfl rfl rfl rfl
      (by simp) (by simp) (by simp)
    simp only [MayPoll]
    cases st.task with
    | next fut => cases fut <;> simp <;> exact hcalled
    | advance fut => cases fut <;> simp <;> exact hcalled
    | nextPoll => exact hcalled
    | advancePoll => exact hcalled
    | _ => exact id
  | setDone =>
    refine ⟨_, rfl, fun _ => still (by simp [pollsOf]) ?_⟩
    have hcalled := called_same (st := st) (st' := { st with doneFlag := true, log := st.log ++ [.done] }) (new := [.done]) rfl rfl rfl rfl
      (by simp) (by simp) (by simp)
    simp only [MayPoll]
    cases st.task with
    | next fut => cases fut <;> simp <;> exact hcalled
    | advance fut => cases fut <;> simp <;> exact hcalled
    | nextPoll => exact hcalled
    | advancePoll => exact hcalled
    | _ => exact id
  | signal signal new hstep hl =>
    refine ⟨_, rfl, fun _ => ?_⟩
    rw [signalLog_map]
    have : MayPoll { st with signal, log := st.log ++ new.map .signal } → MayPoll st ∨ 0 < Notify.locks new := by
      have hcalled := called_signal h hstep hl
      simp only [MayPoll]
      cases st.task with
      | next fut => cases fut <;> simp <;> exact hcalled
      | advance fut => cases fut <;> simp <;> exact hcalled
      | nextPoll => exact hcalled
      | advancePoll => exact hcalled
      | _ => exact .inl
    have := mayPoll_mono this
    have e : pollsOf (new.map Event.signal : List (Event T E)) = 0 := by simp [pollsOf]
    omega
  | segments sys ht he => exact ⟨_, rfl, fun _ => still (by simp [pollsOf]) (by simp [MayPoll])⟩
  | dropStream sys ht he => exact ⟨[], (List.append_nil _).symm, fun _ => still rfl (by simp [MayPoll])⟩
  | next ht =>
    refine ⟨_, rfl, fun _ => ?_⟩
    simp [pollsOf, callsOf]
    omega
  | nextDrop fut ht => exact ⟨_, rfl, fun _ => still (by simp [pollsOf]) (by simp [MayPoll])⟩
  | nextPoll ht | advancePoll remain ht =>
    refine ⟨_, rfl, fun _ => ?_⟩
    rw [mayPoll_one (st := st) (by simp [MayPoll, ht]), mayPoll_zero]
    · simp [pollsOf]; omega
    · simp only [MayPoll, Called, Nat.add_sub_cancel]
      rintro (h1 | ⟨f, p, key, c, h1, -⟩)
      · rcases h1 with h1 | ⟨f, p, c, h1, -⟩
        · have := hk.woke st.polls (by simpa using h1)
          omega
        · have := hk.begun f st.polls (some p) (by simpa using h1)
          omega
      · have := hk.begun f st.polls (some p) (by simpa using h1)
        omega
  | nextPollWait i signal ht hlt hsig | advancePollWait i remain signal ht hlt hsig =>
    refine ⟨_, rfl, fun hp => ?_⟩
    have hw := hp st.log _ _ _ [.signal (.pollBegin st.signal.calls i)] rfl
    rw [mayPoll_one (st := st) (by simp only [MayPoll, ht]; exact .inl hw), mayPoll_zero]
    · simp [pollsOf]; omega
    · have only : ∀ {f' f : Fut} {p : Nat}, Event.pollBegin f' st.polls (some p) ∈ st.log ++ [.pollBegin f st.polls (some st.signal.calls),
          .signal (.pollBegin st.signal.calls i)] → p = st.signal.calls := by
        intro f' f p hm
        simp at hm
        rcases hm with hm | hm
        · have := hk.begun _ _ _ hm
          omega
        · exact hm.2
      have hslab : signal.slab = st.signal.slab := by rw [hsig]; rfl
      simp only [MayPoll, Called, Nat.add_sub_cancel]
      rintro (h1 | ⟨f, p, key, c, h1, h2, -⟩)
      · rcases h1 with h1 | ⟨f, p, c, h1, h2⟩
        · have := hk.woke st.polls (by simpa using h1)
          omega
        · have := only h1
          have h2 : Event.signal (.woke c p) ∈ st.log := by simpa using h2
          rw [← mem_signalLog, ← hi.signalLog] at h2
          have := woke_old hi.signal h2
          omega
      · have := only h1
        rw [hslab] at h2
        have := slab_old hi.signal h2
        omega
  | nextWaitReady k p fut ht hp =>
    refine ⟨[], (List.append_nil _).symm, fun _ => still rfl ?_⟩
    simp only [MayPoll, ht]
    exact called_same (new := []) (List.append_nil _).symm rfl rfl rfl (by simp) (by simp) (by simp)
  | advanceWaitReady k p remain fut ht hp =>
    refine ⟨[], (List.append_nil _).symm, fun _ => still rfl ?_⟩
    simp only [MayPoll, ht]
    exact called_same (new := []) (List.append_nil _).symm rfl rfl rfl (by simp) (by simp) (by simp)
  | nextWaitPending k p fut ht hp =>
    refine ⟨_, rfl, fun _ => still (by simp [pollsOf]) ?_⟩
    rw [ht] at hh
    obtain ⟨-, i, rfl, -⟩ := hh
    simp only [MayPoll, ht]
    exact called_same rfl rfl rfl rfl (by simp) (by simp) (by simp)
  | advanceWaitPending k p remain fut ht hp =>
    refine ⟨_, rfl, fun _ => still (by simp [pollsOf]) ?_⟩
    rw [ht] at hh
    obtain ⟨-, i, rfl, -⟩ := hh
    simp only [MayPoll, ht]
    exact called_same rfl rfl rfl rfl (by simp) (by simp) (by simp)
  | firstSome k fut sys seg ht he hl | secondSome k i fut sys seg ht he hl =>
    exact ⟨_, rfl, fun _ => still (by simp [pollsOf]) (by simp [MayPoll])⟩
  | isDone k i fut ht _ => exact ⟨_, rfl, fun _ => still (by simp [pollsOf]) (by simp [MayPoll])⟩
  | advanceReady k remain r fut ht _ => exact ⟨_, rfl, fun _ => still (by simp [pollsOf]) (by simp [MayPoll])⟩
  | firstNone k fut sys ht he hl | secondNone k i fut sys ht he hl | advanced k remain n r fut sys ht he hl =>
    refine ⟨_, rfl, fun _ => still (by simp [pollsOf]) ?_⟩
    simp only [MayPoll, ht]
    exact called_same rfl rfl rfl rfl (by simp) (by simp) (by simp)
  | makeWait k fut signal ht hsig | advanceMakeWait k remain fut signal ht hsig =>
    refine ⟨_, rfl, fun _ => still (by simp [pollsOf]) ?_⟩
    simp only [MayPoll, ht]
    exact called_same rfl rfl (by rw [hsig]; rfl) (by rw [hsig]; rfl) (by simp) (by simp) (by simp)
  | notDone k i fut ht _ | advancePending k remain r fut ht _ _ =>
    refine ⟨_, rfl, fun _ => ?_⟩
    simp [pollsOf, selfWakesOf]
    omega
  | advance delta ht =>
    refine ⟨_, rfl, fun _ => ?_⟩
    simp [pollsOf, callsOf]
    omega
  | replace k remain fut sys ht he | advancing k remain fut sys ht he hl =>
    refine ⟨[], (List.append_nil _).symm, fun _ => still rfl ?_⟩
    simp only [MayPoll, ht]
    exact called_same (new := []) (List.append_nil _).symm rfl rfl rfl (by simp) (by simp) (by simp)

theorem Polite.before {l₁ l₂ : List (Event T E)} (h : Polite (l₁ ++ l₂)) : Polite l₁ := fun a f k p c he =>
  h a f k p (c ++ l₂) (by rw [he]; simp)

/-- The same, over any number of steps. -/
theorem poll_steps (h : Reachable b st) (hs : Steps b st st') : Reachable b st' ∧ ∃ new, st'.log = st.log ++ new ∧ (Polite st'.log →
    pollsOf new + mayPoll st' ≤ mayPoll st + callsOf new + selfWakesOf new + Notify.locks (signalLog new)) := by
  induction hs with
  | refl => exact ⟨h, [], by simp, fun _ => by simp [pollsOf]; omega⟩
  | step hs h1 ih =>
    obtain ⟨hr, n₁, hn₁, h2⟩ := ih
    obtain ⟨n₂, hn₂, h3⟩ := poll_step hr h1
    refine ⟨hr.step h1, n₁ ++ n₂, by rw [hn₂, hn₁, List.append_assoc], fun hp => ?_⟩
    have h3 := h3 hp
    rw [hn₂] at hp
    have h2 := h2 hp.before
    rw [selfWakesOf_append, callsOf_append, pollsOf_append, signalLog_append, Notify.locks_append]
    omega

theorem reachable_steps (h : Reachable b st) : ∃ c, Steps b (init c) st := by
  induction h with
  | init c => exact ⟨c, .refl _⟩
  | step _ hs ih =>
    obtain ⟨c, h⟩ := ih
    exact ⟨c, h.step hs⟩

/-- The poll under way has not woken its task, and the `Wait` it began with was ready if it got further. -/
structure Under (st : State T E) : Prop where
  nextWait : ∀ k fut p, st.task = .nextPoll k fut (.wait p) → ∀ f q, .pollBegin f k (some q) ∈ st.log → q = p
  next : ∀ k fut pc, st.task = .nextPoll k fut pc → .wokeSelf k ∉ st.log ∧
    ((∃ p, pc = .wait p) ∨ ∀ f q, .pollBegin f k (some q) ∈ st.log → .signal (.pollReady q) ∈ st.log)
  advanceWait : ∀ k fut remain p, st.task = .advancePoll k fut remain (.wait p) → ∀ f q, .pollBegin f k (some q) ∈ st.log → q = p
  advance : ∀ k fut remain pc, st.task = .advancePoll k fut remain pc → .wokeSelf k ∉ st.log ∧
    ((∃ p, pc = .wait p) ∨ ∀ f q, .pollBegin f k (some q) ∈ st.log → .signal (.pollReady q) ∈ st.log)

theorem under (h : Reachable b st) : Under st := by
  induction h with
  | init c => constructor <;> simp [init]
  | @step st st' hr hs ih =>
    have hk := known hr
    have hk1 := hk.begun
    have hk2 := hk.woke
    have hsig := (inv hr).signalLog
    have hmem : ∀ p, Notify.Event.pollReady p ∈ st.signal.log → .signal (.pollReady p) ∈ st.log := by
      intro p hp
      rw [hsig, mem_signalLog] at hp
      exact hp
    obtain ⟨h1, h2, h3, h4⟩ := ih
    cases hs with
    | loader m sys new hm he hl =>
      constructor
      · simpa using h1
      · intro k fut pc ht
        have := h2 k fut pc ht
        simpa using this
      · simpa using h3
      · intro k fut r pc ht
        have := h4 k fut r pc ht
        simpa using this
    | signal signal new hstep hl =>
      constructor
      · simpa using h1
      · intro k fut pc ht
        obtain ⟨h5, h6⟩ := h2 k fut pc ht
        refine ⟨by simpa using h5, h6.imp id fun h f q hq => List.mem_append_left _ (h f q (by simpa using hq))⟩
      · simpa using h3
      · intro k fut r pc ht
        obtain ⟨h5, h6⟩ := h4 k fut r pc ht
        refine ⟨by simpa using h5, h6.imp id fun h f q hq => List.mem_append_left _ (h f q (by simpa using hq))⟩
    | firstNone k fut sys ht he hl | secondNone k i fut sys ht he hl | makeWait k fut signal ht hsig =>
      obtain ⟨h5, h6⟩ := h2 _ _ _ ht
      have h6 := h6.resolve_left (by simp)
      refine ⟨by simp, fun k' fut' pc' ht' => ?_, by simp, by simp⟩
      simp only [Task.nextPoll.injEq] at ht'
      obtain ⟨rfl, -, -⟩ := ht'
      exact ⟨by simpa using h5, .inr fun f q hq => List.mem_append_left _ (h6 f q (by simpa using hq))⟩
    | advanceMakeWait k remain fut signal ht hsig | replace k remain fut sys ht he | advancing k remain fut sys ht he hl
      | advanced k remain n r fut sys ht he hl =>
      obtain ⟨h5, h6⟩ := h4 _ _ _ _ ht
      have h6 := h6.resolve_left (by simp)
      refine ⟨by simp [ht], by simp [ht], by simp [ht], fun k' fut' r' pc' ht' => ?_⟩
      first
      | simp only [Task.advancePoll.injEq] at ht'
        obtain ⟨rfl, -, -, -⟩ := ht'
        first
        | exact ⟨by simpa using h5, .inr fun f q hq => List.mem_append_left _ (h6 f q (by simpa using hq))⟩
        | exact ⟨h5, .inr h6⟩
      | exact h4 _ _ _ _ ht'
    | _ => constructor <;> grind

/-- A poll that got past its `Wait` has not been called for yet. -/
theorem under_called (h : Reachable b st) {k : Nat} (hk : k + 1 = st.polls) (h1 : .wokeSelf k ∉ st.log)
    (h2 : ∀ f q, .pollBegin f k (some q) ∈ st.log → .signal (.pollReady q) ∈ st.log) : ¬ Called st := by
  have hi := inv h
  have e : st.polls - 1 = k := by omega
  have ready : ∀ f q, .pollBegin f k (some q) ∈ st.log → .pollReady q ∈ st.signal.log := by
    intro f q hq
    rw [hi.signalLog, mem_signalLog]
    exact h2 f q hq
  rw [Called, e]
  rintro ((h3 | ⟨f, p, c, h3, h4⟩) | ⟨f, p, key, c, h3, h4, -⟩)
  · exact h1 h3
  · rw [← mem_signalLog, ← hi.signalLog] at h4
    exact (Notify.ready_alone hi.signal (ready f p h3)).1 c h4
  · exact (Notify.ready_alone hi.signal (ready f p h3)).2 key h4

theorem slack_mayPoll (h : Reachable b st) : slack st + mayPoll st ≤ 2 := by
  have ha := fun i => Notify.added_le (log := st.signal.log) (i := i)
  have hm := mayPoll_le (st := st)
  have hu := under h
  have hk := known h
  by_cases h2 : slack st ≤ 1
  · omega
  · have h0 := slack_le (st := st)
    rw [mayPoll_zero]
    · omega
    · intro hmay
      unfold slack at h2
      unfold MayPoll at hmay
      split at h2 <;> rename_i ht <;> rw [ht] at hmay <;> simp only at hmay
      all_goals first
        | omega
        | (rename_i i; have := ha i; omega)
        | (rename_i i _; have := ha i; omega)
        | (obtain ⟨h3, h4⟩ := hu.next _ _ _ ht
           exact under_called h (hk.next _ _ _ ht) h3 (h4.resolve_left (by simp)) hmay)
        | (obtain ⟨h3, h4⟩ := hu.advance _ _ _ _ ht
           exact under_called h (hk.advance _ _ _ _ ht) h3 (h4.resolve_left (by grind)) hmay)
        | skip

/-! ## The theorems -/

/-- C124: polls wake their own task at most once for every call of `next()`, `advance` or `send`. -/
theorem C124_wakes (h : Reachable b st) : selfWakesOf st.log ≤ callsOf st.log + sendsOf st.log := by
  obtain ⟨c, hs⟩ := reachable_steps h
  obtain ⟨-, new, hl, hn⟩ := slack_steps (.init c) hs
  have e : st.log = new := hl
  have := (Notify.send_once (inv h).signal).1
  rw [(inv h).signalLog] at this
  rw [e, sendsOf_eq, ← e]
  rw [← e] at hn
  have hz : slack (init c : State T E) = 0 := rfl
  omega

/-- C124: whoever polls only after being woken polls at most twice for every such call. -/
theorem C124_polls (h : Reachable b st) (hp : Polite st.log) : pollsOf st.log ≤ 2 * (callsOf st.log + sendsOf st.log) := by
  obtain ⟨c, hs⟩ := reachable_steps h
  obtain ⟨-, new, hl, hn⟩ := poll_steps (.init c) hs
  have e : st.log = new := hl
  have h1 := C124_wakes h
  have := (Notify.send_once (inv h).signal).2
  rw [(inv h).signalLog] at this
  have hn := hn hp
  rw [← e] at hn
  rw [sendsOf_eq] at h1 ⊢
  have hz : mayPoll (init c : State T E) = 0 := mayPoll_zero (by simp [MayPoll, init])
  omega

/-- C124: from any moment on, as long as nobody calls `next()` or `advance` and no `send` gets on, polls wake their own task at
most twice, and whoever polls only after being woken polls at most twice. -/
theorem C124_quiet (h : Reachable b st) (hs : Steps b st st') {new : List (Event T E)} (hl : st'.log = st.log ++ new)
    (hcalls : ∀ e ∈ new, e ≠ .nextCall ∧ ∀ n, e ≠ .advanceCall n)
    (hsends : ∀ c, .signal (.sendAdd c) ∉ new ∧ .signal (.sendLocked c) ∉ new) :
    selfWakesOf new ≤ 2 ∧ (Polite st'.log → pollsOf new ≤ 2) := by
  have h0 : callsOf new = 0 := by
    rw [callsOf, List.countP_eq_zero]
    intro e he
    have := hcalls e he
    cases e <;> simp at this ⊢
  have h1 : Notify.adds (signalLog new) = 0 := by
    rw [Notify.adds, List.countP_eq_zero]
    intro e he
    have := fun c => (hsends c).1
    rw [mem_signalLog] at he
    cases e <;> simp
    exact this _ he
  have h2 : Notify.locks (signalLog new) = 0 := by
    rw [Notify.locks, List.countP_eq_zero]
    intro e he
    have := fun c => (hsends c).2
    rw [mem_signalLog] at he
    cases e <;> simp
    exact this _ he
  obtain ⟨-, n₁, hn₁, h3⟩ := slack_steps h hs
  obtain ⟨-, n₂, hn₂, h4⟩ := poll_steps h hs
  rw [hl] at hn₁ hn₂
  have e1 := List.append_cancel_left hn₁
  have e2 := List.append_cancel_left hn₂
  subst e1
  subst e2
  have := slack_le (st := st)
  have := slack_mayPoll h
  refine ⟨by omega, fun hp => ?_⟩
  have := h4 hp
  omega

/-! ## The bounds are reached -/

/-- Nothing arrives, but `send` is called once: two calls, four polls, and two of them wake their task themselves. -/
theorem idle_send : ∃ st : State Nat Nat, Reachable .checked st ∧ st.log = [.sys .iterates, .nextCall, .pollBegin .next 0 none,
    .sys .exhausted, .signal (.waitMade 0), .sys .exhausted, .wokeSelf 0, .pollPending 0,
    .pollBegin .next 1 (some 0), .signal (.pollBegin 0 0), .signal (.pollChecked 0), .signal (.pollPending 0), .pollPending 1,
    .signal (.sendBegin 1), .signal (.sendAdd 1), .signal (.sendLocked 1), .signal (.woke 1 0), .signal (.sendEnd 1),
    .pollBegin .next 2 (some 2), .signal (.pollBegin 2 0), .signal (.pollReady 2), .sys .exhausted, .signal (.waitMade 1), .sys .exhausted,
    .wokeSelf 2, .pollPending 2, .pollBegin .next 3 (some 3), .signal (.pollBegin 3 1)] := by
  have h := Reachable.init (T := Nat) (E := Nat) (b := .checked) 0
  have h := h.step (.segments _ _ rfl rfl)
  have h := h.step (.next _ rfl)
  have h := h.step (.nextPoll _ rfl)
  have h := h.step (.firstNone _ 0 none _ rfl rfl rfl)
  have h := h.step (.makeWait _ 0 none _ rfl rfl)
  have h := h.step (.secondNone _ 0 0 none _ rfl rfl rfl)
  have h := h.step (.notDone _ 0 0 none rfl rfl)
  have h := h.step (.nextPollWait _ 0 _ rfl (by decide) rfl)
  have h := h.step (.signal _ _ [] (.pollLoad _ 0 0 rfl rfl) rfl)
  have h := h.step (.signal _ _ [] (.pollLock _ 0 0 rfl rfl) rfl)
  have h := h.step (.signal _ _ [] (.pollInsert _ 0 0 0 rfl (by decide)) rfl)
  have h := h.step (.signal _ _ [.pollChecked 0] (.pollRecheck _ 0 0 0 rfl rfl) rfl)
  have h := h.step (.signal _ _ [.pollPending 0] (.pollUnlock _ 0 rfl) rfl)
  have h := h.step (.nextWaitPending _ 1 0 (some 0) rfl (by decide))
  have h := h.step (.signal _ _ [.sendBegin 1] (.sendBegin _) rfl)
  have h := h.step (.signal _ _ [.sendAdd 1] (.sendAdd _ 1 rfl) rfl)
  have h := h.step (.signal _ _ [.sendLocked 1] (.sendLock _ 1 rfl rfl) rfl)
  have h := h.step (.signal _ _ [.woke 1 0] (.sendWake _ 1 0 0 [] [] rfl rfl) rfl)
  have h := h.step (.signal _ _ [.sendEnd 1] (.sendEnd _ 1 rfl rfl) rfl)
  have h := h.step (.nextPollWait _ 0 _ rfl (by decide) rfl)
  have h := h.step (.signal _ _ [.pollReady 2] (.pollLoadReady _ 2 0 rfl (by decide)) rfl)
  have h := h.step (.nextWaitReady _ 2 2 (some 0) rfl (by decide))
  have h := h.step (.firstNone _ 2 (some 0) _ rfl rfl rfl)
  have h := h.step (.makeWait _ 2 (some 0) _ rfl rfl)
  have h := h.step (.secondNone _ 2 1 (some 0) _ rfl rfl rfl)
  have h := h.step (.notDone _ 2 1 (some 0) rfl rfl)
  have h := h.step (.nextPollWait _ 1 _ rfl (by decide) rfl)
  exact ⟨_, h, rfl⟩

theorem Polite.snoc {log : List (Event T E)} (h : Polite log) {e : Event T E} (he : ∀ f k p, e = .pollBegin f k (some p) → Woken log (k - 1)) :
    Polite (log ++ [e]) := by
  intro l₁ f k p l₂ hl
  rcases Notify.split_snoc hl with ⟨-, rfl, h1⟩ | ⟨m, -, h1⟩
  · exact he f k p h1.symm
  · exact h l₁ f k p m h1

theorem Polite.more {log new : List (Event T E)} (h : Polite log) (hn : ∀ f k p, .pollBegin f k (some p) ∉ new) : Polite (log ++ new) := by
  induction new generalizing log with
  | nil => rwa [List.append_nil]
  | cons e new ih =>
    have := h.snoc (e := e) fun f k p he => absurd (by rw [he]; simp) (hn f k p)
    have := ih this fun f k p hm => hn f k p (List.mem_cons_of_mem _ hm)
    rwa [List.append_assoc] at this

/-- C124: the bounds cannot be improved. -/
theorem C124_tight : ∃ st : State Nat Nat, Reachable .checked st ∧ Polite st.log ∧
    callsOf st.log = 1 ∧ sendsOf st.log = 1 ∧ selfWakesOf st.log = 2 ∧ pollsOf st.log = 4 := by
  obtain ⟨st, hr, hl⟩ := idle_send
  refine ⟨st, hr, ?_, ?_, ?_, ?_, ?_⟩ <;> rw [hl]
  · have h : Polite ([] : List (Event Nat Nat)) := by intro l₁ f k p l₂ h; simp at h
    have h := h.more (new := [.sys .iterates, .nextCall, .pollBegin .next 0 none,
      .sys .exhausted, .signal (.waitMade 0), .sys .exhausted, .wokeSelf 0, .pollPending 0]) (by simp)
    have h := h.snoc (e := .pollBegin .next 1 (some 0)) fun f k p he => by
      simp at he; rw [← he.2.1]; exact .inl (by simp)
    have h := h.more (new := [.signal (.pollBegin 0 0), .signal (.pollChecked 0), .signal (.pollPending 0), .pollPending 1,
      .signal (.sendBegin 1), .signal (.sendAdd 1), .signal (.sendLocked 1), .signal (.woke 1 0), .signal (.sendEnd 1)]) (by simp)
    have h := h.snoc (e := .pollBegin .next 2 (some 2)) fun f k p he => by
      simp at he; rw [← he.2.1]; exact .inr ⟨.next, 0, 1, by simp, by simp⟩
    have h := h.more (new := [.signal (.pollBegin 2 0), .signal (.pollReady 2), .sys .exhausted, .signal (.waitMade 1), .sys .exhausted,
      .wokeSelf 2, .pollPending 2]) (by simp)
    have h := h.snoc (e := .pollBegin .next 3 (some 3)) fun f k p he => by
      simp at he; rw [← he.2.1]; exact .inl (by simp)
    exact h.more (new := [.signal (.pollBegin 3 1)]) (by simp)
  all_goals rfl

/-- The hypotheses of `C124_quiet` are met, with a poll. -/
example : ∃ st st' : State Nat Nat, ∃ new, Reachable .checked st ∧ Steps .checked st st' ∧ st'.log = st.log ++ new ∧
    (∀ e ∈ new, e ≠ .nextCall ∧ ∀ n, e ≠ .advanceCall n) ∧ (∀ c, .signal (.sendAdd c) ∉ new ∧ .signal (.sendLocked c) ∉ new) ∧
    pollsOf new = 2 := by
  have h := Reachable.init (T := Nat) (E := Nat) (b := .checked) 0
  have h := h.step (.segments _ _ rfl rfl)
  have h := h.step (.next _ rfl)
  refine ⟨_, _, [.pollBegin .next 0 none, .sys .exhausted, .signal (.waitMade 0), .sys .exhausted, .wokeSelf 0, .pollPending 0,
    .pollBegin .next 1 (some 0), .signal (.pollBegin 0 0)], h, ((((((Steps.refl _).step (.nextPoll _ rfl)).step
    (.firstNone _ 0 none _ rfl rfl rfl)).step (.makeWait _ 0 none _ rfl rfl)).step (.secondNone _ 0 0 none _ rfl rfl rfl)).step
    (.notDone _ 0 0 none rfl rfl)).step (.nextPollWait _ 0 _ rfl (by decide) rfl), rfl, by simp, by simp, rfl⟩

end Parcom.Runner
