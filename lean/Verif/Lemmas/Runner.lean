import Verif.Spec.Running
import Verif.Lemmas.Loader
import Verif.Props.Loader
/-!
# Lemmas about the default runner's sequence
-/
namespace Parcom.Runner
open Parcom Spec
variable {T E : Type}

theorem sysLog_append (l l' : List (Event T E)) : sysLog (l ++ l') = sysLog l ++ sysLog l' := List.filterMap_append
theorem signalLog_append (l l' : List (Event T E)) : signalLog (l ++ l') = signalLog l ++ signalLog l' := List.filterMap_append

theorem sysLog_map (new : List (Obs T E)) : sysLog (new.map .sys) = new := by
  induction new with
  | nil => rfl
  | cons o new ih => simp only [List.map_cons]; show o :: sysLog _ = _; rw [ih]

theorem signalLog_map (new : List Notify.Event) : signalLog (new.map .signal : List (Event T E)) = new := by
  induction new with
  | nil => rfl
  | cons o new ih => simp only [List.map_cons]; show o :: signalLog _ = _; rw [ih]

theorem sysLog_signal (new : List Notify.Event) : sysLog (new.map .signal : List (Event T E)) = [] := by
  induction new with
  | nil => rfl
  | cons o new ih => exact ih

theorem signalLog_sys (new : List (Obs T E)) : signalLog (new.map .sys) = [] := by
  induction new with
  | nil => rfl
  | cons o new ih => exact ih

theorem mem_sysLog {o : Obs T E} {log : List (Event T E)} : o ∈ sysLog log ↔ .sys o ∈ log := by
  simp only [sysLog, List.mem_filterMap]
  constructor
  · rintro ⟨e, he, h⟩
    cases e <;> simp at h
    subst h; exact he
  · intro h; exact ⟨_, h, rfl⟩

theorem mem_signalLog {o : Notify.Event} {log : List (Event T E)} : o ∈ signalLog log ↔ .signal o ∈ log := by
  simp only [signalLog, List.mem_filterMap]
  constructor
  · rintro ⟨e, he, h⟩
    cases e <;> simp at h
    subst h; exact he
  · intro h; exact ⟨_, h, rfl⟩

theorem deliveredOf_append (l l' : List (Event T E)) : deliveredOf (l ++ l') = l'.foldl (fun ys e => match e with
    | .sys .iterates => []
    | .nextReady _ (some seg) => ys ++ seg
    | _ => ys) (deliveredOf l) := List.foldl_append

/-- Events that leave what was delivered as it is. -/
def Event.still : Event T E → Bool
  | .sys .iterates => false
  | .nextReady _ (some _) => false
  | _ => true

theorem deliveredOf_still {l l' : List (Event T E)} (h : ∀ e ∈ l', e.still = true) : deliveredOf (l ++ l') = deliveredOf l := by
  rw [deliveredOf_append]
  generalize deliveredOf l = ys
  induction l' generalizing ys with
  | nil => rfl
  | cons e l' ih =>
    have he := h e List.mem_cons_self
    rw [List.foldl_cons, ih fun e' h' => h e' (List.mem_cons_of_mem _ h')]
    cases e with
    | sys o => cases o <;> first | rfl | simp [Event.still] at he
    | nextReady k r => cases r <;> first | rfl | simp [Event.still] at he
    | _ => rfl

theorem yieldedOf_still {l l' : List (Obs T E)} (h : ∀ o ∈ l', o ≠ .iterates ∧ ∀ seg, o ≠ .yielded seg) : yieldedOf (l ++ l') = yieldedOf l := by
  induction l' generalizing l with
  | nil => rw [List.append_nil]
  | cons o l' ih =>
    have := @ih (l ++ [o]) (fun o' h' => h o' (List.mem_cons_of_mem _ h'))
    rw [List.append_assoc] at this
    rw [show o :: l' = [o] ++ l' from rfl, this, yieldedOf_append]
    have ho := h o List.mem_cons_self
    cases o with
    | iterates => exact absurd rfl ho.1
    | yielded seg => exact absurd rfl (ho.2 seg)
    | _ => rfl

/-! ## The moves of the sequence, as its user sees them -/

theorem move_loader {b : Build} {s s' : Loading T E} {m : Move T E} {new : List (Obs T E)}
    (hm : (∃ env script, m = .load env script) ∨ ∃ env, m = .forceCommit env) (he : s.move b m = Run.ret s')
    (hl : s'.log = s.log ++ new) : s'.reader = s.reader ∧ ∀ o ∈ new, (∃ xs, o = .committed xs) ∨ ∃ told r, o = .loaded told r := by
  rcases hm with ⟨env, script, rfl⟩ | ⟨env, rfl⟩
  · simp only [Loading.move] at he
    obtain ⟨⟨⟨r, told⟩, cells, loader⟩, -, he⟩ := Run.bind_eq_ret.mp he
    obtain ⟨new', -, he⟩ := Run.bind_eq_ret.mp he
    simp only [Run.pure_eq_ret] at he
    subst he
    simp only [List.append_assoc, List.append_cancel_left_eq] at hl
    subst hl
    refine ⟨rfl, fun o ho => ?_⟩
    simp at ho
    rcases ho with ⟨xs, -, rfl⟩ | rfl
    · exact .inl ⟨_, rfl⟩
    · exact .inr ⟨_, _, rfl⟩
  · simp only [Loading.move] at he
    obtain ⟨⟨cells, loader⟩, -, he⟩ := Run.bind_eq_ret.mp he
    obtain ⟨new', -, he⟩ := Run.bind_eq_ret.mp he
    simp only [Run.pure_eq_ret] at he
    subst he
    simp only [List.append_cancel_left_eq] at hl
    subst hl
    refine ⟨rfl, fun o ho => ?_⟩
    simp at ho
    obtain ⟨xs, -, rfl⟩ := ho
    exact .inl ⟨_, rfl⟩

theorem move_next {b : Build} {s s' : Loading T E} {c : Cursor} (hr : s.reader = .iterating c) (he : s.move b .next = Run.ret s') :
    (∃ c', s'.reader = .iterating c') ∧ ((∃ seg, s'.log = s.log ++ [.yielded seg]) ∨ s'.log = s.log ++ [.exhausted]) := by
  simp only [Loading.move, hr] at he
  obtain ⟨⟨o, c'⟩, -, he⟩ := Run.bind_eq_ret.mp he
  cases o <;> simp only [Run.pure_eq_ret] at he <;> subst he
  · exact ⟨⟨_, rfl⟩, .inr rfl⟩
  · exact ⟨⟨_, rfl⟩, .inl ⟨_, rfl⟩⟩

theorem move_get {b : Build} {s s' : Loading T E} {n r : Nat} {c : Cursor} (hr : s.reader = .advancing n r c)
    (he : s.move b .get = Run.ret s') :
    ((∃ r' c', s'.reader = .advancing n r' c') ∧ s'.log = s.log) ∨ (s'.reader = .idle ∧ ∃ r', s'.log = s.log ++ [.advanced n r']) := by
  simp only [Loading.move, hr] at he
  obtain ⟨turn, -, he⟩ := Run.bind_eq_ret.mp he
  rcases turn with ⟨k, c'⟩ | ⟨k, c'⟩ <;> simp only [Run.pure_eq_ret] at he <;> subst he
  · exact .inr ⟨rfl, _, rfl⟩
  · exact .inl ⟨⟨_, _, rfl⟩, rfl⟩

/-! ## The invariant -/

/-- What the buffer is doing while the user does this. -/
def Task.Fits : Task → Reader → Prop
  | .idle, r => r = .idle
  | .stream, r => ∃ c, r = .iterating c
  | .next _, r => ∃ c, r = .iterating c
  | .nextPoll .., r => ∃ c, r = .iterating c
  | .advance .., r => r = .idle
  | .advancePoll _ _ _ .advancing, r => ∃ n m c, r = .advancing n m c
  | .advancePoll .., r => r = .idle

structure Inv (b : Build) (st : State T E) : Prop where
  sys : ∃ ms, Reaches b ms st.sys
  signal : Notify.Reachable st.signal
  sysLog : st.sys.log = Runner.sysLog st.log
  signalLog : st.signal.log = Runner.signalLog st.log
  done : st.doneFlag = true ↔ .done ∈ st.log
  fits : st.task.Fits st.sys.reader
  delivered : deliveredOf st.log = yieldedOf st.sys.log

theorem reaches_move {b : Build} {s s' : Loading T E} {m : Move T E} (h : ∃ ms, Reaches b ms s) (he : s.move b m = Run.ret s') :
    ∃ ms, Reaches b ms s' := by
  obtain ⟨ms, c, h⟩ := h
  exact ⟨ms ++ [m], c, run_append.mpr ⟨s, h, run_single.mpr he⟩⟩

theorem inv {b : Build} {st : State T E} (h : Reachable b st) : Inv b st := by
  induction h with
  | init c =>
    exact ⟨⟨[], c, rfl⟩, .init, rfl, rfl, by simp [init], rfl, rfl⟩
  | @step st st' _ hs hi =>
    have hfits := hi.fits
    cases hs with
    | loader m sys new hm he hl =>
      obtain ⟨hr, hnew⟩ := move_loader hm he hl
      refine ⟨reaches_move hi.sys he, hi.signal, ?_, ?_, ?_, by rw [hr]; exact hfits, ?_⟩
      · rw [hl, hi.sysLog, sysLog_append, sysLog_map]
      · rw [hi.signalLog, signalLog_append, signalLog_sys, List.append_nil]
      · simp [hi.done]
      · rw [hl, yieldedOf_still, deliveredOf_still, hi.delivered]
        · intro e he
          obtain ⟨o, ho, rfl⟩ := List.mem_map.mp he
          rcases hnew o ho with ⟨xs, rfl⟩ | ⟨t, r, rfl⟩ <;> rfl
        · intro o ho
          rcases hnew o ho with ⟨xs, rfl⟩ | ⟨t, r, rfl⟩ <;> simp
    | setDone =>
      refine ⟨hi.sys, hi.signal, ?_, ?_, by simp, hfits, ?_⟩
      · rw [hi.sysLog, sysLog_append]; simp [Runner.sysLog]
      · rw [hi.signalLog, signalLog_append]; simp [Runner.signalLog]
      · rw [deliveredOf_append]; exact hi.delivered
    | signal signal new hstep hl =>
      refine ⟨hi.sys, .step hi.signal hstep, ?_, ?_, by simp [hi.done], hfits, ?_⟩
      · rw [hi.sysLog, sysLog_append, sysLog_signal, List.append_nil]
      · rw [hl, hi.signalLog, signalLog_append, signalLog_map]
      · rw [deliveredOf_still, hi.delivered]
        intro e he
        obtain ⟨o, -, rfl⟩ := List.mem_map.mp he
        rfl
    | segments sys ht he =>
      rw [ht] at hfits
      have hfits : st.sys.reader = .idle := hfits
      have he' := he
      simp only [Loading.move, hfits, Run.pure_eq_ret] at he
      subst he
      refine ⟨reaches_move hi.sys he', hi.signal, ?_, ?_, by simp [hi.done], ⟨_, rfl⟩, ?_⟩
      · rw [sysLog_append, ← hi.sysLog]; rfl
      · rw [hi.signalLog, signalLog_append]; simp [Runner.signalLog]
      · rw [deliveredOf_append, yieldedOf_append]; rfl
    | dropStream sys ht he =>
      rw [ht] at hfits
      obtain ⟨c, hfits⟩ := hfits
      have he' := he
      simp only [Loading.move, hfits, Run.pure_eq_ret] at he
      subst he
      exact ⟨reaches_move hi.sys he', hi.signal, hi.sysLog, hi.signalLog, hi.done, rfl, hi.delivered⟩
    | firstSome k fut sys seg ht he hl | secondSome k i fut sys seg ht he hl =>
      rw [ht] at hfits
      obtain ⟨c, hfits⟩ := hfits
      refine ⟨reaches_move hi.sys he, hi.signal, ?_, ?_, by simp [hi.done], (move_next hfits he).1, ?_⟩
      · rw [hl, sysLog_append, ← hi.sysLog]; rfl
      · rw [hi.signalLog, signalLog_append]; simp [Runner.signalLog]
      · rw [hl, deliveredOf_append, yieldedOf_append]; simp [hi.delivered]
    | firstNone k fut sys ht he hl | secondNone k i fut sys ht he hl =>
      rw [ht] at hfits
      obtain ⟨c, hfits⟩ := hfits
      refine ⟨reaches_move hi.sys he, hi.signal, ?_, ?_, by simp [hi.done], (move_next hfits he).1, ?_⟩
      · rw [hl, sysLog_append, ← hi.sysLog]; rfl
      · rw [hi.signalLog, signalLog_append]; simp [Runner.signalLog]
      · rw [hl, deliveredOf_append, yieldedOf_append]; simp [hi.delivered]
    | next ht | nextDrop fut ht | nextPoll ht | nextWaitReady k p fut ht _ | nextWaitPending k p fut ht _ | isDone k i fut ht _
      | notDone k i fut ht _ | advance delta ht | advancePoll remain ht | advanceWaitReady k p remain fut ht _
      | advanceWaitPending k p remain fut ht _ | advanceReady k remain r fut ht _ | advancePending k remain r fut ht _ _ =>
      rw [ht] at hfits
      refine ⟨hi.sys, hi.signal, ?_, ?_, by simp [hi.done], hfits, ?_⟩
      · first
          | exact hi.sysLog
          | (rw [sysLog_append, ← hi.sysLog]; exact (List.append_nil _).symm)
      · first
          | exact hi.signalLog
          | (rw [signalLog_append, ← hi.signalLog]; exact (List.append_nil _).symm)
      · first
          | exact hi.delivered
          | (rw [deliveredOf_append]; exact hi.delivered)
    | nextPollWait i signal ht hlt hsig | advancePollWait i remain signal ht hlt hsig =>
      rw [ht] at hfits
      refine ⟨hi.sys, ?_, ?_, ?_, by simp [hi.done], hfits, ?_⟩
      · rw [hsig]; exact .step hi.signal (.pollBegin st.signal i hlt)
      · rw [sysLog_append, ← hi.sysLog]; exact (List.append_nil _).symm
      · rw [hsig, signalLog_append, ← hi.signalLog]; rfl
      · rw [deliveredOf_append]; exact hi.delivered
    | makeWait k fut signal ht hsig | advanceMakeWait k remain fut signal ht hsig =>
      rw [ht] at hfits
      refine ⟨hi.sys, ?_, ?_, ?_, by simp [hi.done], hfits, ?_⟩
      · rw [hsig]; exact .step hi.signal (.wait st.signal)
      · rw [sysLog_append, ← hi.sysLog]; exact (List.append_nil _).symm
      · rw [hsig, signalLog_append, ← hi.signalLog]; rfl
      · rw [deliveredOf_append]; exact hi.delivered
    | replace k remain fut sys ht he =>
      rw [ht] at hfits
      have hfits : st.sys.reader = .idle := hfits
      have he' := he
      simp only [Loading.move, hfits, Run.pure_eq_ret] at he
      subst he
      exact ⟨reaches_move hi.sys he', hi.signal, hi.sysLog, hi.signalLog, hi.done, ⟨_, _, _, rfl⟩, hi.delivered⟩
    | advancing k remain fut sys ht he hl =>
      have hfits' := hfits
      rw [ht] at hfits
      obtain ⟨n, r, c, hfits⟩ := hfits
      rcases move_get hfits he with ⟨⟨r', c', hr⟩, -⟩ | ⟨-, r', hl'⟩
      · refine ⟨reaches_move hi.sys he, hi.signal, by rw [hl]; exact hi.sysLog, hi.signalLog, hi.done, ?_, by rw [hl]; exact hi.delivered⟩
        simp only [ht]
        exact ⟨_, _, _, hr⟩
      · rw [hl] at hl'
        simp at hl'
    | advanced k remain n r fut sys ht he hl =>
      rw [ht] at hfits
      obtain ⟨n', r₀, c, hfits⟩ := hfits
      rcases move_get hfits he with ⟨-, hl'⟩ | ⟨hr, -⟩
      · rw [hl] at hl'
        simp at hl'
      · refine ⟨reaches_move hi.sys he, hi.signal, ?_, ?_, by simp [hi.done], hr, ?_⟩
        · rw [hl, sysLog_append, ← hi.sysLog]; rfl
        · rw [hi.signalLog, signalLog_append]; simp [Runner.signalLog]
        · rw [hl, deliveredOf_append, yieldedOf_append]; exact hi.delivered

/-! ## What led to where the user is -/

/-- The last thing the user did. -/
def lastOwn (log : List (Event T E)) : Option (Event T E) := (log.filter Event.own).getLast?

theorem lastOwn_env {log new : List (Event T E)} (h : ∀ e ∈ new, e.own = false) : lastOwn (log ++ new) = lastOwn log := by
  have : new.filter Event.own = [] := List.filter_eq_nil_iff.mpr fun e he => by simp [h e he]
  rw [lastOwn, List.filter_append, this, List.append_nil]
  rfl

theorem lastOwn_own {log new : List (Event T E)} {e : Event T E} (h : e.own = true) : lastOwn (log ++ new ++ [e]) = some e := by
  simp [lastOwn, List.filter_append, h]

theorem lastOwn_split {pre post : List (Event T E)} {e : Event T E} (h : e.own = true) (hp : ∀ e ∈ post, e.own = false) :
    lastOwn (pre ++ e :: post) = some e := by
  have := lastOwn_own (log := pre) (new := []) h
  rw [show pre ++ e :: post = (pre ++ [] ++ [e]) ++ post by simp, lastOwn_env hp, this]

/-- Where the last event of some kind is, is unique. -/
theorem split_unique {p : Event T E → Bool} {pre post pre' post' : List (Event T E)} {e e' : Event T E} (h : p e = true) (h' : p e' = true)
    (hp : ∀ e ∈ post, p e = false) (hp' : ∀ e ∈ post', p e = false) (heq : pre ++ e :: post = pre' ++ e' :: post') :
    pre = pre' ∧ e = e' ∧ post = post' := by
  rcases List.append_eq_append_iff.mp heq with ⟨a, h1, h2⟩ | ⟨a, h1, h2⟩
  · cases a with
    | nil => simp at h1 h2; exact ⟨h1.symm, h2.1, h2.2⟩
    | cons x a =>
      simp at h2
      have := hp e' (by rw [h2.2]; simp)
      rw [h'] at this; simp at this
  · cases a with
    | nil => simp at h1 h2; exact ⟨h1, h2.1.symm, h2.2.symm⟩
    | cons x a =>
      simp at h2
      have := hp' e (by rw [h2.2]; simp)
      rw [h] at this; simp at this

/-- The user is not between two polls. -/
def NotPending (log : List (Event T E)) : Prop := ∀ k, lastOwn log ≠ some (.pollPending k)

/-- Events that leave alone what was delivered and the position of the sequence. -/
def Event.quiet : Event T E → Bool
  | .sys (.loaded ..) => true
  | .sys (.committed _) => true
  | .signal _ => true
  | .done => true
  | .pollBegin .. => true
  | .wokeSelf _ => true
  | .pollPending _ => true
  | _ => false

theorem Event.quiet_of_env {e : Event T E} (h : e.own = false) : e.quiet = true := by
  cases e with
  | sys o => cases o <;> first | rfl | simp [Event.own] at h
  | signal => rfl
  | done => rfl
  | _ => simp [Event.own] at h

theorem Event.still_of_quiet {e : Event T E} (h : e.quiet = true) : e.still = true := by
  cases e with
  | sys o => cases o <;> first | rfl | simp [Event.quiet] at h
  | nextReady _ r => simp [Event.quiet] at h
  | _ => rfl

theorem consumedOf_quiet {l : List (Event T E)} (h : ∀ e ∈ l, e.quiet = true) : consumedOf (sysLog l) = 0 := by
  induction l with
  | nil => rfl
  | cons e l ih =>
    have he := h e List.mem_cons_self
    have := ih fun e' h' => h e' (List.mem_cons_of_mem _ h')
    cases e with
    | sys o => cases o <;> first | exact this | simp [Event.quiet] at he
    | _ => exact this

/-- After the second look at the iterator nothing was left, `done_flag` was not set yet, and the `i`th `Wait` was there. -/
def Asked (log : List (Event T E)) (i : Nat) : Prop := ∃ A B, log = A ++ B ∧ (∀ e ∈ B, e.quiet = true) ∧
  .signal (.waitMade i) ∈ A ∧ deliveredOf A = availableOf A ∧ .done ∉ A

/-- The last poll returned `Pending`, and arranged to be woken. -/
def Slept (log : List (Event T E)) (i : Nat) : Prop := ∃ f k A B, log = A ++ .pollPending k :: B ∧ (∀ e ∈ B, e.own = false) ∧
  .signal (.waitMade i) ∈ A ∧
  (.wokeSelf k ∈ A ∨ ∃ p, .pollBegin f k (some p) ∈ A ∧ .signal (.pollBegin p i) ∈ A ∧ .signal (.pollPending p) ∈ A)

def NextPc.Hist (log : List (Event T E)) (k : Nat) (fut : Option Nat) : NextPc → Prop
  | .wait p => ∃ i, fut = some i ∧ Asked log i ∧ .pollBegin .next k (some p) ∈ log ∧ .signal (.pollBegin p i) ∈ log
  | .first => ∃ o, .pollBegin .next k o ∈ log
  | .makeWait => ∃ o, .pollBegin .next k o ∈ log
  | .second i => .signal (.waitMade i) ∈ log ∧ ∃ o, .pollBegin .next k o ∈ log
  | .loadDone i => ∃ A B, log = A ++ B ∧ (∀ e ∈ B, e.own = false) ∧ .signal (.waitMade i) ∈ A ∧ deliveredOf A = availableOf A ∧
      ∃ o, .pollBegin .next k o ∈ A

def AdvancePc.Hist (log : List (Event T E)) (k : Nat) (fut : Option Nat) : AdvancePc → Prop
  | .wait p => ∃ i, fut = some i ∧ .signal (.waitMade i) ∈ log ∧ .pollBegin .advance k (some p) ∈ log ∧ .signal (.pollBegin p i) ∈ log
  | .makeWait => True
  | .replace => ∃ i, fut = some i ∧ .signal (.waitMade i) ∈ log
  | .advancing => ∃ i, fut = some i ∧ .signal (.waitMade i) ∈ log
  | .check _ => ∃ i, fut = some i ∧ .signal (.waitMade i) ∈ log

def Task.Hist (log : List (Event T E)) : Task → Prop
  | .idle => NotPending log
  | .stream => NotPending log
  | .next none => NotPending log
  | .next (some i) => Asked log i ∧ Slept log i
  | .nextPoll k fut pc => NotPending log ∧ pc.Hist log k fut
  | .advance none _ => NotPending log
  | .advance (some i) _ => Slept log i
  | .advancePoll k fut _ pc => NotPending log ∧ pc.Hist log k fut

theorem NotPending.env {log new : List (Event T E)} (h : NotPending log) (hn : ∀ e ∈ new, e.own = false) : NotPending (log ++ new) := by
  intro k
  rw [lastOwn_env hn]
  exact h k

theorem NotPending.own {log new : List (Event T E)} {e : Event T E} (h : e.own = true) (hne : ∀ k, e ≠ .pollPending k) :
    NotPending (log ++ new ++ [e]) := by
  intro k
  rw [lastOwn_own h]
  simp [hne k]

theorem Asked.more {log new : List (Event T E)} {i : Nat} (h : Asked log i) (hn : ∀ e ∈ new, e.quiet = true) : Asked (log ++ new) i := by
  obtain ⟨A, B, rfl, hB, h1⟩ := h
  refine ⟨A, B ++ new, by rw [List.append_assoc], fun e he => ?_, h1⟩
  rcases List.mem_append.mp he with he | he
  · exact hB e he
  · exact hn e he

theorem Slept.env {log new : List (Event T E)} {i : Nat} (h : Slept log i) (hn : ∀ e ∈ new, e.own = false) : Slept (log ++ new) i := by
  obtain ⟨f, k, A, B, rfl, hB, h1⟩ := h
  refine ⟨f, k, A, B ++ new, by simp, fun e he => ?_, h1⟩
  rcases List.mem_append.mp he with he | he
  · exact hB e he
  · exact hn e he

theorem Task.Hist.env {log new : List (Event T E)} {t : Task} (h : t.Hist log) (hn : ∀ e ∈ new, e.own = false) : t.Hist (log ++ new) := by
  have hq : ∀ e ∈ new, e.quiet = true := fun e he => Event.quiet_of_env (hn e he)
  have hm : ∀ {e : Event T E}, e ∈ log → e ∈ log ++ new := fun h => List.mem_append_left _ h
  cases t with
  | idle => exact NotPending.env h hn
  | stream => exact NotPending.env h hn
  | next fut =>
    cases fut with
    | none => exact NotPending.env h hn
    | some i => exact ⟨h.1.more hq, h.2.env hn⟩
  | nextPoll k fut pc =>
    refine ⟨h.1.env hn, ?_⟩
    have h := h.2
    cases pc with
    | wait p =>
      obtain ⟨i, h1, h2, h3, h4⟩ := h
      exact ⟨i, h1, h2.more hq, hm h3, hm h4⟩
    | first | makeWait =>
      obtain ⟨o, h1⟩ := h
      exact ⟨o, hm h1⟩
    | second i =>
      obtain ⟨h0, o, h1⟩ := h
      exact ⟨hm h0, o, hm h1⟩
    | loadDone i =>
      obtain ⟨A, B, rfl, hB, h1⟩ := h
      refine ⟨A, B ++ new, by rw [List.append_assoc], fun e he => ?_, h1⟩
      rcases List.mem_append.mp he with he | he
      · exact hB e he
      · exact hn e he
  | advance fut remain =>
    cases fut with
    | none => exact NotPending.env h hn
    | some i => exact Slept.env h hn
  | advancePoll k fut remain pc =>
    refine ⟨h.1.env hn, ?_⟩
    have h := h.2
    cases pc with
    | wait p =>
      obtain ⟨i, h1, h2, h3, h4⟩ := h
      exact ⟨i, h1, hm h2, hm h3, hm h4⟩
    | makeWait => trivial
    | replace | advancing | check =>
      obtain ⟨i, h1, h2⟩ := h
      exact ⟨i, h1, hm h2⟩

/-- Nothing is left when the iterator says so. -/
theorem exhausted {b : Build} {st : State T E} {sys : Loading T E} (hi : Inv b st) (he : st.sys.move b .next = Run.ret sys)
    (hl : sys.log = st.sys.log ++ [.exhausted]) :
    deliveredOf (st.log ++ [.sys .exhausted]) = availableOf (st.log ++ [.sys .exhausted]) := by
  obtain ⟨ms, hr⟩ := reaches_move hi.sys he
  have := C59_exhausted (post := []) hr hl
  rw [deliveredOf_append]
  have e : sysLog (st.log ++ [.sys .exhausted]) = sysLog st.log ++ [.exhausted] := by rw [sysLog_append]; rfl
  rw [availableOf, e, committedOf, segmentsOf_append, consumedOf_append, ← hi.sysLog]
  simp only [segmentsOf, consumedOf, List.append_nil, Nat.add_zero, List.foldl_cons, List.foldl_nil]
  rw [hi.delivered, this]
  rfl

theorem hist {b : Build} {st : State T E} (h : Reachable b st) : st.task.Hist st.log := by
  induction h with
  | init c => intro k; simp [init, lastOwn]
  | @step st st' hr hs ih =>
    have hi := inv hr
    have single : ∀ {e : Event T E}, e.own = true → (∀ k, e ≠ .pollPending k) → NotPending (st.log ++ [e]) := by
      intro e h1 h2
      have := NotPending.own (log := st.log) (new := []) h1 h2
      rwa [List.append_nil] at this
    have last : ∀ {e₀ e : Event T E}, e.own = true → (∀ k, e ≠ .pollPending k) → NotPending (st.log ++ [e₀, e]) := by
      intro e₀ e h1 h2
      have := NotPending.own (log := st.log) (new := [e₀]) h1 h2
      rwa [List.append_assoc] at this
    cases hs with
    | loader m sys new hm he hl =>
      obtain ⟨-, hnew⟩ := move_loader hm he hl
      refine ih.env fun e he => ?_
      obtain ⟨o, ho, rfl⟩ := List.mem_map.mp he
      rcases hnew o ho with ⟨xs, rfl⟩ | ⟨t, r, rfl⟩ <;> rfl
    | setDone => exact ih.env (by simp [Event.own])
    | signal signal new hstep hl =>
      refine ih.env fun e he => ?_
      obtain ⟨o, -, rfl⟩ := List.mem_map.mp he
      rfl
    | segments sys ht he => exact single rfl (by simp)
    | dropStream sys ht he => rw [ht] at ih; exact ih
    | next ht => exact single rfl (by simp)
    | nextDrop fut ht => exact single rfl (by simp)
    | nextPoll ht => exact ⟨single rfl (by simp), none, by simp⟩
    | nextPollWait i signal ht hlt hsig =>
      rw [ht] at ih
      refine ⟨?_, i, rfl, ih.1.more (by simp [Event.quiet]), by simp, by simp⟩
      have := (single (e := .pollBegin .next st.polls (some st.signal.calls)) rfl (by simp)).env
        (new := [.signal (.pollBegin st.signal.calls i)]) (by simp [Event.own])
      rwa [List.append_assoc] at this
    | nextWaitReady k p fut ht hp =>
      rw [ht] at ih
      obtain ⟨h1, i, -, -, h2, -⟩ := ih
      exact ⟨h1, _, h2⟩
    | nextWaitPending k p fut ht hp =>
      rw [ht] at ih
      obtain ⟨h1, i, rfl, h2, h3, h4⟩ := ih
      refine ⟨h2.more (by simp [Event.quiet]), .next, k, st.log, [], rfl, by simp, ?_, .inr ⟨p, h3, h4, ?_⟩⟩
      · obtain ⟨A, B, e, -, h5, -⟩ := h2
        rw [e]; exact List.mem_append_left _ h5
      · rw [← mem_signalLog, ← hi.signalLog]; exact hp
    | firstSome k fut sys seg ht he hl | secondSome k i fut sys seg ht he hl => exact last rfl (by simp)
    | firstNone k fut sys ht he hl =>
      rw [ht] at ih
      obtain ⟨h1, o, h2⟩ := ih
      exact ⟨single rfl (by simp), o, List.mem_append_left _ h2⟩
    | makeWait k fut signal ht hsig =>
      rw [ht] at ih
      obtain ⟨h1, o, h2⟩ := ih
      exact ⟨h1.env (by simp [Event.own]), by simp, o, List.mem_append_left _ h2⟩
    | secondNone k i fut sys ht he hl =>
      rw [ht] at ih
      obtain ⟨h1, h2, o, h3⟩ := ih
      exact ⟨single rfl (by simp), st.log ++ [.sys .exhausted], [], by simp, by simp, List.mem_append_left _ h2, exhausted hi he hl,
        o, List.mem_append_left _ h3⟩
    | isDone k i fut ht hd => exact single rfl (by simp)
    | notDone k i fut ht hd =>
      rw [ht] at ih
      obtain ⟨h1, A, B, e, hB, h2, h3, o, h4⟩ := ih
      have hnd : .done ∉ st.log := by rw [← hi.done]; simp [hd]
      refine ⟨⟨A, B ++ [.wokeSelf k, .pollPending k], ?_, ?_, h2, h3, ?_⟩, .next, k, st.log ++ [.wokeSelf k], [], ?_, by simp, ?_, ?_⟩
      · show st.log ++ _ = _
        rw [e, List.append_assoc]
      · intro x hx
        rcases List.mem_append.mp hx with hx | hx
        · exact Event.quiet_of_env (hB x hx)
        · simp at hx
          rcases hx with rfl | rfl <;> rfl
      · intro hd'
        exact hnd (by rw [e]; exact List.mem_append_left _ hd')
      · show st.log ++ _ = _
        simp
      · rw [e]; simp [h2]
      · left; simp
    | advance delta ht => exact single rfl (by simp)
    | advancePoll remain ht => exact ⟨single rfl (by simp), trivial⟩
    | advancePollWait i remain signal ht hlt hsig =>
      rw [ht] at ih
      obtain ⟨f, k, A, B, e, hB, h1, -⟩ := ih
      refine ⟨?_, i, rfl, ?_, by simp, by simp⟩
      · have := (single (e := .pollBegin .advance st.polls (some st.signal.calls)) rfl (by simp)).env
          (new := [.signal (.pollBegin st.signal.calls i)]) (by simp [Event.own])
        rwa [List.append_assoc] at this
      · rw [e]; simp [h1]
    | advanceWaitReady k p remain fut ht hp =>
      rw [ht] at ih
      exact ⟨ih.1, trivial⟩
    | advanceWaitPending k p remain fut ht hp =>
      rw [ht] at ih
      obtain ⟨h1, i, rfl, h2, h3, h4⟩ := ih
      refine ⟨.advance, k, st.log, [], rfl, by simp, h2, .inr ⟨p, h3, h4, ?_⟩⟩
      rw [← mem_signalLog, ← hi.signalLog]; exact hp
    | advanceMakeWait k remain fut signal ht hsig =>
      rw [ht] at ih
      exact ⟨ih.1.env (by simp [Event.own]), _, rfl, by simp⟩
    | replace k remain fut sys ht he =>
      rw [ht] at ih
      exact ih
    | advancing k remain fut sys ht he hl =>
      exact ih
    | advanced k remain n r fut sys ht he hl =>
      rw [ht] at ih
      obtain ⟨h1, i, h2, h3⟩ := ih
      exact ⟨single rfl (by simp), i, h2, List.mem_append_left _ h3⟩
    | advanceReady k remain r fut ht hd => exact single rfl (by simp)
    | advancePending k remain r fut ht hne hd =>
      rw [ht] at ih
      obtain ⟨h1, i, rfl, h3⟩ := ih
      exact ⟨.advance, k, st.log ++ [.wokeSelf k], [], by simp, by simp, List.mem_append_left _ h3, .inl (by simp)⟩

/-! ## Looking back -/

theorem step_log {b : Build} {st st' : State T E} (h : Step b st st') : ∃ new, st'.log = st.log ++ new := by
  cases h <;> first | exact ⟨_, rfl⟩ | exact ⟨[], (List.append_nil _).symm⟩

/-- Whatever is in the log was put there by a step. -/
theorem moment {b : Build} {st : State T E} (h : Reachable b st) {pre post : List (Event T E)} {e : Event T E}
    (hl : st.log = pre ++ e :: post) : ∃ st₀ st₁ n₁ n₂, Reachable b st₀ ∧ Step b st₀ st₁ ∧ st₁.log = st₀.log ++ (n₁ ++ e :: n₂) ∧
      pre = st₀.log ++ n₁ := by
  induction h generalizing post with
  | init c => simp [init] at hl
  | @step st st' hr hs ih =>
    obtain ⟨new, hn⟩ := step_log hs
    rw [hn] at hl
    rcases List.append_eq_append_iff.mp hl with ⟨a, h1, h2⟩ | ⟨a, h1, h2⟩
    · exact ⟨st, st', a, post, hr, hs, by rw [hn, h2], h1⟩
    · cases a with
      | nil =>
        simp at h1 h2
        exact ⟨st, st', [], post, hr, hs, by rw [hn, ← h2]; simp, by simp [h1]⟩
      | cons x a =>
        simp at h2
        rw [← h2.1] at h1
        exact ih h1

theorem consumed_le {b : Build} {st : State T E} (h : Reachable b st) {pre post : List (Event T E)} (hl : st.log = pre ++ post) :
    consumedOf (sysLog pre) ≤ (committedOf (sysLog pre)).length := by
  have hi := inv h
  obtain ⟨ms, hr⟩ := hi.sys
  have hs := hi.sysLog
  rw [hl, sysLog_append] at hs
  generalize sysLog pre = l at hs ⊢
  generalize sysLog post = l' at hs
  clear hl
  obtain ⟨r, rfl⟩ : ∃ r, l = List.reverse r := ⟨l.reverse, by simp⟩
  induction r generalizing l' with
  | nil => exact Nat.zero_le _
  | cons o r ih =>
    have hs' : st.sys.log = r.reverse ++ o :: l' := by rw [hs]; simp
    have := ih _ hs'
    rw [List.reverse_cons, consumedOf_append, committedOf, segmentsOf_append, List.flatten_append, List.length_append]
    change _ ≤ (committedOf _).length + _
    cases o with
    | advanced n r =>
      have := (C58_skips hr hs').1
      simp only [consumedOf]
      omega
    | _ => simp only [consumedOf]; omega

theorem committedOf_append (l l' : List (Obs T E)) : committedOf (l ++ l') = committedOf l ++ committedOf l' := by
  simp [committedOf, segmentsOf_append]

/-- While nothing is skipped, what there is grows by what is made visible. -/
theorem available_grows {b : Build} {st : State T E} (h : Reachable b st) {A B C : List (Event T E)} (hl : st.log = A ++ B ++ C)
    (hB : consumedOf (sysLog B) = 0) : availableOf (A ++ B) = availableOf A ++ committedOf (sysLog B) := by
  have := consumed_le h (pre := A) (post := B ++ C) (by rw [hl, List.append_assoc])
  rw [availableOf, sysLog_append, committedOf_append, consumedOf_append, hB, Nat.add_zero, List.drop_append_of_le_length this]
  rfl

theorem committedOf_nil {l : List (Event T E)} (h : ∀ xs, .sys (.committed xs) ∉ l) : committedOf (sysLog l) = [] := by
  induction l with
  | nil => rfl
  | cons e l ih =>
    have := ih fun xs hm => h xs (List.mem_cons_of_mem _ hm)
    cases e with
    | sys o =>
      cases o with
      | committed xs => exact absurd List.mem_cons_self (h xs)
      | _ => exact this
    | _ => exact this

/-- Polls are numbered as they begin. -/
structure Numbered (st : State T E) : Prop where
  pending : ∀ k, .pollPending k ∈ st.log → k < st.polls
  next : ∀ k fut pc, st.task = .nextPoll k fut pc → k < st.polls
  advance : ∀ k fut remain pc, st.task = .advancePoll k fut remain pc → k < st.polls

theorem numbered {b : Build} {st : State T E} (h : Reachable b st) : Numbered st := by
  induction h with
  | init c => exact ⟨by simp [init], by simp [init], by simp [init]⟩
  | @step st st' hr hs ih =>
    obtain ⟨h1, h2, h3⟩ := ih
    cases hs with
    | loader m sys new hm he hl => exact ⟨fun k hk => h1 k (by simpa using hk), h2, h3⟩
    | signal signal new hstep hl => exact ⟨fun k hk => h1 k (by simpa using hk), h2, h3⟩
    | setDone => exact ⟨fun k hk => h1 k (by simpa using hk), h2, h3⟩
    | _ => constructor <;> grind

/-! ## `advance` -/

/-- Not about `advance`. -/
def Event.plain : Event T E → Bool
  | .sys (.advanced ..) => false
  | .advanceCall _ => false
  | .advanceReady _ => false
  | _ => true

/-- `buffer.advance` has not returned yet. -/
def AdvFresh (log : List (Event T E)) (d : Nat) : Prop := ∃ l₁ l₂, log = l₁ ++ .advanceCall d :: l₂ ∧ ∀ e ∈ l₂, e.plain = true

/-- It has, and since then nothing was skipped. -/
def AdvAfter (log : List (Event T E)) : Prop := ∃ l₁ d a r c, log = l₁ ++ .advanceCall d :: a ++ .sys (.advanced d r) :: c ∧
  (∀ e ∈ a, e.plain = true) ∧ (∀ e ∈ c, e.plain = true ∨ e = .sys (.advanced 0 0)) ∧ r = d - (availableOf (l₁ ++ .advanceCall d :: a)).length

def Task.Adv (log : List (Event T E)) (reader : Reader) : Task → Prop
  | .advance _ remain => AdvFresh log remain ∨ AdvAfter log ∧ remain = 0
  | .advancePoll _ _ remain .advancing => remain = 0 ∧ ∃ n m c, reader = .advancing n m c ∧ (AdvFresh log n ∨ AdvAfter log ∧ n = 0)
  | .advancePoll _ _ remain (.check _) => AdvAfter log ∧ remain = 0
  | .advancePoll _ _ remain _ => AdvFresh log remain ∨ AdvAfter log ∧ remain = 0
  | _ => True

theorem AdvFresh.more {log new : List (Event T E)} {d : Nat} (h : AdvFresh log d) (hn : ∀ e ∈ new, e.plain = true) :
    AdvFresh (log ++ new) d := by
  obtain ⟨l₁, l₂, rfl, h⟩ := h
  refine ⟨l₁, l₂ ++ new, by simp, fun e he => ?_⟩
  rcases List.mem_append.mp he with he | he
  · exact h e he
  · exact hn e he

theorem AdvAfter.more {log new : List (Event T E)} (h : AdvAfter log) (hn : ∀ e ∈ new, e.plain = true ∨ e = .sys (.advanced 0 0)) :
    AdvAfter (log ++ new) := by
  obtain ⟨l₁, d, a, r, c, rfl, h1, h2, h3⟩ := h
  refine ⟨l₁, d, a, r, c ++ new, by simp, h1, fun e he => ?_, h3⟩
  rcases List.mem_append.mp he with he | he
  · exact h2 e he
  · exact hn e he

theorem adv_more {log new : List (Event T E)} {d : Nat} (h : AdvFresh log d ∨ AdvAfter log ∧ d = 0) (hn : ∀ e ∈ new, e.plain = true) :
    AdvFresh (log ++ new) d ∨ AdvAfter (log ++ new) ∧ d = 0 := by
  rcases h with h | ⟨h, h'⟩
  · exact .inl (h.more hn)
  · exact .inr ⟨h.more fun e he => .inl (hn e he), h'⟩

theorem Task.Adv.more {log new : List (Event T E)} {t : Task} {reader : Reader} (h : t.Adv log reader) (hn : ∀ e ∈ new, e.plain = true) :
    t.Adv (log ++ new) reader := by
  cases t with
  | advance => exact adv_more h hn
  | advancePoll k fut remain pc =>
    cases pc with
    | advancing =>
      obtain ⟨h0, n, m, c, h1, h2⟩ := h
      exact ⟨h0, n, m, c, h1, adv_more h2 hn⟩
    | check r => exact ⟨h.1.more fun e he => .inl (hn e he), h.2⟩
    | _ => exact adv_more h hn
  | _ => trivial

theorem adv {b : Build} {st : State T E} (h : Reachable b st) : st.task.Adv st.log st.sys.reader := by
  induction h with
  | init c => trivial
  | @step st st' hr hs ih =>
    have hi := inv hr
    cases hs with
    | loader m sys new hm he hl =>
      obtain ⟨hrd, hnew⟩ := move_loader hm he hl
      simp only [hrd]
      refine ih.more fun e he => ?_
      obtain ⟨o, ho, rfl⟩ := List.mem_map.mp he
      rcases hnew o ho with ⟨xs, rfl⟩ | ⟨t, r, rfl⟩ <;> rfl
    | setDone => exact ih.more (by simp [Event.plain])
    | signal signal new hstep hl =>
      refine ih.more fun e he => ?_
      obtain ⟨o, -, rfl⟩ := List.mem_map.mp he
      rfl
    | advance delta ht => exact .inl ⟨st.log, [], rfl, by simp⟩
    | advancePoll remain ht | advancePollWait i remain signal ht hlt hsig | advanceMakeWait k remain fut signal ht hsig
      | advanceWaitPending k p remain fut ht hp =>
      rw [ht] at ih
      exact adv_more ih (by simp [Event.plain])
    | advanceWaitReady k p remain fut ht hp =>
      rw [ht] at ih
      exact ih
    | replace k remain fut sys ht he =>
      have hfits := hi.fits
      rw [ht] at hfits ih
      have hfits : st.sys.reader = .idle := hfits
      simp only [Loading.move, hfits, Run.pure_eq_ret] at he
      subst he
      exact ⟨rfl, _, _, _, rfl, ih⟩
    | advancing k remain fut sys ht he hl =>
      simp only [ht] at ih ⊢
      obtain ⟨h0, n, m, c, h1, h2⟩ := ih
      rcases move_get h1 he with ⟨⟨r', c', hr⟩, -⟩ | ⟨-, r', hl'⟩
      · exact ⟨h0, _, _, _, hr, h2⟩
      · rw [hl] at hl'
        simp at hl'
    | advanced k remain n r fut sys ht he hl =>
      simp only [ht] at ih ⊢
      obtain ⟨h0, n', m, c, h1, h2⟩ := ih
      rcases move_get h1 he with ⟨-, hl'⟩ | ⟨-, r', hl'⟩
      · rw [hl] at hl'
        simp at hl'
      · rw [hl] at hl'
        simp at hl'
        obtain ⟨rfl, rfl⟩ := hl'
        obtain ⟨ms, hreach⟩ := reaches_move hi.sys he
        have hskip := (C58_skips (post := []) hreach hl).1
        rw [hi.sysLog] at hskip
        refine ⟨?_, h0⟩
        rcases h2 with ⟨l₁, l₂, h3, h4⟩ | ⟨h3, rfl⟩
        · refine ⟨l₁, n, l₂, r, [], by rw [h3], h4, by simp, ?_⟩
          rw [← h3, hskip, availableOf, List.length_drop]
        · refine h3.more fun e he => .inr ?_
          simp at he
          rw [he, hskip, Nat.zero_sub]
    | advancePending k remain r fut ht hne hd =>
      rw [ht] at ih
      exact adv_more (.inr ih) (by simp [Event.plain])
    | _ => trivial

end Parcom.Runner
