import Verif.Props.AdvanceResolves
import Verif.Props.RunnerWeak
/-!
# After the end nothing waits: C130

`DefaultSegmentsNext::poll` (segments.rs:83-108) and `DefaultSequenceAdvance::poll` (advance.rs:38-65) return `Pending` only because
they wait for more items. Once `done_flag` is set there are no more: a future that is made, or first polled, then is ready at once.
-/
namespace Parcom.Runner
open Parcom.Spec
variable {T E : Type} {b : Build} {st : State T E}

/-- Is a poll without a `Wait`, which began when `done_flag` had been set. -/
def Late (log : List (Event T E)) (k : Nat) : Prop :=
  ∃ l₁ l₂ f, log = l₁ ++ .pollBegin f k none :: l₂ ∧ .done ∈ l₁

theorem Late.mem {log : List (Event T E)} {k : Nat} (h : Late log k) : (∃ f, .pollBegin f k none ∈ log) ∧ .done ∈ log := by
  obtain ⟨l₁, l₂, f, rfl, h⟩ := h
  exact ⟨⟨f, by simp⟩, by simp [h]⟩

theorem Late.snoc {log new : List (Event T E)} {k : Nat} (h : Late (log ++ new) k) (hn : ∀ f, .pollBegin f k none ∉ new) : Late log k := by
  obtain ⟨l₁, l₂, f, hl, hd⟩ := h
  rcases List.append_eq_append_iff.mp hl with ⟨a, h1, h2⟩ | ⟨a, h1, h2⟩
  · exact absurd (by rw [h2]; simp) (hn f)
  · cases a with
    | nil => exact absurd (show Event.pollBegin f k none ∈ new by rw [← List.nil_append new, ← h2]; simp) (hn f)
    | cons x a =>
      simp at h2
      obtain ⟨rfl, -⟩ := h2
      exact ⟨l₁, a, f, h1, hd⟩

/-- Every poll begins once. -/
structure Begins (st : State T E) : Prop where
  few : ∀ f k o, .pollBegin f k o ∈ st.log → k < st.polls
  once : ∀ f f' k p, .pollBegin f k none ∈ st.log → .pollBegin f' k (some p) ∉ st.log

theorem begins (h : Reachable b st) : Begins st := by
  induction h with
  | init c => exact ⟨by simp [init], by simp [init]⟩
  | @step st st' hr hs ih =>
    obtain ⟨h1, h2⟩ := ih
    cases hs with
    | loader m sys new hm he hl => exact ⟨fun f k o hk => h1 f k o (by simpa using hk), fun f f' k p hk => by simpa using h2 f f' k p (by simpa using hk)⟩
    | signal signal new hstep hl => exact ⟨fun f k o hk => h1 f k o (by simpa using hk), fun f f' k p hk => by simpa using h2 f f' k p (by simpa using hk)⟩
    | nextPoll ht | advancePoll remain ht =>
      refine ⟨fun f k o hk => ?_, fun f f' k p hk hk' => ?_⟩
      · rcases List.mem_append.mp hk with hk | hk
        · exact Nat.lt_succ_of_lt (h1 f k o hk)
        · simp at hk
          simp [hk]
      · simp at hk hk'
        rcases hk with hk | hk
        · exact h2 f f' k p hk hk'
        · rw [hk.2] at hk'
          exact Nat.lt_irrefl _ (h1 _ _ _ hk')
    | nextPollWait i signal ht hi he | advancePollWait i remain signal ht hi he =>
      refine ⟨fun f k o hk => ?_, fun f f' k p hk hk' => ?_⟩
      · simp at hk
        rcases hk with hk | hk
        · exact Nat.lt_succ_of_lt (h1 f k o hk)
        · simp [hk]
      · simp at hk hk'
        rcases hk' with hk' | hk'
        · exact h2 f f' k p hk hk'
        · rw [hk'.2.1] at hk
          exact Nat.lt_irrefl _ (h1 _ _ _ hk)
    | _ => exact ⟨fun f k o hk => h1 f k o (by simpa using hk), fun f f' k p hk => by simpa using h2 f f' k p (by simpa using hk)⟩

/-- C130: once `done_flag` is set, a `Next` or an `Advance` is ready at its first poll: that never returns `Pending`. -/
theorem C130 (h : Reachable b st) {l₁ l₂ : List (Event T E)} {f : Fut} {k : Nat} (hl : st.log = l₁ ++ .pollBegin f k none :: l₂)
    (hd : .done ∈ l₁) : .pollPending k ∉ st.log := by
  have hlate : Late st.log k := ⟨l₁, l₂, f, hl, hd⟩
  clear hl hd
  induction h with
  | init c => simp [init]
  | @step st st' hr hs ih =>
    have hnum := numbered hr
    have hb := begins hr
    have hh := hist hr
    have hdn := (inv hr).done
    cases hs with
    | nextPoll ht | advancePoll remain ht =>
      intro hp
      have hp : .pollPending k ∈ st.log := by simpa using hp
      refine ih (hlate.snoc fun f hf => ?_) hp
      have := hnum.pending k hp
      simp at hf
      omega
    | nextWaitPending k' p fut ht hp =>
      have hlate := hlate.snoc (by simp)
      rw [ht] at hh
      obtain ⟨-, i, -, -, h3, -⟩ := hh
      obtain ⟨⟨f, hf⟩, -⟩ := hlate.mem
      simp only [List.mem_append, List.mem_singleton, Event.pollPending.injEq, not_or]
      exact ⟨ih hlate, by rintro rfl; exact hb.once _ _ _ _ hf h3⟩
    | advanceWaitPending k' p remain fut ht hp =>
      have hlate := hlate.snoc (by simp)
      rw [ht] at hh
      obtain ⟨-, i, -, -, h3, -⟩ := hh
      obtain ⟨⟨f, hf⟩, -⟩ := hlate.mem
      simp only [List.mem_append, List.mem_singleton, Event.pollPending.injEq, not_or]
      exact ⟨ih hlate, by rintro rfl; exact hb.once _ _ _ _ hf h3⟩
    | notDone k' i fut ht hd =>
      have := hdn.mpr (hlate.snoc (by simp)).mem.2
      rw [hd] at this
      cases this
    | advancePending k' remain r fut ht hr' hd =>
      have := hdn.mpr (hlate.snoc (by simp)).mem.2
      rw [hd] at this
      cases this
    | _ =>
      first
      | exact ih hlate
      | (have := ih (hlate.snoc (by simp)); simpa using this)

/-- C130: so it is once `next()` has reported the end. -/
theorem C130_next (h : Reachable b st) {l₁ l₂ l₃ : List (Event T E)} {f : Fut} {j k : Nat}
    (hl : st.log = l₁ ++ .nextReady j none :: (l₂ ++ .pollBegin f k none :: l₃)) : .pollPending k ∉ st.log := by
  refine C130 h (l₁ := l₁ ++ .nextReady j none :: l₂) (l₂ := l₃) (f := f) (by rw [hl]; simp) ?_
  have := (C65_exact h hl).1
  simp [this]

/-- The hypotheses can be met: the source ends while a `Next` waits; the `Next` made instead of it is ready at once, and so is an
`Advance` that has nothing to skip. -/
example : ∃ st : State Nat Nat, Reachable .checked st ∧ st.log = [.sys .iterates, .nextCall, .pollBegin .next 0 none, .sys .exhausted,
    .signal (.waitMade 0), .sys .exhausted, .wokeSelf 0, .pollPending 0, .done, .nextDrop, .nextCall] ++
    .pollBegin .next 1 none :: [.sys .exhausted, .signal (.waitMade 1), .sys .exhausted, .nextReady 1 none,
    .advanceCall 3, .pollBegin .advance 2 none, .signal (.waitMade 2), .sys (.advanced 3 3), .advanceReady 2] := by
  have h := Reachable.init (T := Nat) (E := Nat) (b := .checked) 0
  have h := h.step (.segments _ _ rfl rfl)
  have h := h.step (.next _ rfl)
  have h := h.step (.nextPoll _ rfl)
  have h := h.step (.firstNone _ 0 none _ rfl rfl rfl)
  have h := h.step (.makeWait _ 0 none _ rfl rfl)
  have h := h.step (.secondNone _ 0 0 none _ rfl rfl rfl)
  have h := h.step (.notDone _ 0 0 none rfl rfl)
  have h := h.step (.setDone _)
  have h := h.step (.nextDrop _ (some 0) rfl)
  have h := h.step (.next _ rfl)
  have h := h.step (.nextPoll _ rfl)
  have h := h.step (.firstNone _ 1 none _ rfl rfl rfl)
  have h := h.step (.makeWait _ 1 none _ rfl rfl)
  have h := h.step (.secondNone _ 1 1 none _ rfl rfl rfl)
  have h := h.step (.isDone _ 1 1 none rfl rfl)
  have h := h.step (.dropStream _ _ rfl rfl)
  have h := h.step (.advance _ 3 rfl)
  have h := h.step (.advancePoll _ 3 rfl)
  have h := h.step (.advanceMakeWait _ 2 3 none _ rfl rfl)
  have h := h.step (.replace _ 2 3 (some 2) _ rfl rfl)
  have h := h.step (.advanced _ 2 0 3 3 (some 2) _ rfl rfl rfl)
  have h := h.step (.advanceReady _ 2 0 3 (some 2) rfl (.inr rfl))
  exact ⟨_, h, rfl⟩

/-- It has to be the first poll: one that begins in a `Wait` may return `Pending` though `done_flag` is set, before the `send` that
follows. -/
theorem C130_later : ∃ st : State Nat Nat, Reachable .checked st ∧ ∃ l₁ l₂, st.log = l₁ ++ .pollBegin .next 1 (some 0) :: l₂ ∧ .done ∈ l₁ ∧
    .pollPending 1 ∈ l₂ := by
  have h := Reachable.init (T := Nat) (E := Nat) (b := .checked) 0
  have h := h.step (.segments _ _ rfl rfl)
  have h := h.step (.next _ rfl)
  have h := h.step (.nextPoll _ rfl)
  have h := h.step (.firstNone _ 0 none _ rfl rfl rfl)
  have h := h.step (.makeWait _ 0 none _ rfl rfl)
  have h := h.step (.secondNone _ 0 0 none _ rfl rfl rfl)
  have h := h.step (.notDone _ 0 0 none rfl rfl)
  have h := h.step (.setDone _)
  have h := h.step (.nextPollWait _ 0 _ rfl (by decide) rfl)
  have h := h.step (.signal _ _ [] (.pollLoad _ 0 0 rfl rfl) rfl)
  have h := h.step (.signal _ _ [] (.pollLock _ 0 0 rfl rfl) rfl)
  have h := h.step (.signal _ _ [] (.pollInsert _ 0 0 0 rfl (by decide)) rfl)
  have h := h.step (.signal _ _ [.pollChecked 0] (.pollRecheck _ 0 0 0 rfl rfl) rfl)
  have h := h.step (.signal _ _ [.pollPending 0] (.pollUnlock _ 0 rfl) rfl)
  have h := h.step (.nextWaitPending _ 1 0 (some 0) rfl (by decide))
  refine ⟨_, h, [.sys .iterates, .nextCall, .pollBegin .next 0 none, .sys .exhausted, .signal (.waitMade 0), .sys .exhausted, .wokeSelf 0,
    .pollPending 0, .done], [.signal (.pollBegin 0 0), .signal (.pollChecked 0), .signal (.pollPending 0), .pollPending 1], rfl, ?_, ?_⟩ <;> simp

end Parcom.Runner

namespace Parcom.RunnerWeak
variable {T : Type} {st : State T}

theorem joins_done (vs : List View) {v : View} (h : v.done = true) : (v.joins vs).done = true := (View.joins_le vs v).1.2 h

/-- The user forgets nothing. -/
theorem step_known {st st' : State T} (hs : Step st st') (h : st.known.done = true) : st'.known.done = true := by
  cases hs <;> first | exact h | exact joins_done _ h | (simp [View.join, h]; done)

/-- What the polls that begin without a `Wait` have to do with what the user knows of. -/
structure Begins (st : State T) : Prop where
  few : ∀ f k o v, .pollBegin f k o v ∈ st.log → k < st.polls
  pending : ∀ k, .pollPending k ∈ st.log → k < st.polls
  next : ∀ k n o fut pc, st.task = .nextPoll k n o fut pc → k < st.polls
  advance : ∀ k fut r pc, st.task = .advancePoll k fut r pc → k < st.polls
  once : ∀ f f' k p v v', .pollBegin f k none v ∈ st.log → .pollBegin f' k (some p) v' ∉ st.log
  known : ∀ f k v, .pollBegin f k none v ∈ st.log → v.done = true → st.known.done = true
  quiet : ∀ f k v, .pollBegin f k none v ∈ st.log → v.done = true → .pollPending k ∉ st.log

theorem begins (h : Reachable st) : Begins st := by
  induction h with
  | init => exact ⟨by simp [init], by simp [init], by simp [init], by simp [init], by simp [init], by simp [init], by simp [init]⟩
  | @step st st' hr hs ih =>
    have hk := step_known hs
    have hi := (inv hr).task
    obtain ⟨h1, h2, h3, h4, h5, h6, h7⟩ := ih
    cases hs with
    | signal signal new hstep hv hl =>
      exact ⟨fun f k o v hk => h1 f k o v (by simpa using hk), fun k hk => h2 k (by simpa using hk), h3, h4,
        fun f f' k p v v' hk => by simpa using h5 f f' k p v v' (by simpa using hk),
        fun f k v hk => h6 f k v (by simpa using hk), fun f k v hk hd => by simpa using h7 f k v (by simpa using hk) hd⟩
    | nextWaitPending k' n o p fut ht hp =>
      rw [ht] at hi
      obtain ⟨-, -, i, -, -, ⟨v', h8⟩, -⟩ := hi
      have := h3 _ _ _ _ _ ht
      constructor <;> grind
    | advanceWaitPending k' p remain fut ht hp =>
      rw [ht] at hi
      obtain ⟨i, -, -, ⟨v', h8⟩, -⟩ := hi
      have := h4 _ _ _ _ ht
      constructor <;> grind
    | _ => constructor <;> grind

/-- C130 with stale reads: if the user knows that `done_flag` was set when a `Next` or an `Advance` is first polled, that does not return
`Pending`. -/
theorem C130_weak (h : Reachable st) {f : Fut} {k : Nat} {v : View} (hp : .pollBegin f k none v ∈ st.log) (hv : v.done = true) :
    .pollPending k ∉ st.log := (begins h).quiet f k v hp hv

/-- What the last call of `buffer.advance` could not skip. -/
def leftBy (log : List (Event T)) : Option Nat :=
  log.foldl (fun o e => match e with
    | .advanced _ r => some r
    | _ => o) none

theorem leftBy_quiet {log new : List (Event T)} (h : ∀ e ∈ new, ∀ n r, e ≠ .advanced n r) : leftBy (log ++ new) = leftBy log := by
  unfold leftBy
  rw [List.foldl_append]
  generalize List.foldl _ none log = o
  induction new generalizing o with
  | nil => rfl
  | cons e new ih =>
    rw [List.foldl_cons, ih (fun e he => h e (List.mem_cons_of_mem _ he))]
    have := h e List.mem_cons_self
    split
    · exact absurd rfl (this _ _)
    · rfl

theorem leftBy_advanced (log : List (Event T)) (n r : Nat) : leftBy (log ++ [.advanced n r]) = some r := by
  unfold leftBy
  rw [List.foldl_append]
  rfl

theorem check_left (h : Reachable st) : ∀ k fut remain r, st.task = .advancePoll k fut remain (.check r) → leftBy st.log = some r := by
  induction h with
  | init => intro k fut remain r ht; cases ht
  | @step st st' hr hs ih =>
    intro k fut remain r ht
    cases hs with
    | learn v hv => exact ih k fut remain r ht
    | commit seg => rw [leftBy_quiet (by simp), ih k fut remain r ht]
    | setDone => rw [leftBy_quiet (by simp), ih k fut remain r ht]
    | add signal c v hs hl hv ha => rw [leftBy_quiet (by simp), ih k fut remain r ht]
    | signal signal new hstep hv hl => rw [leftBy_quiet (by simp), ih k fut remain r ht]
    | stop k' left d r' n o fut' buf ht' hb hr' =>
      simp only [Task.advancePoll.injEq, AdvancePc.check.injEq] at ht
      rw [leftBy_advanced, ht.2.2.2]
    | short k' left d r' n o fut' ht' hb =>
      simp only [Task.advancePoll.injEq, AdvancePc.check.injEq] at ht
      rw [leftBy_advanced, ht.2.2.2]
    | _ => cases ht

/-- The user has been told that the source has ended: `next()` resolved to `None`, or `advance` resolved though something was left to
skip. -/
def Told (log : List (Event T)) : Prop :=
  (∃ j, .nextReady j none ∈ log) ∨ ∃ a b j r, log = a ++ .advanceReady j :: b ∧ leftBy a = some (r + 1)

theorem told_known (h : Reachable st) (ht : Told st.log) : st.known.done = true := by
  induction h with
  | init =>
    rcases ht with ⟨j, hj⟩ | ⟨a, b, j, r, hl, -⟩
    · simp [init] at hj
    · simp [init] at hl
  | @step st st' hr hs ih =>
    have hk := step_known hs
    have hold : ∀ new : List (Event T), st'.log = st.log ++ new → (∀ j, .nextReady j none ∉ new) → (∀ j, .advanceReady j ∉ new) →
        st'.known.done = true := by
      intro new hn h1 h2
      refine hk (ih ?_)
      rw [hn] at ht
      rcases ht with ⟨j, hj⟩ | ⟨a, b, j, r, hl, hr'⟩
      · rcases List.mem_append.mp hj with hj | hj
        · exact .inl ⟨j, hj⟩
        · exact absurd hj (h1 j)
      · rcases List.append_eq_append_iff.mp hl with ⟨c, h3, h4⟩ | ⟨c, h3, h4⟩
        · exact absurd (by rw [h4]; simp) (h2 j)
        · cases c with
          | nil => exact absurd (show Event.advanceReady j ∈ new by rw [← List.nil_append new, ← h4]; simp) (h2 j)
          | cons x c =>
            simp at h4
            obtain ⟨rfl, -⟩ := h4
            exact .inr ⟨a, c, j, r, h3, hr'⟩
    cases hs with
    | isDone k n o i fut ht' hd => simp [View.join]
    | advanceDone k remain r fut ht' hne hd => simp [View.join]
    | skipped k r fut ht' =>
      refine hk (ih ?_)
      rcases ht with ⟨j, hj⟩ | ⟨a, b, j, r', hl, hr'⟩
      · exact .inl ⟨j, by simpa using hj⟩
      · rcases List.append_eq_append_iff.mp hl with ⟨c, h3, h4⟩ | ⟨c, h3, h4⟩
        · cases c with
          | nil =>
            have h5 := check_left hr _ _ _ _ ht'
            have hi := (inv hr).task
            rw [ht'] at hi
            rw [List.append_nil] at h3
            rw [← h3, hr', hi.1] at h5
            cases h5
          | cons x c => simp at h4
        · cases c with
          | nil =>
            have h5 := check_left hr _ _ _ _ ht'
            have hi := (inv hr).task
            rw [ht'] at hi
            rw [List.append_nil] at h3
            rw [h3, hr', hi.1] at h5
            cases h5
          | cons x c =>
            simp at h4
            obtain ⟨rfl, -⟩ := h4
            exact .inr ⟨a, c, j, r', h3, hr'⟩
    | learn v hv => exact hk (ih ht)
    | signal signal new hstep hv hl => exact hold _ rfl (by simp) (by simp)
    | _ => first | exact hk (ih ht) | exact hold _ rfl (by simp) (by simp)

/-- C130 with stale reads: the user knows once it has been told. -/
theorem C130_told (h : Reachable st) {l₁ l₂ : List (Event T)} {f : Fut} {k : Nat} {v : View}
    (hl : st.log = l₁ ++ .pollBegin f k none v :: l₂) (ht : Told l₁) : .pollPending k ∉ st.log := by
  refine C130_weak h (f := f) (v := v) (by rw [hl]; simp) ?_
  obtain ⟨st₀, st₁, n₁, n₂, hr, hs, hn, rfl⟩ := moment h hl
  cases hs with
  | nextPoll n o ht' | advancePoll remain ht' =>
    replace hn := List.append_cancel_left hn
    rcases n₁ with _ | ⟨e₁, n₁⟩ <;> simp at hn
    rw [List.append_nil] at ht
    rw [← hn.1.2.2]
    exact told_known hr ht
  | _ =>
    first
    | (exfalso; have := congrArg List.length hn; simp at this; done)
    | (exfalso
       replace hn := List.append_cancel_left hn
       have := congrArg (Event.pollBegin f k none v ∈ ·) hn
       simp at this)

/-- The hypotheses can be met: the user is told by an `Advance`, and polls a `Next`. -/
example : ∃ st : State Nat, Reachable st ∧ ∃ l₁, Told l₁ ∧ st.log = l₁ ++ .pollBegin .next 1 none ⟨0, true⟩ :: [.signal (.waitMade 1),
    .nextReady 1 none] := by
  have r := Reachable.step (T := Nat) .init (.setDone _)
  have r := Reachable.step r (.advance _ 3 rfl)
  have r := Reachable.step r (.advancePoll _ 3 rfl)
  have r := Reachable.step r (.advanceMakeWait _ 0 3 0 none _ rfl (.wait _ 0 (Nat.zero_le _)) rfl rfl rfl)
  have r := Reachable.step r (.replace _ 0 3 (some 0) rfl)
  have r := Reachable.step r (.short _ 0 0 3 3 0 0 (some 0) rfl (Nat.le_refl _))
  have r := Reachable.step r (.advanceDone _ 0 0 3 (some 0) rfl (by decide) rfl)
  have r := Reachable.step r (.segments _ rfl)
  have r := Reachable.step r (.next _ 0 0 rfl)
  have r := Reachable.step r (.nextPoll _ 0 0 rfl)
  have r := Reachable.step r (.firstNone _ 1 0 0 none rfl (Nat.le_refl _))
  have r := Reachable.step r (.makeWait _ 1 0 0 0 none _ rfl (.wait _ 0 (Nat.zero_le _)) rfl rfl rfl)
  have r := Reachable.step r (.secondNone _ 1 0 0 1 none rfl (Nat.le_refl _))
  have r := Reachable.step r (.isDone _ 1 0 0 1 none rfl rfl)
  exact ⟨_, r, [.done, .advanceCall 3, .pollBegin .advance 0 none ⟨0, false⟩, .signal (.waitMade 0), .advanced 3 3, .advanceReady 0, .iterates,
    .nextCall], .inr ⟨[.done, .advanceCall 3, .pollBegin .advance 0 none ⟨0, false⟩, .signal (.waitMade 0), .advanced 3 3],
    [.iterates, .nextCall], 0, 2, rfl, rfl⟩, rfl⟩

end Parcom.RunnerWeak
