import Verif.Spec.Streaming
import Verif.Props.Skip
/-!
# The user of the default runner's sequence, and the same program on a sequence that is all there
-/
namespace Parcom.Spec
open Parcom Sequence
variable {T : Type}

/-! ## The planned sequence is lawful -/

/-- The segments a planned stream delivers. -/
def PlannedStream.segs : List (Option Nat) → List T → List (List T)
  | some n :: plan, rest => rest.take n :: PlannedStream.segs plan (rest.drop n)
  | _, [] => []
  | _, x :: rest => [x :: rest]

theorem planned_flatten (plan : List (Option Nat)) (rest : List T) : (PlannedStream.segs plan rest).flatten = rest := by
  induction plan generalizing rest with
  | nil => cases rest <;> simp [PlannedStream.segs]
  | cons o plan ih =>
    cases o with
    | none => cases rest <;> simp [PlannedStream.segs]
    | some n => simp [PlannedStream.segs, ih, List.take_append_drop]

theorem planned_yields (st : PlannedStream T) : Yields (S := Planned T) st (PlannedStream.segs st.plan st.rest) := by
  obtain ⟨rest, plan, owner⟩ := st
  induction plan generalizing rest with
  | nil =>
    cases rest with
    | nil => exact .done (fun _ => _) fun _ => rfl
    | cons x rest => exact .seg (fun _ => { rest := [], plan := [], owner }) (fun _ => rfl) fun _ => .done (fun _ => _) fun _ => rfl
  | cons o plan ih =>
    cases o with
    | none =>
      cases rest with
      | nil => exact .done (fun _ => _) fun _ => rfl
      | cons x rest => exact .seg (fun _ => { rest := [], plan := [], owner }) (fun _ => rfl) fun _ => .done (fun _ => _) fun _ => rfl
    | some n => exact .seg (fun _ => { rest := rest.drop n, plan, owner }) (fun _ => rfl) fun _ => ih _

theorem planned_owner (st : PlannedStream T) : st.next.2.owner = st.owner := by
  unfold PlannedStream.next
  split <;> rfl

theorem planned_reads {st st' : Stream (Planned T)} (h : Reads st st') : st'.owner = st.owner := by
  induction h with
  | refl => rfl
  | @step a b' c n o hn _ ih =>
    rw [ih]
    have h1 : a.next = (o, b') := Run.pure_inj'.mp hn
    rw [← planned_owner a, h1]

theorem extent_list (xs : List T) : extent (List T) xs = xs.length := by
  simp only [extent, ItemSegment.size]
  induction xs with
  | nil => rfl
  | cons x xs ih => simp only [List.map_cons, List.sum_cons, List.length_cons, ih]; omega

instance : LawfulSequence (Planned T) where
  content s := s.content
  segs s := PlannedStream.segs (s.cuts.headD []) s.content
  yields s := planned_yields _
  concat s := by
    rw [List.flatMap_def]
    show (List.map (fun xs => xs) _).flatten = _
    rw [List.map_id']
    exact planned_flatten _ _
  release s st h := by
    show st.owner.content = s.content
    rw [planned_reads h]
    rfl
  advance s pre post h := by
    have h : s.content = pre ++ post := h
    refine ⟨{ s with content := post }, ?_, rfl⟩
    rw [extent_list]
    show (if pre.length ≤ s.content.length then pure { s with content := s.content.drop pre.length } else Run.fault .bounds : Run (Planned T)) = _
    rw [if_pos (by rw [h]; simp), h]
    simp

end Parcom.Spec

namespace Parcom.Runner
open Parcom Spec Sequence
variable {T E O : Type} {b : Build} {st st₀ : State T E}

/-! ## What a user can be doing -/

/-- The last thing said. -/
def lastTalk (log : List (Event T E)) : Option (Event T E) := (log.filter Event.talk).getLast?

theorem lastTalk_quiet {log new : List (Event T E)} (h : ∀ e ∈ new, e.talk = false) : lastTalk (log ++ new) = lastTalk log := by
  have : new.filter Event.talk = [] := List.filter_eq_nil_iff.mpr fun e he => by simp [h e he]
  rw [lastTalk, List.filter_append, this, List.append_nil]
  rfl

theorem lastTalk_talk {log : List (Event T E)} {e : Event T E} (h : e.talk = true) : lastTalk (log ++ [e]) = some e := by
  simp [lastTalk, List.filter_append, h]

/-- What was said last, by what the user is doing. -/
def Task.Said (l : Option (Event T E)) : Task → Prop
  | .advance .. => ∃ d, l = some (.advanceCall d)
  | .advancePoll .. => ∃ d, l = some (.advanceCall d)
  | _ => ∀ d, l ≠ some (.advanceCall d)

theorem said (h : Reachable b st) : st.task.Said (lastTalk st.log) := by
  induction h with
  | init c => simp [init, Task.Said, lastTalk]
  | @step st st' hr hs ih =>
    have quiet : ∀ new, (∀ e ∈ new, e.talk = false) → st'.log = st.log ++ new → lastTalk st'.log = lastTalk st.log := by
      intro new h1 h2
      rw [h2, lastTalk_quiet h1]
    have talk : ∀ new e, st'.log = st.log ++ new ++ [e] → e.talk = true → lastTalk st'.log = some e := by
      intro new e h1 h2
      rw [h1, lastTalk_talk h2]
    cases hs with
    | loader m sys new hm he hl' =>
      obtain ⟨hrd, hnew⟩ := move_loader hm he hl'
      rw [quiet (new.map .sys) (fun e he => ?_) rfl]
      · exact ih
      · obtain ⟨o, ho, rfl⟩ := List.mem_map.mp he
        rcases hnew o ho with ⟨xs, rfl⟩ | ⟨t, r, rfl⟩ <;> rfl
    | setDone => rw [quiet [.done] (by simp [Event.talk]) rfl]; exact ih
    | signal signal new hstep hl' =>
      rw [quiet (new.map .signal) (fun e he => ?_) rfl]
      · exact ih
      · obtain ⟨o, -, rfl⟩ := List.mem_map.mp he
        rfl
    | segments sys ht he => rw [talk [] _ (by simp; rfl) rfl]; simp [Task.Said]
    | dropStream sys ht he => rw [ht] at ih; exact ih
    | next ht => rw [talk [] _ (by simp; rfl) rfl]; simp [Task.Said]
    | nextDrop fut ht => rw [talk [] _ (by simp; rfl) rfl]; simp [Task.Said]
    | nextPoll ht => rw [quiet _ (by simp [Event.talk]) rfl]; rw [ht] at ih; exact ih
    | nextPollWait i signal ht hlt hsig => rw [quiet _ (by simp [Event.talk]) rfl]; rw [ht] at ih; exact ih
    | nextWaitReady k p fut ht hp => rw [ht] at ih; exact ih
    | nextWaitPending k p fut ht hp => rw [quiet _ (by simp [Event.talk]) rfl]; rw [ht] at ih; exact ih
    | firstSome k fut sys seg ht he hl => rw [talk [.sys (.yielded seg)] _ (by simp; rfl) rfl]; simp [Task.Said]
    | firstNone k fut sys ht he hl => rw [quiet _ (by simp [Event.talk]) rfl]; rw [ht] at ih; exact ih
    | makeWait k fut signal ht hsig => rw [quiet _ (by simp [Event.talk]) rfl]; rw [ht] at ih; exact ih
    | secondSome k i fut sys seg ht he hl => rw [talk [.sys (.yielded seg)] _ (by simp; rfl) rfl]; simp [Task.Said]
    | secondNone k i fut sys ht he hl => rw [quiet _ (by simp [Event.talk]) rfl]; rw [ht] at ih; exact ih
    | isDone k i fut ht hd => rw [talk [] _ (by simp; rfl) rfl]; simp [Task.Said]
    | notDone k i fut ht hd => rw [quiet _ (by simp [Event.talk]) rfl]; rw [ht] at ih; exact ih
    | advance delta ht => rw [talk [] _ (by simp; rfl) rfl]; exact ⟨_, rfl⟩
    | advancePoll remain ht => rw [quiet _ (by simp [Event.talk]) rfl]; rw [ht] at ih; exact ih
    | advancePollWait i remain signal ht hlt hsig => rw [quiet _ (by simp [Event.talk]) rfl]; rw [ht] at ih; exact ih
    | advanceWaitReady k p remain fut ht hp => rw [ht] at ih; exact ih
    | advanceWaitPending k p remain fut ht hp => rw [quiet _ (by simp [Event.talk]) rfl]; rw [ht] at ih; exact ih
    | advanceMakeWait k remain fut signal ht hsig => rw [quiet _ (by simp [Event.talk]) rfl]; rw [ht] at ih; exact ih
    | replace k remain fut sys ht he => rw [ht] at ih; exact ih
    | advancing k remain fut sys ht he hl => rw [ht] at ih; simp only [ht]; exact ih
    | advanced k remain n r fut sys ht he hl => rw [quiet _ (by simp [Event.talk]) rfl]; rw [ht] at ih; exact ih
    | advanceReady k remain r fut ht hd => rw [talk [] _ (by simp; rfl) rfl]; simp [Task.Said]
    | advancePending k remain r fut ht hne hd => rw [quiet _ (by simp [Event.talk]) rfl]; rw [ht] at ih; exact ih

/-- Items are skipped only while an `advance` is under way. -/
theorem advanced_said (h : Reachable b st) {pre post : List (Event T E)} {n r : Nat} (hl : st.log = pre ++ .sys (.advanced n r) :: post) :
    ∃ d, lastTalk pre = some (.advanceCall d) := by
  obtain ⟨s₀, s₁, n₁, n₂, hr, hs, hn, rfl⟩ := moment h hl
  cases hs with
  | advanced k remain n' r' fut sys ht he hl' =>
    replace hn := List.append_cancel_left hn
    rcases n₁ with _ | ⟨e₁, n₁⟩ <;> simp at hn
    have := said hr
    rw [ht] at this
    simpa [Task.Said] using this
  | loader m sys new hm he hl' =>
    replace hn := List.append_cancel_left hn
    obtain ⟨-, hnew⟩ := move_loader hm he hl'
    have h1 : (.sys (.advanced n r) : Event T E) ∈ new.map .sys := by rw [hn]; simp
    obtain ⟨o, ho, h2⟩ := List.mem_map.mp h1
    injection h2 with h2
    rcases hnew o ho with ⟨xs, rfl⟩ | ⟨t, r, rfl⟩ <;> simp at h2
  | signal signal new hstep hl' =>
    replace hn := List.append_cancel_left hn
    have h1 : (.sys (.advanced n r) : Event T E) ∈ new.map .signal := by rw [hn]; simp
    obtain ⟨o, ho, h2⟩ := List.mem_map.mp h1
    simp at h2
  | _ =>
    first
    | (replace hn := List.append_cancel_left hn; have := congrArg (Event.sys (.advanced n r) ∈ ·) hn; simp at this)
    | (simp at hn)

theorem Follows.said {c : Client T O} {l₀ l : List (Event T E)} {p : Place T c.σ} (h : Follows c l₀ l p)
    (h₀ : ∀ d, lastTalk l₀ ≠ some (.advanceCall d)) : (∀ k, p ≠ .advance k) → ∀ d, lastTalk l ≠ some (.advanceCall d) := by
  induction h with
  | start => exact fun _ => h₀
  | segments _ _ _ => intro _ d; rw [lastTalk_talk rfl]; simp
  | next _ _ _ => intro _ d; rw [lastTalk_talk rfl]; simp
  | nextReady _ _ _ _ => intro _ d; rw [lastTalk_talk rfl]; simp
  | release _ _ ih => intro _; exact ih (by simp)
  | goOn _ _ ih => intro _; exact ih (by simp)
  | advance _ _ _ => intro hk; exact absurd rfl (hk _)
  | advanceReady _ _ _ => intro _ d; rw [lastTalk_talk rfl]; simp
  | other e _ he ih =>
    intro hk
    rw [lastTalk_quiet (by simpa using he)]
    exact ih hk

theorem Follows.extends {c : Client T O} {l₀ l : List (Event T E)} {p : Place T c.σ} (h : Follows c l₀ l p) : ∃ m, l = l₀ ++ m := by
  induction h with
  | start => exact ⟨[], by simp⟩
  | release _ _ ih | goOn _ _ ih => exact ih
  | segments _ _ ih | next _ _ ih | nextReady _ _ _ ih | advance _ _ ih | advanceReady _ _ ih | other _ _ _ ih =>
    obtain ⟨m, rfl⟩ := ih
    exact ⟨_, List.append_assoc ..⟩

/-! ## The same program on a planned sequence -/

/-- What is left of `all`. -/
def leftOf (all : List T) (l : List (Event T E)) : List T := all.drop (consumedOf (sysLog l))

/-- From the beginning the program gets to `p`, `q` on some planned sequence. -/
def Client.From (c : Client T O) (all : List T) (l₀ : List (Event T E)) (p : Planned T ⊕ PlannedStream T) (q : c.σ) : Prop :=
  ∃ s : Planned T, s.content = leftOf all l₀ ∧ c.Gets (S := Planned T) (.inl s) c.start p q

/-- The program, as a user at some place, could have got there on a sequence with all items. -/
def Mirrors (c : Client T O) (all : List T) (l₀ l : List (Event T E)) : Place T c.σ → Prop
  | .idle q => ∃ n, c.Sees q n ∧ n ≤ (availableOf l).length ∧ ∀ cuts, Client.From c all l₀ (.inl ⟨leftOf all l, cuts⟩) q
  | .stream q => c.Sees q (deliveredOf l).length ∧ deliveredOf l <+: availableOf l ∧
      ∀ plan cuts, Client.From c all l₀ (.inr ⟨(leftOf all l).drop (deliveredOf l).length, plan, ⟨leftOf all l, cuts⟩⟩) q
  | .next k => ∃ q n, c.step q = .next n k ∧ c.Sees q (deliveredOf l).length ∧ deliveredOf l <+: availableOf l ∧
      ∀ plan cuts, Client.From c all l₀ (.inr ⟨(leftOf all l).drop (deliveredOf l).length, plan, ⟨leftOf all l, cuts⟩⟩) q
  | .advance k => ∃ q n d l₁ l₂, c.step q = .advance d k ∧ c.Sees q n ∧ l = l₁ ++ .advanceCall d :: l₂ ∧ (∀ e ∈ l₂, e.within = true) ∧
      n ≤ (availableOf l₁).length ∧ ∀ cuts, Client.From c all l₀ (.inl ⟨leftOf all l₁, cuts⟩) q

theorem committed_mono (l l' : List (Event T E)) : committedOf (sysLog l) <+: committedOf (sysLog (l ++ l')) := by
  rw [sysLog_append, committedOf_append]
  exact List.prefix_append _ _

/-- What can be seen is the beginning of what is left. -/
theorem available_left {all : List T} {l post : List (Event T E)} (hall : committedOf (sysLog (l ++ post)) <+: all) :
    availableOf l <+: leftOf all l := by
  obtain ⟨x, hx⟩ := (committed_mono l post).trans hall
  rw [availableOf, leftOf, ← hx]
  by_cases hle : consumedOf (sysLog l) ≤ (committedOf (sysLog l)).length
  · rw [List.drop_append_of_le_length hle]
    exact List.prefix_append _ _
  · rw [List.drop_eq_nil_of_le (by omega)]
    exact List.nil_prefix

theorem mirrors {c : Client T O} (hm : c.Modest) (h : Reachable b st) {all : List T} (hp : Part st.log all) (h1 : DoneIsLast st.log)
    (h2 : DoneBetweenPolls st.log) {l₀ l : List (Event T E)} {p : Place T c.σ} (hf : Follows c l₀ l p)
    (h₀ : ∀ d, lastTalk l₀ ≠ some (.advanceCall d)) {post : List (Event T E)} (hl : st.log = l ++ post) : Mirrors c all l₀ l p := by
  induction hf generalizing post with
  | start => exact ⟨0, .start, Nat.zero_le _, fun cuts => ⟨⟨leftOf all l₀, cuts⟩, rfl, .refl _ _⟩⟩
  | @segments l q k hf hq ih =>
    obtain ⟨n, hs, hn, hg⟩ := ih (post := .sys .iterates :: post) (by rw [hl]; simp)
    have hd : deliveredOf (l ++ [(.sys .iterates : Event T E)]) = [] := by rw [deliveredOf_append]; rfl
    have hc : leftOf all (l ++ [(.sys .iterates : Event T E)]) = leftOf all l := by
      rw [leftOf, sysLog_append, consumedOf_append]; rfl
    refine ⟨?_, ?_, fun plan cuts => ?_⟩
    · rw [hd]; exact .segments hs hq
    · rw [hd]; exact List.nil_prefix
    · obtain ⟨s, hs1, hs2⟩ := hg (plan :: cuts)
      rw [hd, hc]
      exact ⟨s, hs1, .segments hs2 hq⟩
  | @next l q n k hf hq ih =>
    obtain ⟨hs, hn, hg⟩ := ih (post := .nextCall :: post) (by rw [hl]; simp)
    have hd : deliveredOf (l ++ [(.nextCall : Event T E)]) = deliveredOf l := by rw [deliveredOf_append]; rfl
    have hc : leftOf all (l ++ [(.nextCall : Event T E)]) = leftOf all l := by
      rw [leftOf, sysLog_append, consumedOf_append]; rfl
    have ha : availableOf (l ++ [(.nextCall : Event T E)]) = availableOf l := by
      rw [availableOf, sysLog_append]; simp [sysLog, availableOf]
    refine ⟨q, n, hq, ?_⟩
    rw [hd, hc, ha]
    exact ⟨hs, hn, hg⟩
  | @nextReady l k j r hf ih =>
    obtain ⟨q, n, hq, hs, hn, hg⟩ := ih (post := .nextReady j r :: post) (by rw [hl]; simp)
    have hl' : st.log = l ++ .nextReady j r :: post := by rw [hl]; simp
    have hc : leftOf all (l ++ [(.nextReady j r : Event T E)]) = leftOf all l := by
      rw [leftOf, sysLog_append, consumedOf_append]; rfl
    have ha : availableOf (l ++ [(.nextReady j r : Event T E)]) = availableOf l := by
      rw [availableOf, sysLog_append]; simp [sysLog, availableOf]
    have hpre : availableOf l <+: leftOf all l := available_left (post := .nextReady j r :: post) (by rw [← hl']; exact hp.1)
    cases r with
    | some seg =>
      have hd : deliveredOf (l ++ [(.nextReady j (some seg) : Event T E)]) = deliveredOf l ++ seg := by rw [deliveredOf_append]; rfl
      have hin := C64_in_order h hl'
      refine ⟨?_, ?_, fun plan cuts => ?_⟩
      · rw [hd, List.length_append]; exact .next (some seg) hs hq
      · rw [hd, ha]; exact hin
      · obtain ⟨s, hs1, hs2⟩ := hg (some seg.length :: plan) cuts
        rw [hd, hc]
        refine ⟨s, hs1, ?_⟩
        refine .next (o := some seg) hs2 hq ?_
        show (pure (PlannedStream.next _) : Run _) = _
        obtain ⟨x, hx⟩ := hin.trans hpre
        unfold PlannedStream.next
        simp only [← hx, List.append_assoc, List.drop_left, List.take_left, List.length_append]
        congr 3
        rw [← List.append_assoc, ← List.length_append, List.drop_left]
    | none =>
      have hd : deliveredOf (l ++ [(.nextReady j none : Event T E)]) = deliveredOf l := by rw [deliveredOf_append]; rfl
      refine ⟨?_, ?_, fun plan cuts => ?_⟩
      · rw [hd]; simpa using Client.Sees.next none hs hq
      · rw [hd, ha]; exact hn
      · obtain ⟨s, hs1, hs2⟩ := hg (none :: plan) cuts
        rw [hd, hc]
        refine ⟨s, hs1, ?_⟩
        -- everything was delivered
        have hend : (leftOf all l).drop (deliveredOf l).length = [] := by
          obtain ⟨hdone, A, B, o, rfl, hA, -⟩ := C65_exact h hl'
          obtain ⟨a₁, a₂, rfl⟩ := List.append_of_mem hA
          have hno := h2 a₁ (a₂ ++ B) post j o (by rw [hl']; simp)
          have hd₁ : .done ∈ a₁ := by
            simp at hdone hno
            rcases hdone with h | h | h
            · exact h
            · exact absurd h hno.1
            · exact absurd h hno.2
          obtain ⟨d₁, d₂, rfl⟩ := List.append_of_mem hd₁
          have hlast := h1 d₁ (d₂ ++ .pollBegin .next j o :: (a₂ ++ B) ++ .nextReady j none :: post) (by rw [hl']; simp)
          have := C65_done_before h (pre := d₁ ++ .done :: d₂ ++ .pollBegin .next j o :: a₂ ++ B) (l₁ := d₁) (l₂ := d₂) (l₃ := a₂ ++ B) (o := o)
            (by simp) hl' fun xs hx => hlast xs (by simp at hx ⊢; grind)
          rw [this, hp.2 (by rw [hl']; simp)]
          exact List.drop_length ..
        rw [hend] at hs2 ⊢
        exact .next (o := none) hs2 hq rfl
  | @release l q k hf hq ih =>
    obtain ⟨hs, hn, hg⟩ := ih hl
    refine ⟨_, .release hs hq, hn.length_le, fun cuts => ?_⟩
    obtain ⟨s, hs1, hs2⟩ := hg [] cuts
    exact ⟨s, hs1, .release hs2 hq⟩
  | @goOn l q k hf hq ih =>
    obtain ⟨n, hs, hn, hg⟩ := ih hl
    refine ⟨n, .goOn hs hq, hn, fun cuts => ?_⟩
    obtain ⟨s, hs1, hs2⟩ := hg cuts
    exact ⟨s, hs1, .goOn hs2 hq⟩
  | @advance l q k n hf hq ih =>
    obtain ⟨m, hs, hn, hg⟩ := ih (post := .advanceCall n :: post) (by rw [hl]; simp)
    exact ⟨q, m, n, l, [], hq, hs, rfl, by simp, hn, hg⟩
  | @advanceReady l k j hf ih =>
    obtain ⟨q, n, d, l₁, l₂, hq, hs, rfl, hw, hn, hg⟩ := ih (post := .advanceReady j :: post) (by rw [hl]; simp)
    have hd := hm q n d k hs hq
    have hl' : st.log = l₁ ++ .advanceCall d :: l₂ ++ .advanceReady j :: post := by rw [hl]; simp
    obtain ⟨-, hcons⟩ := once_ready h hl' hw (by omega)
    have e1 : sysLog (l₁ ++ .advanceCall d :: l₂ ++ [(.advanceReady j : Event T E)]) = sysLog l₁ ++ sysLog l₂ := by
      simp [sysLog]
    have hle := consumed_le h (pre := l₁) (post := .advanceCall d :: l₂ ++ .advanceReady j :: post) (by rw [hl']; simp)
    have e2 : availableOf (l₁ ++ .advanceCall d :: l₂ ++ [(.advanceReady j : Event T E)]) = (availableOf l₁ ++ committedOf (sysLog l₂)).drop d := by
      rw [availableOf, e1, committedOf_append, consumedOf_append, hcons, ← List.drop_drop, List.drop_append_of_le_length hle]
      rfl
    have e3 : leftOf all (l₁ ++ .advanceCall d :: l₂ ++ [(.advanceReady j : Event T E)]) = (leftOf all l₁).drop d := by
      rw [leftOf, e1, consumedOf_append, hcons, ← List.drop_drop]
      rfl
    have hpre : availableOf l₁ <+: leftOf all l₁ :=
      available_left (post := .advanceCall d :: l₂ ++ .advanceReady j :: post) (by
        rw [show l₁ ++ (.advanceCall d :: l₂ ++ .advanceReady j :: post) = st.log by rw [hl']; simp]; exact hp.1)
    refine ⟨n - d, .advance hs hq, ?_, fun cuts => ?_⟩
    · rw [e2, List.length_drop, List.length_append]; omega
    · obtain ⟨s, hs1, hs2⟩ := hg cuts
      rw [e3]
      refine ⟨s, hs1, .advance hs2 hq ?_⟩
      have := hpre.length_le
      show (if d ≤ (leftOf all l₁).length then _ else _) = _
      rw [if_pos (by omega)]
  | @other l p e hf he ih =>
    have hl' : st.log = l ++ e :: post := by rw [hl]; simp
    have ih := ih hl'
    have hsd := hf.said h₀
    have hd : deliveredOf (l ++ [e]) = deliveredOf l := by
      refine deliveredOf_still (by
        intro e' he'
        simp at he'
        subst he'
        cases e' with
        | sys o => cases o <;> first | rfl | simp [Event.talk] at he
        | nextReady => simp [Event.talk] at he
        | _ => rfl)
    have hc : (∀ k, p ≠ .advance k) → consumedOf (sysLog [e]) = 0 := by
      intro hk
      cases e with
      | sys o =>
        cases o with
        | advanced n r =>
          obtain ⟨d, hd⟩ := advanced_said h hl'
          exact absurd hd (hsd hk d)
        | _ => rfl
      | _ => rfl
    have hleft : (∀ k, p ≠ .advance k) → leftOf all (l ++ [e]) = leftOf all l := by
      intro hk
      rw [leftOf, sysLog_append, consumedOf_append, hc hk]
      rfl
    have hav : (∀ k, p ≠ .advance k) → availableOf l <+: availableOf (l ++ [e]) := by
      intro hk
      rw [available_grows h (A := l) (B := [e]) (C := post) (by rw [hl]) (hc hk)]
      exact List.prefix_append _ _
    cases p with
    | idle q =>
      obtain ⟨n, hs, hn, hg⟩ := ih
      refine ⟨n, hs, Nat.le_trans hn (hav (by simp)).length_le, ?_⟩
      rw [hleft (by simp)]
      exact hg
    | stream q =>
      obtain ⟨hs, hn, hg⟩ := ih
      refine ⟨by rw [hd]; exact hs, by rw [hd]; exact hn.trans (hav (by simp)), ?_⟩
      rw [hleft (by simp), hd]
      exact hg
    | next k =>
      obtain ⟨q, n, hq, hs, hn, hg⟩ := ih
      refine ⟨q, n, hq, by rw [hd]; exact hs, by rw [hd]; exact hn.trans (hav (by simp)), ?_⟩
      rw [hleft (by simp), hd]
      exact hg
    | advance k =>
      obtain ⟨q, n, d, l₁, l₂, hq, hs, rfl, hw, hn, hg⟩ := ih
      refine ⟨q, n, d, l₁, l₂ ++ [e], hq, hs, by simp, fun e' he' => ?_, hn, hg⟩
      rcases List.mem_append.mp he' with he' | he'
      · exact hw e' he'
      · simp at he'
        subst he'
        cases e' <;> first | rfl | simp [Event.talk] at he

end Parcom.Runner
