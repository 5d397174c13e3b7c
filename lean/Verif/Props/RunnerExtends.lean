import Verif.Props.RunnerWeak
import Verif.Props.Release
import Verif.Props.Runner
/-!
# C118: the machine with stale reads has all the runs of the one without
-/
namespace Parcom
open Spec

/-! ## What can be seen of both machines -/

/-- An event of `Verif.Model.Runner`, as far as `Verif.Model.RunnerWeak` has it: how loads end and that an iterator found nothing is
left out. -/
def Runner.Event.seen {T E : Type} : Runner.Event T E → Option (RunnerWeak.Event T)
  | .sys (.loaded ..) => none
  | .sys (.committed seg) => some (.committed seg)
  | .sys (.advanced n r) => some (.advanced n r)
  | .sys .iterates => some .iterates
  | .sys (.yielded _) => none
  | .sys .exhausted => none
  | .signal e => some (.signal e)
  | .done => some .done
  | .nextCall => some .nextCall
  | .pollBegin .next k inner => some (.pollBegin .next k inner ⟨0, false⟩)
  | .pollBegin .advance k inner => some (.pollBegin .advance k inner ⟨0, false⟩)
  | .wokeSelf k => some (.wokeSelf k)
  | .pollPending k => some (.pollPending k)
  | .nextReady k r => some (.nextReady k r)
  | .nextDrop => some .nextDrop
  | .advanceCall d => some (.advanceCall d)
  | .advanceReady k => some (.advanceReady k)

/-- An event of `Verif.Model.RunnerWeak` without what anybody knows. -/
def RunnerWeak.Event.seen {T : Type} : RunnerWeak.Event T → Option (RunnerWeak.Event T)
  | .released .. => none
  | .pollBegin f k inner _ => some (.pollBegin f k inner ⟨0, false⟩)
  | e => some e

namespace RunnerWeak
variable {T E : Type}

/-! ## The states that belong together -/

def nextPc : Runner.NextPc → NextPc
  | .wait p => .wait p
  | .first => .first
  | .makeWait => .makeWait
  | .second i => .second i
  | .loadDone i => .loadDone i

/-- The same task in both machines, with what the buffer is doing meanwhile. -/
inductive SameTask : Runner.Task → Reader → Task → Prop where
  | idle : SameTask .idle .idle .idle
  | stream (c : Cursor) : SameTask .stream (.iterating c) (.stream c.node c.offset)
  | next (c : Cursor) (fut : Option Nat) : SameTask (.next fut) (.iterating c) (.next c.node c.offset fut)
  | nextPoll (c : Cursor) (k : Nat) (fut : Option Nat) (pc : Runner.NextPc) :
      SameTask (.nextPoll k fut pc) (.iterating c) (.nextPoll k c.node c.offset fut (nextPc pc))
  | advance (fut : Option Nat) (remain : Nat) : SameTask (.advance fut remain) .idle (.advance fut remain)
  | wait (k : Nat) (fut : Option Nat) (remain p : Nat) :
      SameTask (.advancePoll k fut remain (.wait p)) .idle (.advancePoll k fut remain (.wait p))
  | makeWait (k : Nat) (fut : Option Nat) (remain : Nat) :
      SameTask (.advancePoll k fut remain .makeWait) .idle (.advancePoll k fut remain .makeWait)
  | replace (k : Nat) (fut : Option Nat) (remain : Nat) :
      SameTask (.advancePoll k fut remain .replace) .idle (.advancePoll k fut remain .replace)
  | advancing (k : Nat) (fut : Option Nat) (remain d r : Nat) (c : Cursor) :
      SameTask (.advancePoll k fut remain .advancing) (.advancing d r c) (.advancePoll k fut remain (.advancing d r c.node c.offset))
  | check (k : Nat) (fut : Option Nat) (remain r : Nat) :
      SameTask (.advancePoll k fut remain (.check r)) .idle (.advancePoll k fut remain (.check r))

structure Same (st : Runner.State T E) (w : State T) : Prop where
  reachable : Reachable w
  signal : w.signal.usize = st.signal
  nodes : w.nodes = segmentsOf st.sys.log
  linear : Linear st.sys.cells (segmentsOf st.sys.log)
  tail : st.sys.loader.tail = (segmentsOf st.sys.log).length
  done : w.doneFlag = st.doneFlag
  head : w.head = st.sys.head.node
  offset : w.offset = st.sys.head.offset
  task : SameTask st.task st.sys.reader w.task
  polls : w.polls = st.polls
  log : w.log.filterMap Event.seen = st.log.filterMap Runner.Event.seen

/-! ## The steps of the buffer -/

theorem next_cases (b : Build) {s s' : Loading T E} (hi : Parcom.Inv s) (hl : Linear s.cells (segmentsOf s.log))
    (ht : s.loader.tail = (segmentsOf s.log).length) {c : Cursor} (hr : s.reader = .iterating c) (he : s.move b .next = Run.ret s') :
    (∃ xs, (segmentsOf s.log)[c.node]? = some xs ∧
      s' = { s with reader := .iterating ⟨0, c.node + 1⟩, log := s.log ++ [.yielded (xs.drop c.offset)] }) ∨
    ((segmentsOf s.log).length ≤ c.node ∧ s' = { s with reader := .iterating c, log := s.log ++ [.exhausted] }) := by
  have hok := hi.reader
  unfold ReaderOk at hok
  rw [hr] at hok
  obtain ⟨⟨-, rest, hc, hoff, -, -⟩, -⟩ := hok
  obtain ⟨rfl, hle⟩ := hl.chain hc ht
  simp only [Loading.move, hr, iterNext] at he
  by_cases hlt : c.node < (segmentsOf s.log).length
  · obtain ⟨node, e1, e2, e3⟩ := hl.node c.node _ (List.getElem?_eq_getElem hlt)
    have ho := hoff _ _ (List.drop_eq_getElem_cons hlt)
    simp only [e1, e3.len] at he
    rw [if_pos ho, e3.readMany (by omega), Run.ret_bind] at he
    cases he
    refine .inl ⟨_, List.getElem?_eq_getElem hlt, ?_⟩
    simp only [e2, Loading.mk.injEq, true_and, List.append_cancel_left_eq, List.cons.injEq, and_true]
    congr 1
    rw [List.take_of_length_le (by simp)]
  · rw [hl.unset _ (by omega)] at he
    cases he
    exact .inr ⟨by omega, rfl⟩

theorem get_cases (b : Build) {s s' : Loading T E} (hi : Parcom.Inv s) (hl : Linear s.cells (segmentsOf s.log))
    (ht : s.loader.tail = (segmentsOf s.log).length) {n r : Nat} {c : Cursor} (hr : s.reader = .advancing n r c)
    (he : s.move b .get = Run.ret s') :
    (∃ xs, (segmentsOf s.log)[c.node]? = some xs ∧ xs.length - c.offset ≤ r ∧
      s' = { s with reader := .advancing n (r - (xs.length - c.offset)) ⟨0, c.node + 1⟩ }) ∨
    (∃ xs, (segmentsOf s.log)[c.node]? = some xs ∧ r < xs.length - c.offset ∧
      s' = { s with head := ⟨c.offset + r, c.node⟩, reader := .idle, log := s.log ++ [.advanced n 0] }) ∨
    ((segmentsOf s.log).length ≤ c.node ∧ s' = { s with head := c, reader := .idle, log := s.log ++ [.advanced n r] }) := by
  have hok := hi.reader
  unfold ReaderOk at hok
  rw [hr] at hok
  obtain ⟨-, -, rest, hc, hoff, -, -⟩ := hok
  obtain ⟨rfl, hle⟩ := hl.chain hc ht
  simp only [Loading.move, hr, advanceTurn] at he
  by_cases hlt : c.node < (segmentsOf s.log).length
  · obtain ⟨node, e1, e2, e3⟩ := hl.node c.node _ (List.getElem?_eq_getElem hlt)
    have ho := hoff _ _ (List.drop_eq_getElem_cons hlt)
    simp only [e1, e3.len, usizeSub_ret b ho, Run.ret_bind] at he
    by_cases hless : r < (segmentsOf s.log)[c.node].length - c.offset
    · rw [if_pos hless] at he
      cases he
      exact .inr (.inl ⟨_, List.getElem?_eq_getElem hlt, hless, rfl⟩)
    · rw [if_neg hless] at he
      cases he
      exact .inl ⟨_, List.getElem?_eq_getElem hlt, by omega, by rw [e2]⟩
  · rw [hl.unset _ (by omega)] at he
    cases he
    exact .inr (.inr ⟨by omega, rfl⟩)

/-- A step of the loader. -/
theorem loader_cases (b : Build) {s sys : Loading T E} (hi : Parcom.Inv s) (hl : Linear s.cells (segmentsOf s.log))
    (ht : s.loader.tail = (segmentsOf s.log).length) {m : Move T E} (hm : (∃ env script, m = .load env script) ∨ ∃ env, m = .forceCommit env)
    (he : s.move b m = Run.ret sys) {new : List (Obs T E)} (hn : sys.log = s.log ++ new) :
    sys.head = s.head ∧ sys.reader = s.reader ∧ Linear sys.cells (segmentsOf sys.log) ∧
    sys.loader.tail = (segmentsOf sys.log).length ∧
    ((new.map (Runner.Event.sys (T := T) (E := E))).filterMap Runner.Event.seen = [] ∧ segmentsOf sys.log = segmentsOf s.log ∨
     ∃ seg, (new.map (Runner.Event.sys (T := T) (E := E))).filterMap Runner.Event.seen = [.committed seg] ∧
       segmentsOf sys.log = segmentsOf s.log ++ [seg]) := by
  obtain ⟨pend, hp⟩ := hi.pending
  rcases hm with ⟨env, script, rfl⟩ | ⟨env, rfl⟩
  · obtain ⟨r, told, -, e1, e2, ⟨e3, e4, e5⟩ | ⟨e3, e4⟩⟩ := move_load hi hp he
    · have e6 : segmentsOf sys.log = segmentsOf s.log := by rw [e5, segmentsOf_snoc (by simp)]
      rw [e5] at hn
      cases List.append_cancel_left hn
      exact ⟨e1, e2, by rw [e3, e6]; exact hl, by rw [e4, e6]; exact ht, .inl ⟨rfl, e6⟩⟩
    · have e6 : segmentsOf sys.log = segmentsOf s.log ++ [pend] := by
        rw [e4, segmentsOf_snoc (by simp), segmentsOf_append]; rfl
      rw [e4, List.append_assoc] at hn
      cases List.append_cancel_left hn
      rw [ht] at e3
      obtain ⟨l1, l2⟩ := hl.commit hp e3
      exact ⟨e1, e2, by rw [e6]; exact l1, by rw [e6, l2]; simp, .inr ⟨pend, rfl, e6⟩⟩
  · obtain ⟨s', e0, -, e1, e2, e3, e4⟩ := move_forceCommit (b := b) (env := env) hi hp
    rw [he] at e0
    cases e0
    have e6 : segmentsOf sys.log = segmentsOf s.log ++ [pend] := by rw [e4, segmentsOf_append]; rfl
    rw [e4] at hn
    cases List.append_cancel_left hn
    rw [ht] at e3
    obtain ⟨l1, l2⟩ := hl.commit hp e3
    exact ⟨e1, e2, by rw [e6]; exact l1, by rw [e6, l2]; simp, .inr ⟨pend, rfl, e6⟩⟩

/-- Only increments change the version. -/
theorem version_cases {w w' : Notify.Weak} (h : Notify.WStep w w') : w'.st.version = w.st.version ∨
    ∃ c, w'.st.log = w.st.log ++ [.sendAdd c] ∧ w'.st.version = w.st.version + 1 := by
  cases h with
  | sendAdd c _ => exact .inr ⟨c, rfl, rfl⟩
  | _ => exact .inl rfl

/-! ## The steps -/

theorem filterMap_snoc {α β : Type} (f : α → Option β) (l m : List α) : (l ++ m).filterMap f = l.filterMap f ++ m.filterMap f :=
  List.filterMap_append

theorem same_step {b : Build} {st st' : Runner.State T E} {w : State T} (hi : Runner.Inv b st) (h : Same st w)
    (hs : Runner.Step b st st') : ∃ w', Same st' w' := by
  obtain ⟨ms, hms⟩ := hi.sys
  have hinv : Parcom.Inv st.sys := inv_reaches hms
  have hw := RunnerWeak.inv h.reachable
  have hk := hw.known
  have hn := h.nodes
  have hkn : w.known.nodes ≤ (segmentsOf st.sys.log).length := hn ▸ hk.1
  have hnode : ∀ {n : Nat} {xs : List T}, (segmentsOf st.sys.log)[n]? = some xs → w.nodes[n]? = some xs := fun h => hn ▸ h
  have hlog := h.log
  have htask := h.task
  have hsl : w.signal.st.log = st.signal.log := by rw [← h.signal]; rfl
  have hsc : w.signal.st.calls = st.signal.calls := by rw [← h.signal]; rfl
  have hswl : w.signal.st.waits.length = st.signal.waits.length := by rw [← h.signal]; simp [Notify.Weak.usize]
  cases hs with
  | loader m sys new hm he hnew =>
    obtain ⟨e1, e2, e3, e4, ⟨e5, e6⟩ | ⟨seg, e5, e6⟩⟩ := loader_cases b hinv h.linear h.tail hm he hnew
    · exact ⟨w, h.reachable, h.signal, by rw [hn]; exact e6.symm, e3, e4, h.done, by rw [h.head]; exact e1 ▸ rfl,
        by rw [h.offset]; exact e1 ▸ rfl, by rw [← e2] at htask; exact htask, h.polls, by
          simp only [filterMap_snoc, e5, List.append_nil]; exact hlog⟩
    · exact ⟨_, .step h.reachable (.commit w seg), h.signal, by rw [e6, ← hn], e3, e4, h.done, by rw [e1]; exact h.head,
        by rw [e1]; exact h.offset, by rw [← e2] at htask; exact htask, h.polls, by
          simp only [filterMap_snoc, e5, hlog]; rfl⟩
  | setDone =>
    exact ⟨_, .step h.reachable (.setDone w), h.signal, hn, h.linear, h.tail, rfl, h.head, h.offset, htask, h.polls,
      by simp only [filterMap_snoc, hlog]; rfl⟩
  | signal signal new hst hnew =>
    rw [← h.signal] at hst
    obtain ⟨s', h1, rfl⟩ := Notify.weak_of_step hw.signal hst
    have hl' : s'.st.log = w.signal.st.log ++ new := by rw [hsl]; exact hnew
    have hmap : ((new.map (Event.signal (T := T))).filterMap Event.seen) =
        (new.map (Runner.Event.signal (T := T) (E := E))).filterMap Runner.Event.seen := by
      simp only [List.filterMap_map]
      rfl
    rcases version_cases h1 with hv | ⟨c, hc, hv⟩
    · exact ⟨_, .step h.reachable (.signal w s' new h1 hv hl'), rfl, hn, h.linear, h.tail, h.done, h.head, h.offset, htask, h.polls,
        by simp only [filterMap_snoc, hlog, hmap]⟩
    · rw [hc] at hl'
      cases List.append_cancel_left hl'
      exact ⟨_, .step h.reachable (.add w s' c ⟨0, false⟩ h1 hc hv ⟨Nat.zero_le _, by simp⟩), rfl, hn, h.linear, h.tail, h.done, h.head,
        h.offset, htask, h.polls, by simp only [filterMap_snoc, hlog]; rfl⟩
  | segments sys ht he =>
    rw [ht] at htask
    generalize hr : st.sys.reader = rd at htask
    generalize hwt : w.task = wt at htask
    cases htask
    simp only [Loading.move, hr] at he
    cases he
    exact ⟨_, .step h.reachable (.segments w hwt), h.signal, by rw [segmentsOf_snoc (by simp)]; exact hn,
      by rw [segmentsOf_snoc (by simp)]; exact h.linear, by rw [segmentsOf_snoc (by simp)]; exact h.tail, h.done, h.head, h.offset,
      by rw [h.head, h.offset]; exact .stream _, h.polls, by simp only [filterMap_snoc, hlog]; rfl⟩
  | dropStream sys ht he =>
    rw [ht] at htask
    generalize hr : st.sys.reader = rd at htask
    generalize hwt : w.task = wt at htask
    cases htask
    simp only [Loading.move, hr] at he
    cases he
    exact ⟨_, .step h.reachable (.dropStream w _ _ hwt), h.signal, hn, h.linear, h.tail, h.done, h.head, h.offset, .idle, h.polls, hlog⟩
  | next ht =>
    rw [ht] at htask
    generalize hr : st.sys.reader = rd at htask
    generalize hwt : w.task = wt at htask
    cases htask
    exact ⟨_, .step h.reachable (.next w _ _ hwt), h.signal, hn, h.linear, h.tail, h.done, h.head, h.offset, by rw [hr]; exact .next _ _,
      h.polls, by simp only [filterMap_snoc, hlog]; rfl⟩
  | nextDrop fut ht =>
    rw [ht] at htask
    generalize hr : st.sys.reader = rd at htask
    generalize hwt : w.task = wt at htask
    cases htask
    exact ⟨_, .step h.reachable (.nextDrop w _ _ _ hwt), h.signal, hn, h.linear, h.tail, h.done, h.head, h.offset,
      by rw [hr]; exact .stream _, h.polls, by simp only [filterMap_snoc, hlog]; rfl⟩
  | nextPoll ht =>
    rw [ht] at htask
    generalize hr : st.sys.reader = rd at htask
    generalize hwt : w.task = wt at htask
    cases htask
    exact ⟨_, .step h.reachable (.nextPoll w _ _ hwt), h.signal, hn, h.linear, h.tail, h.done, h.head, h.offset,
      by rw [hr, h.polls]; exact .nextPoll _ _ _ .first, by rw [h.polls], by simp only [filterMap_snoc, hlog, h.polls]; rfl⟩
  | nextPollWait i signal ht hlt hsig =>
    rw [ht] at htask
    generalize hr : st.sys.reader = rd at htask
    generalize hwt : w.task = wt at htask
    cases htask
    subst hsig
    refine ⟨_, .step h.reachable (.nextPollWait w _ _ i _ hwt (.pollBegin w.signal i (by omega)) rfl rfl), ?_, hn, h.linear, h.tail, h.done,
      h.head, h.offset, by rw [hr, h.polls, hsc]; exact .nextPoll _ _ _ (.wait _), by rw [h.polls],
      by simp only [filterMap_snoc, hlog, h.polls, hsc]; rfl⟩
    simp only [← h.signal]
    rfl
  | nextWaitReady k p fut ht hp =>
    rw [ht] at htask
    generalize hr : st.sys.reader = rd at htask
    generalize hwt : w.task = wt at htask
    cases htask
    exact ⟨_, .step h.reachable (.nextWaitReady w _ _ _ p _ hwt (hsl ▸ hp)), h.signal, hn, h.linear, h.tail, h.done, h.head, h.offset,
      by rw [hr]; exact .nextPoll _ _ _ .first, h.polls, hlog⟩
  | nextWaitPending k p fut ht hp =>
    rw [ht] at htask
    generalize hr : st.sys.reader = rd at htask
    generalize hwt : w.task = wt at htask
    cases htask
    exact ⟨_, .step h.reachable (.nextWaitPending w _ _ _ p _ hwt (hsl ▸ hp)), h.signal, hn, h.linear, h.tail, h.done, h.head, h.offset,
      by rw [hr]; exact .next _ _, h.polls, by simp only [filterMap_snoc, hlog]; rfl⟩
  | firstSome k fut sys seg ht he hl =>
    rw [ht] at htask
    generalize hr : st.sys.reader = rd at htask
    generalize hwt : w.task = wt at htask
    cases htask
    rcases next_cases b hinv h.linear h.tail hr he with ⟨xs, h1, rfl⟩ | ⟨h1, rfl⟩
    · cases List.append_cancel_left hl
      exact ⟨_, .step h.reachable (.firstSome w _ _ _ _ xs hwt (hnode h1)), h.signal, by rw [segmentsOf_snoc (by simp)]; exact hn,
        by rw [segmentsOf_snoc (by simp)]; exact h.linear, by rw [segmentsOf_snoc (by simp)]; exact h.tail, h.done, h.head, h.offset,
        .stream ⟨0, _⟩, h.polls, by simp only [filterMap_snoc, hlog]; rfl⟩
    · cases List.append_cancel_left hl
  | firstNone k fut sys ht he hl =>
    rw [ht] at htask
    generalize hr : st.sys.reader = rd at htask
    generalize hwt : w.task = wt at htask
    cases htask
    rcases next_cases b hinv h.linear h.tail hr he with ⟨xs, h1, rfl⟩ | ⟨h1, rfl⟩
    · cases List.append_cancel_left hl
    · exact ⟨_, .step h.reachable (.firstNone w _ _ _ _ hwt (by omega)), h.signal, by rw [segmentsOf_snoc (by simp)]; exact hn,
        by rw [segmentsOf_snoc (by simp)]; exact h.linear, by rw [segmentsOf_snoc (by simp)]; exact h.tail, h.done, h.head, h.offset,
        .nextPoll _ _ _ .makeWait, h.polls, by simp only [filterMap_snoc, hlog]; simp [Runner.Event.seen]⟩
  | makeWait k fut signal ht hsig =>
    rw [ht] at htask
    generalize hr : st.sys.reader = rd at htask
    generalize hwt : w.task = wt at htask
    cases htask
    subst hsig
    refine ⟨_, .step h.reachable (.makeWait w _ _ _ w.signal.st.version _ _ hwt (.wait w.signal _ (Nat.le_refl _)) rfl rfl rfl), ?_, hn,
      h.linear, h.tail, h.done, h.head, h.offset, by rw [hr, hswl]; exact .nextPoll _ _ _ (.second _), h.polls,
      by simp only [filterMap_snoc, hlog, hswl]; rfl⟩
    simp only [← h.signal]
    simp [Notify.Weak.usize, Notify.State.emit]
  | secondSome k i fut sys seg ht he hl =>
    rw [ht] at htask
    generalize hr : st.sys.reader = rd at htask
    generalize hwt : w.task = wt at htask
    cases htask
    rcases next_cases b hinv h.linear h.tail hr he with ⟨xs, h1, rfl⟩ | ⟨h1, rfl⟩
    · cases List.append_cancel_left hl
      exact ⟨_, .step h.reachable (.secondSome w _ _ _ i _ xs hwt (hnode h1)), h.signal, by rw [segmentsOf_snoc (by simp)]; exact hn,
        by rw [segmentsOf_snoc (by simp)]; exact h.linear, by rw [segmentsOf_snoc (by simp)]; exact h.tail, h.done, h.head, h.offset,
        .stream ⟨0, _⟩, h.polls, by simp only [filterMap_snoc, hlog]; rfl⟩
    · cases List.append_cancel_left hl
  | secondNone k i fut sys ht he hl =>
    rw [ht] at htask
    generalize hr : st.sys.reader = rd at htask
    generalize hwt : w.task = wt at htask
    cases htask
    rcases next_cases b hinv h.linear h.tail hr he with ⟨xs, h1, rfl⟩ | ⟨h1, rfl⟩
    · cases List.append_cancel_left hl
    · exact ⟨_, .step h.reachable (.secondNone w _ _ _ i _ hwt (by omega)), h.signal, by rw [segmentsOf_snoc (by simp)]; exact hn,
        by rw [segmentsOf_snoc (by simp)]; exact h.linear, by rw [segmentsOf_snoc (by simp)]; exact h.tail, h.done, h.head, h.offset,
        .nextPoll _ _ _ (.loadDone i), h.polls, by simp only [filterMap_snoc, hlog]; simp [Runner.Event.seen]⟩
  | isDone k i fut ht hd =>
    rw [ht] at htask
    generalize hr : st.sys.reader = rd at htask
    generalize hwt : w.task = wt at htask
    cases htask
    exact ⟨_, .step h.reachable (.isDone w _ _ _ i _ hwt (h.done.trans hd)), h.signal, hn, h.linear, h.tail, h.done, h.head, h.offset,
      by rw [hr]; exact .stream _, h.polls, by simp only [filterMap_snoc, hlog]; rfl⟩
  | notDone k i fut ht hd =>
    rw [ht] at htask
    generalize hr : st.sys.reader = rd at htask
    generalize hwt : w.task = wt at htask
    cases htask
    have hkd : w.known.done = false := Bool.eq_false_iff.mpr fun hx => by have := hk.2 hx; rw [h.done, hd] at this; cases this
    exact ⟨_, .step h.reachable (.notDone w _ _ _ i _ hwt hkd), h.signal, hn, h.linear, h.tail, h.done, h.head, h.offset,
      by rw [hr]; exact .next _ _, h.polls, by simp only [filterMap_snoc, hlog]; rfl⟩
  | advance delta ht =>
    rw [ht] at htask
    generalize hr : st.sys.reader = rd at htask
    generalize hwt : w.task = wt at htask
    cases htask
    exact ⟨_, .step h.reachable (.advance w delta hwt), h.signal, hn, h.linear, h.tail, h.done, h.head, h.offset,
      by rw [hr]; exact .advance _ _, h.polls, by simp only [filterMap_snoc, hlog]; rfl⟩
  | advancePoll remain ht =>
    rw [ht] at htask
    generalize hr : st.sys.reader = rd at htask
    generalize hwt : w.task = wt at htask
    cases htask
    exact ⟨_, .step h.reachable (.advancePoll w _ hwt), h.signal, hn, h.linear, h.tail, h.done, h.head, h.offset,
      by rw [hr, h.polls]; exact .makeWait _ _ _, by rw [h.polls], by simp only [filterMap_snoc, hlog, h.polls]; rfl⟩
  | advancePollWait i remain signal ht hlt hsig =>
    rw [ht] at htask
    generalize hr : st.sys.reader = rd at htask
    generalize hwt : w.task = wt at htask
    cases htask
    subst hsig
    refine ⟨_, .step h.reachable (.advancePollWait w i _ _ hwt (.pollBegin w.signal i (by omega)) rfl rfl), ?_, hn, h.linear, h.tail, h.done,
      h.head, h.offset, by rw [hr, h.polls, hsc]; exact .wait _ _ _ _, by rw [h.polls],
      by simp only [filterMap_snoc, hlog, h.polls, hsc]; rfl⟩
    simp only [← h.signal]
    rfl
  | advanceWaitReady k p remain fut ht hp =>
    rw [ht] at htask
    generalize hr : st.sys.reader = rd at htask
    generalize hwt : w.task = wt at htask
    cases htask
    exact ⟨_, .step h.reachable (.advanceWaitReady w _ p _ _ hwt (hsl ▸ hp)), h.signal, hn, h.linear, h.tail, h.done, h.head, h.offset,
      by rw [hr]; exact .makeWait _ _ _, h.polls, hlog⟩
  | advanceWaitPending k p remain fut ht hp =>
    rw [ht] at htask
    generalize hr : st.sys.reader = rd at htask
    generalize hwt : w.task = wt at htask
    cases htask
    exact ⟨_, .step h.reachable (.advanceWaitPending w _ p _ _ hwt (hsl ▸ hp)), h.signal, hn, h.linear, h.tail, h.done, h.head, h.offset,
      by rw [hr]; exact .advance _ _, h.polls, by simp only [filterMap_snoc, hlog]; rfl⟩
  | advanceMakeWait k remain fut signal ht hsig =>
    rw [ht] at htask
    generalize hr : st.sys.reader = rd at htask
    generalize hwt : w.task = wt at htask
    cases htask
    subst hsig
    refine ⟨_, .step h.reachable (.advanceMakeWait w _ _ w.signal.st.version _ _ hwt (.wait w.signal _ (Nat.le_refl _)) rfl rfl rfl), ?_, hn,
      h.linear, h.tail, h.done, h.head, h.offset, by rw [hr, hswl]; exact .replace _ _ _, h.polls,
      by simp only [filterMap_snoc, hlog, hswl]; rfl⟩
    simp only [← h.signal]
    simp [Notify.Weak.usize, Notify.State.emit]
  | replace k remain fut sys ht he =>
    rw [ht] at htask
    generalize hr : st.sys.reader = rd at htask
    generalize hwt : w.task = wt at htask
    cases htask
    simp only [Loading.move, hr] at he
    cases he
    exact ⟨_, .step h.reachable (.replace w _ _ _ hwt), h.signal, hn, h.linear, h.tail, h.done, h.head, h.offset,
      by rw [h.head, h.offset]; exact .advancing _ _ _ _ _ _, h.polls, hlog⟩
  | advancing k remain fut sys ht he hl =>
    rw [ht] at htask
    generalize hr : st.sys.reader = rd at htask
    generalize hwt : w.task = wt at htask
    cases htask
    rcases get_cases b hinv h.linear h.tail hr he with ⟨xs, h1, h2, rfl⟩ | ⟨xs, h1, h2, rfl⟩ | ⟨h1, rfl⟩
    · exact ⟨_, .step h.reachable (.pass w _ _ _ _ _ _ _ xs hwt (hnode h1) h2), h.signal, hn, h.linear, h.tail, h.done, h.head, h.offset,
        by show SameTask st.task _ _; rw [ht]; exact .advancing _ _ _ _ _ ⟨0, _⟩, h.polls, hlog⟩
    · simp at hl
    · simp at hl
  | advanced k remain n r fut sys ht he hl =>
    rw [ht] at htask
    generalize hr : st.sys.reader = rd at htask
    generalize hwt : w.task = wt at htask
    cases htask
    rcases get_cases b hinv h.linear h.tail hr he with ⟨xs, h1, h2, rfl⟩ | ⟨xs, h1, h2, rfl⟩ | ⟨h1, rfl⟩
    · simp at hl
    · cases List.append_cancel_left hl
      exact ⟨_, .step h.reachable (.stop w _ _ _ _ _ _ _ xs hwt (hnode h1) h2), h.signal, by rw [segmentsOf_snoc (by simp)]; exact hn,
        by rw [segmentsOf_snoc (by simp)]; exact h.linear, by rw [segmentsOf_snoc (by simp)]; exact h.tail, h.done, rfl, rfl,
        .check _ _ _ _, h.polls, by simp only [filterMap_snoc, hlog]; rfl⟩
    · cases List.append_cancel_left hl
      exact ⟨_, .step h.reachable (.short w _ _ _ _ _ _ _ hwt (by omega)), h.signal, by rw [segmentsOf_snoc (by simp)]; exact hn,
        by rw [segmentsOf_snoc (by simp)]; exact h.linear, by rw [segmentsOf_snoc (by simp)]; exact h.tail, h.done, rfl, rfl,
        .check _ _ _ _, h.polls, by simp only [filterMap_snoc, hlog]; rfl⟩
  | advanceReady k remain r fut ht hd =>
    rw [ht] at htask
    generalize hr : st.sys.reader = rd at htask
    generalize hwt : w.task = wt at htask
    cases htask
    by_cases he : r = remain
    · subst he
      exact ⟨_, .step h.reachable (.skipped w _ _ _ hwt), h.signal, hn, h.linear, h.tail, h.done, h.head, h.offset,
        by rw [hr]; exact .idle, h.polls, by simp only [filterMap_snoc, hlog]; rfl⟩
    · exact ⟨_, .step h.reachable (.advanceDone w _ _ _ _ hwt he (h.done.trans (hd.resolve_left he))), h.signal, hn, h.linear, h.tail, h.done,
        h.head, h.offset, by rw [hr]; exact .idle, h.polls, by simp only [filterMap_snoc, hlog]; rfl⟩
  | advancePending k remain r fut ht hne hd =>
    rw [ht] at htask
    generalize hr : st.sys.reader = rd at htask
    generalize hwt : w.task = wt at htask
    cases htask
    have hkd : w.known.done = false := Bool.eq_false_iff.mpr fun hx => by have := hk.2 hx; rw [h.done, hd] at this; cases this
    exact ⟨_, .step h.reachable (.advancePending w _ _ _ _ hwt hne hkd), h.signal, hn, h.linear, h.tail, h.done, h.head, h.offset,
      by rw [hr]; exact .advance _ _, h.polls, by simp only [filterMap_snoc, hlog]; rfl⟩

/-- C118: whatever can be seen in `Verif.Model.Runner`, where every read sees what was written last, can be seen in this machine: its
theorems are about all the runs of that, and more (`C118_end_stale`). -/
theorem C118_extends {b : Build} {st : Runner.State T E} (h : Runner.Reachable b st) :
    ∃ w : State T, Reachable w ∧ w.log.filterMap Event.seen = st.log.filterMap Runner.Event.seen ∧
      w.nodes = segmentsOf st.sys.log ∧ w.doneFlag = st.doneFlag ∧ w.signal.usize = st.signal := by
  have : ∃ w : State T, Same st w := by
    induction h with
    | init c =>
      exact ⟨RunnerWeak.init, .init, rfl, rfl, linear_init, rfl, rfl, rfl, rfl, .idle, rfl, rfl⟩
    | step hr hs ih =>
      obtain ⟨w, hw⟩ := ih
      exact same_step (Runner.inv hr) hw hs
  obtain ⟨w, hw⟩ := this
  exact ⟨w, hw.reachable, hw.log, hw.nodes, hw.done, hw.signal⟩

/-- The run in which `next` misses an item that was there before the end was flagged (`Runner.race`, C65) is one of this machine. -/
example : ∃ w : State Nat, Reachable w ∧ .nextReady 0 none ∈ w.log ∧ w.nodes = [[7]] := by
  obtain ⟨st, h1, h2⟩ := Runner.race
  obtain ⟨w, h3, h4, h5, -⟩ := C118_extends h1
  refine ⟨w, h3, ?_, ?_⟩
  · have : Event.nextReady 0 none ∈ w.log.filterMap Event.seen := by
      rw [h4, h2]
      simp [Runner.Event.seen]
    obtain ⟨e, he, hs⟩ := List.mem_filterMap.mp this
    cases e <;> simp [Event.seen] at hs
    obtain ⟨rfl, rfl⟩ := hs
    exact he
  · rw [h5, (Runner.inv h1).sysLog, h2]
    rfl

end RunnerWeak
end Parcom
