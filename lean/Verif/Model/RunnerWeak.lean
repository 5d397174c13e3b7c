import Verif.Model.NotifyWeak
/-!
# The default runner's sequence with stale reads

`Verif.Model.Runner` interleaves the accesses of the sequence's user with those of everybody else. But a `OnceLock` is read with
`Acquire` and written with `Release` only, so that `get` may miss a node that was set already, unless its thread has come to know of
that. This machine says what that changes. It has the user of `Verif.Model.Runner`, with the buffer cut down to what the user sees
of it, a list of nodes (`Verif.Model.Loader` is about where they come from), and with the `Notify` of `Verif.Model.NotifyWeak`.

* Nodes are set one after the other by whoever has the loader, so that to know of one is to know of those before.
* An increment of the version releases what its thread knows. A load that returns the version after `v` increments acquires what
  these released: they are read-modify-writes, so each continues the release sequences of those before.
* What is acquired by reading a node is that it was set, and so those before.
* The user may come to know of more by other means at any time (`learn`). What it also learns by reading `done_flag` or by taking the
  mutex is left out, which only lets it know of less.
-/
namespace Parcom.RunnerWeak
variable {T : Type}

/-- What somebody knows of: the number of nodes set, and whether `done_flag` was. -/
structure View where
  nodes : Nat
  done : Bool

/-- To know of both. -/
def View.join (a b : View) : View := ⟨max a.nodes b.nodes, a.done || b.done⟩

/-- To know of all of these. -/
def View.joins (v : View) (vs : List View) : View := vs.foldl View.join v

/-- The futures. -/
inductive Fut where
  | next
  | advance

/-- What can be seen. -/
inductive Event (T : Type) where
  /-- a node is set -/
  | committed (seg : List T)
  /-- `done_flag` is set -/
  | done
  /-- of `append_signal` -/
  | signal (e : Notify.Event)
  /-- the increment of call `c` of `send` releases that its thread knows of `v` -/
  | released (c : Nat) (v : View)
  /-- `segments()` is called -/
  | iterates
  /-- `next()` is called -/
  | nextCall
  /-- the `k`th poll of such a future begins; `inner` is the call of `poll` of a `Wait` it begins with, `known` what the user knows of -/
  | pollBegin (f : Fut) (k : Nat) (inner : Option Nat) (known : View)
  /-- it calls `cx.waker().wake_by_ref()` -/
  | wokeSelf (k : Nat)
  /-- it returns `Pending` -/
  | pollPending (k : Nat)
  /-- that of a `Next` returns `Ready` -/
  | nextReady (k : Nat) (r : Option (List T))
  /-- a `Next` is dropped before it is ready -/
  | nextDrop
  /-- `advance(delta)` is called -/
  | advanceCall (delta : Nat)
  /-- `buffer.advance(n)` returns `r` -/
  | advanced (n r : Nat)
  /-- that of an `Advance` returns `Ready` -/
  | advanceReady (k : Nat)

/-- Where `DefaultSegmentsNext::poll` (segments.rs:83-108) is. -/
inductive NextPc where
  /-- inside `fut.poll(cx)` (segments.rs:85), call `p` of `Wait::poll` -/
  | wait (p : Nat)
  /-- before the first `iter.next()` (segments.rs:87) -/
  | first
  /-- before `append_signal.wait()` (segments.rs:91) -/
  | makeWait
  /-- before the second `iter.next()` (segments.rs:95), with the `i`th `Wait` -/
  | second (i : Nat)
  /-- before `done_flag.load` (segments.rs:100) -/
  | loadDone (i : Nat)

/-- Where `DefaultSequenceAdvance::poll` (advance.rs:38-65) is. -/
inductive AdvancePc where
  /-- inside `fut.poll(cx)` (advance.rs:41) -/
  | wait (p : Nat)
  /-- before `append_signal.wait()` (advance.rs:44-47) -/
  | makeWait
  /-- before `mem::replace(this.remain, Default::default())` (advance.rs:50) -/
  | replace
  /-- inside `buffer.advance(delta)` (advance.rs:51, buffer.rs:33-46), with `remain`, `node` and `offset` there -/
  | advancing (delta remain node offset : Nat)
  /-- before `&remain == this.remain || done_flag.load()` (advance.rs:53) -/
  | check (remain : Nat)

/-- What the user is doing. `node` and `offset` are those of an `Iter` (buffer.rs:63-66), `fut` is the number of the `Wait` in a future. -/
inductive Task where
  /-- has the sequence -/
  | idle
  /-- has a `DefaultSegments` -/
  | stream (node offset : Nat)
  /-- has a `DefaultSegmentsNext` (segments.rs:64-74) -/
  | next (node offset : Nat) (fut : Option Nat)
  | nextPoll (k node offset : Nat) (fut : Option Nat) (pc : NextPc)
  /-- has a `DefaultSequenceAdvance` (advance.rs:8-17) -/
  | advance (fut : Option Nat) (remain : Nat)
  | advancePoll (k : Nat) (fut : Option Nat) (remain : Nat) (pc : AdvancePc)

/-- The sequence (sequence.rs:39-48, buffer.rs:7-10), the other side of it, and its user. -/
structure State (T : Type) where
  signal : Notify.Weak
  /-- the nodes that were set -/
  nodes : List (List T)
  doneFlag : Bool
  /-- what the increments of the version released, in order -/
  sent : List View
  /-- what the user knows of -/
  known : View
  /-- `head_node`, by its number -/
  head : Nat
  /-- `head_offset` -/
  offset : Nat
  task : Task
  /-- the number of polls begun -/
  polls : Nat
  log : List (Event T)

/-- `DefaultSequence::new` (sequence.rs:27-36) with the buffer of a new `GenericSequence` (generic.rs:28-33). -/
def init : State T where
  signal := .init
  nodes := []
  doneFlag := false
  sent := []
  known := ⟨0, false⟩
  head := 0
  offset := 0
  task := .idle
  polls := 0
  log := []

/-- All there is to know of. -/
def State.All (st : State T) (v : View) : Prop := v.nodes ≤ st.nodes.length ∧ (v.done = true → st.doneFlag = true)

/-- The steps. -/
inductive Step : State T → State T → Prop where
  /-- `commit_to` (loader.rs:40-48) -/
  | commit (st : State T) (seg : List T) : Step st { st with nodes := st.nodes ++ [seg], log := st.log ++ [.committed seg] }
  | setDone (st : State T) : Step st { st with doneFlag := true, log := st.log ++ [.done] }
  /-- any step of `append_signal` but increments, also of polls the user has begun -/
  | signal (st : State T) (signal : Notify.Weak) (new : List Notify.Event) : Notify.WStep st.signal signal →
      signal.st.version = st.signal.st.version → signal.st.log = st.signal.st.log ++ new →
      Step st { st with signal, log := st.log ++ new.map .signal }
  /-- an increment (notify.rs:26), by somebody who knows of `v` -/
  | add (st : State T) (signal : Notify.Weak) (c : Nat) (v : View) : Notify.WStep st.signal signal →
      signal.st.log = st.signal.st.log ++ [.sendAdd c] → signal.st.version = st.signal.st.version + 1 → st.All v →
      Step st { st with signal, sent := st.sent ++ [v], log := st.log ++ [.signal (.sendAdd c), .released c v] }
  /-- the user comes to know of `v` in some other way -/
  | learn (st : State T) (v : View) : st.All v → Step st { st with known := st.known.join v }
  /-- `segments()` (sequence.rs:66-68, segments.rs:31-39) -/
  | segments (st : State T) : st.task = .idle → Step st { st with task := .stream st.head st.offset, log := st.log ++ [.iterates] }
  /-- the stream is dropped -/
  | dropStream (st : State T) (n o : Nat) : st.task = .stream n o → Step st { st with task := .idle }
  /-- `DefaultSegments::next` (segments.rs:56-61) -/
  | next (st : State T) (n o : Nat) : st.task = .stream n o → Step st { st with task := .next n o none, log := st.log ++ [.nextCall] }
  | nextDrop (st : State T) (n o : Nat) (fut : Option Nat) : st.task = .next n o fut →
      Step st { st with task := .stream n o, log := st.log ++ [.nextDrop] }
  /-- segments.rs:85: there is no `Wait` yet (option_future.rs:33) -/
  | nextPoll (st : State T) (n o : Nat) : st.task = .next n o none →
      Step st { st with
        task := .nextPoll st.polls n o none .first, polls := st.polls + 1
        log := st.log ++ [.pollBegin .next st.polls none st.known] }
  /-- segments.rs:85: the `Wait` is polled (option_future.rs:32) -/
  | nextPollWait (st : State T) (n o i : Nat) (signal : Notify.Weak) : st.task = .next n o (some i) → Notify.WStep st.signal signal →
      signal.st.log = st.signal.st.log ++ [.pollBegin st.signal.st.calls i] → signal.st.version = st.signal.st.version →
      Step st { st with
        signal, task := .nextPoll st.polls n o (some i) (.wait st.signal.st.calls), polls := st.polls + 1
        log := st.log ++ [.pollBegin .next st.polls (some st.signal.st.calls) st.known, .signal (.pollBegin st.signal.st.calls i)] }
  | nextWaitReady (st : State T) (k n o p : Nat) (fut : Option Nat) : st.task = .nextPoll k n o fut (.wait p) →
      .pollReady p ∈ st.signal.st.log → Step st { st with task := .nextPoll k n o fut .first }
  | nextWaitPending (st : State T) (k n o p : Nat) (fut : Option Nat) : st.task = .nextPoll k n o fut (.wait p) →
      .pollPending p ∈ st.signal.st.log → Step st { st with task := .next n o fut, log := st.log ++ [.pollPending k] }
  /-- segments.rs:87-89: `get` (buffer.rs:72) returns the node -/
  | firstSome (st : State T) (k n o : Nat) (fut : Option Nat) (buf : List T) : st.task = .nextPoll k n o fut .first →
      st.nodes[n]? = some buf →
      Step st { st with
        known := st.known.join ⟨n + 1, false⟩, task := .stream (n + 1) 0, log := st.log ++ [.nextReady k (some (buf.drop o))] }
  /-- `get` returns `None`, though the node may have been set -/
  | firstNone (st : State T) (k n o : Nat) (fut : Option Nat) : st.task = .nextPoll k n o fut .first → st.known.nodes ≤ n →
      Step st { st with task := .nextPoll k n o fut .makeWait }
  /-- segments.rs:91: the load returns the version after `v` increments -/
  | makeWait (st : State T) (k n o v : Nat) (fut : Option Nat) (signal : Notify.Weak) : st.task = .nextPoll k n o fut .makeWait →
      Notify.WStep st.signal signal → signal.st.log = st.signal.st.log ++ [.waitMade st.signal.st.waits.length] →
      signal.st.waits = st.signal.st.waits ++ [v] → signal.st.version = st.signal.st.version →
      Step st { st with
        signal, known := st.known.joins (st.sent.take v), task := .nextPoll k n o fut (.second st.signal.st.waits.length)
        log := st.log ++ [.signal (.waitMade st.signal.st.waits.length)] }
  /-- segments.rs:95-97 -/
  | secondSome (st : State T) (k n o i : Nat) (fut : Option Nat) (buf : List T) : st.task = .nextPoll k n o fut (.second i) →
      st.nodes[n]? = some buf →
      Step st { st with
        known := st.known.join ⟨n + 1, false⟩, task := .stream (n + 1) 0, log := st.log ++ [.nextReady k (some (buf.drop o))] }
  | secondNone (st : State T) (k n o i : Nat) (fut : Option Nat) : st.task = .nextPoll k n o fut (.second i) → st.known.nodes ≤ n →
      Step st { st with task := .nextPoll k n o fut (.loadDone i) }
  /-- segments.rs:100-102 -/
  | isDone (st : State T) (k n o i : Nat) (fut : Option Nat) : st.task = .nextPoll k n o fut (.loadDone i) → st.doneFlag = true →
      Step st { st with known := st.known.join ⟨0, true⟩, task := .stream n o, log := st.log ++ [.nextReady k none] }
  /-- segments.rs:104-107: the load returns `false`, though the flag may have been set -/
  | notDone (st : State T) (k n o i : Nat) (fut : Option Nat) : st.task = .nextPoll k n o fut (.loadDone i) → st.known.done = false →
      Step st { st with task := .next n o (some i), log := st.log ++ [.wokeSelf k, .pollPending k] }
  /-- `advance(delta)` (sequence.rs:70-72, advance.rs:20-29) -/
  | advance (st : State T) (delta : Nat) : st.task = .idle →
      Step st { st with task := .advance none delta, log := st.log ++ [.advanceCall delta] }
  /-- advance.rs:41, as above -/
  | advancePoll (st : State T) (remain : Nat) : st.task = .advance none remain →
      Step st { st with
        task := .advancePoll st.polls none remain .makeWait, polls := st.polls + 1
        log := st.log ++ [.pollBegin .advance st.polls none st.known] }
  | advancePollWait (st : State T) (i remain : Nat) (signal : Notify.Weak) : st.task = .advance (some i) remain →
      Notify.WStep st.signal signal → signal.st.log = st.signal.st.log ++ [.pollBegin st.signal.st.calls i] →
      signal.st.version = st.signal.st.version →
      Step st { st with
        signal, task := .advancePoll st.polls (some i) remain (.wait st.signal.st.calls), polls := st.polls + 1
        log := st.log ++ [.pollBegin .advance st.polls (some st.signal.st.calls) st.known, .signal (.pollBegin st.signal.st.calls i)] }
  | advanceWaitReady (st : State T) (k p remain : Nat) (fut : Option Nat) : st.task = .advancePoll k fut remain (.wait p) →
      .pollReady p ∈ st.signal.st.log → Step st { st with task := .advancePoll k fut remain .makeWait }
  | advanceWaitPending (st : State T) (k p remain : Nat) (fut : Option Nat) : st.task = .advancePoll k fut remain (.wait p) →
      .pollPending p ∈ st.signal.st.log → Step st { st with task := .advance fut remain, log := st.log ++ [.pollPending k] }
  /-- advance.rs:44-48 -/
  | advanceMakeWait (st : State T) (k remain v : Nat) (fut : Option Nat) (signal : Notify.Weak) :
      st.task = .advancePoll k fut remain .makeWait →
      Notify.WStep st.signal signal → signal.st.log = st.signal.st.log ++ [.waitMade st.signal.st.waits.length] →
      signal.st.waits = st.signal.st.waits ++ [v] → signal.st.version = st.signal.st.version →
      Step st { st with
        signal, known := st.known.joins (st.sent.take v), task := .advancePoll k (some st.signal.st.waits.length) remain .replace
        log := st.log ++ [.signal (.waitMade st.signal.st.waits.length)] }
  /-- advance.rs:50: `this.remain` becomes 0 -/
  | replace (st : State T) (k remain : Nat) (fut : Option Nat) : st.task = .advancePoll k fut remain .replace →
      Step st { st with task := .advancePoll k fut 0 (.advancing remain remain st.head st.offset) }
  /-- buffer.rs:33-43: the whole node is skipped -/
  | pass (st : State T) (k left d r n o : Nat) (fut : Option Nat) (buf : List T) :
      st.task = .advancePoll k fut left (.advancing d r n o) → st.nodes[n]? = some buf → buf.length - o ≤ r →
      Step st { st with
        known := st.known.join ⟨n + 1, false⟩, task := .advancePoll k fut left (.advancing d (r - (buf.length - o)) (n + 1) 0) }
  /-- buffer.rs:33-39: part of it is -/
  | stop (st : State T) (k left d r n o : Nat) (fut : Option Nat) (buf : List T) :
      st.task = .advancePoll k fut left (.advancing d r n o) → st.nodes[n]? = some buf → r < buf.length - o →
      Step st { st with
        known := st.known.join ⟨n + 1, false⟩, head := n, offset := o + r, task := .advancePoll k fut left (.check 0)
        log := st.log ++ [.advanced d 0] }
  /-- buffer.rs:33: `get` returns `None`, though the node may have been set -/
  | short (st : State T) (k left d r n o : Nat) (fut : Option Nat) :
      st.task = .advancePoll k fut left (.advancing d r n o) → st.known.nodes ≤ n →
      Step st { st with head := n, offset := o, task := .advancePoll k fut left (.check r), log := st.log ++ [.advanced d r] }
  /-- advance.rs:53-60: `done_flag` is not read -/
  | skipped (st : State T) (k r : Nat) (fut : Option Nat) : st.task = .advancePoll k fut r (.check r) →
      Step st { st with task := .idle, log := st.log ++ [.advanceReady k] }
  /-- advance.rs:53-60: `done_flag` is read -/
  | advanceDone (st : State T) (k remain r : Nat) (fut : Option Nat) : st.task = .advancePoll k fut remain (.check r) →
      r ≠ remain → st.doneFlag = true →
      Step st { st with known := st.known.join ⟨0, true⟩, task := .idle, log := st.log ++ [.advanceReady k] }
  /-- advance.rs:62-64 -/
  | advancePending (st : State T) (k remain r : Nat) (fut : Option Nat) : st.task = .advancePoll k fut remain (.check r) →
      r ≠ remain → st.known.done = false →
      Step st { st with task := .advance fut remain, log := st.log ++ [.wokeSelf k, .pollPending k] }

/-- The states the machine can be in. -/
inductive Reachable : State T → Prop where
  | init : Reachable init
  | step {st st' : State T} : Reachable st → Step st st' → Reachable st'

end Parcom.RunnerWeak
