import Verif.Model.Loader
import Verif.Model.Notify
/-!
# The default runner's sequence

`crates/parcom-runners/src/default_runner/sequence.rs`, `sequence/segments.rs`, `sequence/advance.rs`, over the generic
sequence, as a machine that interleaves the steps of its user with those of everybody else: loads, commits, calls of
`send` on `append_signal`, and setting `done_flag`. Nothing in the repository does the latter two yet, so the machine lets
them happen at any time; theorems say what they need.

The user is one task: `segments` borrows the sequence, a `Next` borrows the stream, and `advance` consumes the sequence.
A step of the machine is one access to something shared. All of them are `SeqCst`, under a mutex, or a `OnceLock::get`.
-/
namespace Parcom.Runner
variable {T E : Type}

/-- The futures. -/
inductive Fut where
  | next
  | advance

/-- What can be seen. -/
inductive Event (T E : Type) where
  /-- of the sequence -/
  | sys (o : Obs T E)
  /-- of `append_signal` -/
  | signal (e : Notify.Event)
  /-- `done_flag` is set -/
  | done
  /-- `next()` is called -/
  | nextCall
  /-- the `k`th poll of such a future begins; `inner` is the call of `poll` of a `Wait` it begins with -/
  | pollBegin (f : Fut) (k : Nat) (inner : Option Nat)
  /-- it calls `cx.waker().wake_by_ref()` -/
  | wokeSelf (k : Nat)
  /-- it returns `Pending` -/
  | pollPending (k : Nat)
  /-- that of a `Next` returns `Ready` -/
  | nextReady (k : Nat) (r : Option (List T))
  /-- a `Next` is dropped before it is ready -/
  | nextDrop
  /-- `advance(delta)` is called -/
  | advanceCall (delta : Nat)
  /-- that of an `Advance` returns `Ready` -/
  | advanceReady (k : Nat)

/-- Where `DefaultSegmentsNext::poll` (segments.rs:83-108) is. -/
inductive NextPc where
  /-- inside `fut.poll(cx)` (segments.rs:85), call `p` of `Wait::poll` -/
  | wait (p : Nat)
  /-- before the first `iter.next()` (segments.rs:87) -/
  | first
  /-- before `append_signal.wait()` (segments.rs:91) -/
  | makeWait
  /-- before the second `iter.next()` (segments.rs:95), with the `i`th `Wait` -/
  | second (i : Nat)
  /-- before `done_flag.load` (segments.rs:100) -/
  | loadDone (i : Nat)

/-- Where `DefaultSequenceAdvance::poll` (advance.rs:38-65) is. -/
inductive AdvancePc where
  /-- inside `fut.poll(cx)` (advance.rs:41) -/
  | wait (p : Nat)
  /-- before `append_signal.wait()` (advance.rs:44-47) -/
  | makeWait
  /-- before `mem::replace(this.remain, Default::default())` (advance.rs:50) -/
  | replace
  /-- inside `buffer.advance` (advance.rs:51) -/
  | advancing
  /-- before `&remain == this.remain || done_flag.load()` (advance.rs:53) -/
  | check (remain : Nat)

/-- What the user is doing. `fut` is the number of the `Wait` in a future. -/
inductive Task where
  /-- has the sequence -/
  | idle
  /-- has a `DefaultSegments` -/
  | stream
  /-- has a `DefaultSegmentsNext` (segments.rs:64-74) -/
  | next (fut : Option Nat)
  | nextPoll (k : Nat) (fut : Option Nat) (pc : NextPc)
  /-- has a `DefaultSequenceAdvance` (advance.rs:8-17) -/
  | advance (fut : Option Nat) (remain : Nat)
  | advancePoll (k : Nat) (fut : Option Nat) (remain : Nat) (pc : AdvancePc)

/-- `struct DefaultSequenceInner` (sequence.rs:39-48), with the other side of the buffer, and its user. -/
structure State (T E : Type) where
  sys : Loading T E
  signal : Notify.State
  doneFlag : Bool
  task : Task
  /-- the number of polls begun -/
  polls : Nat
  log : List (Event T E)

/-- `DefaultSequence::new` (sequence.rs:27-36). -/
def init (newCapacity : Nat) : State T E where
  sys := .init newCapacity
  signal := Notify.init
  doneFlag := false
  task := .idle
  polls := 0
  log := []

/-- The steps. In each, `new` is what it adds to the log of the sequence. -/
inductive Step (b : Build) : State T E → State T E → Prop where
  /-- a load, or `force_commit` -/
  | loader (st : State T E) (m : Move T E) (sys : Loading T E) (new : List (Obs T E)) :
      ((∃ env script, m = .load env script) ∨ ∃ env, m = .forceCommit env) → st.sys.move b m = Run.ret sys →
      sys.log = st.sys.log ++ new → Step b st { st with sys, log := st.log ++ new.map .sys }
  | setDone (st : State T E) : Step b st { st with doneFlag := true, log := st.log ++ [.done] }
  /-- any step of `append_signal`, also of polls the user has begun -/
  | signal (st : State T E) (signal : Notify.State) (new : List Notify.Event) : Notify.Step st.signal signal →
      signal.log = st.signal.log ++ new → Step b st { st with signal, log := st.log ++ new.map .signal }
  /-- `segments()` (sequence.rs:66-68, segments.rs:31-39) -/
  | segments (st : State T E) (sys : Loading T E) : st.task = .idle → st.sys.move b .segments = Run.ret sys →
      Step b st { st with sys, task := .stream, log := st.log ++ [.sys .iterates] }
  /-- the stream is dropped -/
  | dropStream (st : State T E) (sys : Loading T E) : st.task = .stream → st.sys.move b .dropIter = Run.ret sys →
      Step b st { st with sys, task := .idle }
  /-- `DefaultSegments::next` (segments.rs:56-61) -/
  | next (st : State T E) : st.task = .stream → Step b st { st with task := .next none, log := st.log ++ [.nextCall] }
  | nextDrop (st : State T E) (fut : Option Nat) : st.task = .next fut →
      Step b st { st with task := .stream, log := st.log ++ [.nextDrop] }
  /-- segments.rs:85: there is no `Wait` yet (option_future.rs:33) -/
  | nextPoll (st : State T E) : st.task = .next none →
      Step b st { st with task := .nextPoll st.polls none .first, polls := st.polls + 1, log := st.log ++ [.pollBegin .next st.polls none] }
  /-- segments.rs:85: the `Wait` is polled (option_future.rs:32) -/
  | nextPollWait (st : State T E) (i : Nat) (signal : Notify.State) : st.task = .next (some i) → i < st.signal.waits.length →
      signal = ({ st.signal with calls := st.signal.calls + 1 }.goto st.signal.calls (.pollLoad i)).emit (.pollBegin st.signal.calls i) →
      Step b st { st with
        signal, task := .nextPoll st.polls (some i) (.wait st.signal.calls), polls := st.polls + 1
        log := st.log ++ [.pollBegin .next st.polls (some st.signal.calls), .signal (.pollBegin st.signal.calls i)] }
  | nextWaitReady (st : State T E) (k p : Nat) (fut : Option Nat) : st.task = .nextPoll k fut (.wait p) → .pollReady p ∈ st.signal.log →
      Step b st { st with task := .nextPoll k fut .first }
  | nextWaitPending (st : State T E) (k p : Nat) (fut : Option Nat) : st.task = .nextPoll k fut (.wait p) →
      .pollPending p ∈ st.signal.log → Step b st { st with task := .next fut, log := st.log ++ [.pollPending k] }
  /-- segments.rs:87-89 -/
  | firstSome (st : State T E) (k : Nat) (fut : Option Nat) (sys : Loading T E) (seg : List T) : st.task = .nextPoll k fut .first →
      st.sys.move b .next = Run.ret sys → sys.log = st.sys.log ++ [.yielded seg] →
      Step b st { st with sys, task := .stream, log := st.log ++ [.sys (.yielded seg), .nextReady k (some seg)] }
  | firstNone (st : State T E) (k : Nat) (fut : Option Nat) (sys : Loading T E) : st.task = .nextPoll k fut .first →
      st.sys.move b .next = Run.ret sys → sys.log = st.sys.log ++ [.exhausted] →
      Step b st { st with sys, task := .nextPoll k fut .makeWait, log := st.log ++ [.sys .exhausted] }
  /-- segments.rs:91 -/
  | makeWait (st : State T E) (k : Nat) (fut : Option Nat) (signal : Notify.State) : st.task = .nextPoll k fut .makeWait →
      signal = { st.signal with waits := st.signal.waits ++ [st.signal.version] }.emit (.waitMade st.signal.waits.length) →
      Step b st { st with
        signal, task := .nextPoll k fut (.second st.signal.waits.length)
        log := st.log ++ [.signal (.waitMade st.signal.waits.length)] }
  /-- segments.rs:95-97 -/
  | secondSome (st : State T E) (k i : Nat) (fut : Option Nat) (sys : Loading T E) (seg : List T) : st.task = .nextPoll k fut (.second i) →
      st.sys.move b .next = Run.ret sys → sys.log = st.sys.log ++ [.yielded seg] →
      Step b st { st with sys, task := .stream, log := st.log ++ [.sys (.yielded seg), .nextReady k (some seg)] }
  | secondNone (st : State T E) (k i : Nat) (fut : Option Nat) (sys : Loading T E) : st.task = .nextPoll k fut (.second i) →
      st.sys.move b .next = Run.ret sys → sys.log = st.sys.log ++ [.exhausted] →
      Step b st { st with sys, task := .nextPoll k fut (.loadDone i), log := st.log ++ [.sys .exhausted] }
  /-- segments.rs:100-102 -/
  | isDone (st : State T E) (k i : Nat) (fut : Option Nat) : st.task = .nextPoll k fut (.loadDone i) → st.doneFlag = true →
      Step b st { st with task := .stream, log := st.log ++ [.nextReady k none] }
  /-- segments.rs:104-107 -/
  | notDone (st : State T E) (k i : Nat) (fut : Option Nat) : st.task = .nextPoll k fut (.loadDone i) → st.doneFlag = false →
      Step b st { st with task := .next (some i), log := st.log ++ [.wokeSelf k, .pollPending k] }
  /-- `advance(delta)` (sequence.rs:70-72, advance.rs:20-29) -/
  | advance (st : State T E) (delta : Nat) : st.task = .idle →
      Step b st { st with task := .advance none delta, log := st.log ++ [.advanceCall delta] }
  /-- advance.rs:41, as above -/
  | advancePoll (st : State T E) (remain : Nat) : st.task = .advance none remain →
      Step b st { st with
        task := .advancePoll st.polls none remain .makeWait, polls := st.polls + 1, log := st.log ++ [.pollBegin .advance st.polls none] }
  | advancePollWait (st : State T E) (i remain : Nat) (signal : Notify.State) : st.task = .advance (some i) remain →
      i < st.signal.waits.length →
      signal = ({ st.signal with calls := st.signal.calls + 1 }.goto st.signal.calls (.pollLoad i)).emit (.pollBegin st.signal.calls i) →
      Step b st { st with
        signal, task := .advancePoll st.polls (some i) remain (.wait st.signal.calls), polls := st.polls + 1
        log := st.log ++ [.pollBegin .advance st.polls (some st.signal.calls), .signal (.pollBegin st.signal.calls i)] }
  | advanceWaitReady (st : State T E) (k p remain : Nat) (fut : Option Nat) : st.task = .advancePoll k fut remain (.wait p) →
      .pollReady p ∈ st.signal.log → Step b st { st with task := .advancePoll k fut remain .makeWait }
  | advanceWaitPending (st : State T E) (k p remain : Nat) (fut : Option Nat) : st.task = .advancePoll k fut remain (.wait p) →
      .pollPending p ∈ st.signal.log → Step b st { st with task := .advance fut remain, log := st.log ++ [.pollPending k] }
  /-- advance.rs:44-48 -/
  | advanceMakeWait (st : State T E) (k remain : Nat) (fut : Option Nat) (signal : Notify.State) :
      st.task = .advancePoll k fut remain .makeWait →
      signal = { st.signal with waits := st.signal.waits ++ [st.signal.version] }.emit (.waitMade st.signal.waits.length) →
      Step b st { st with
        signal, task := .advancePoll k (some st.signal.waits.length) remain .replace
        log := st.log ++ [.signal (.waitMade st.signal.waits.length)] }
  /-- advance.rs:50: `this.remain` becomes 0 -/
  | replace (st : State T E) (k remain : Nat) (fut : Option Nat) (sys : Loading T E) : st.task = .advancePoll k fut remain .replace →
      st.sys.move b (.advance remain) = Run.ret sys → Step b st { st with sys, task := .advancePoll k fut 0 .advancing }
  /-- advance.rs:51, one `get` inside -/
  | advancing (st : State T E) (k remain : Nat) (fut : Option Nat) (sys : Loading T E) : st.task = .advancePoll k fut remain .advancing →
      st.sys.move b .get = Run.ret sys → sys.log = st.sys.log → Step b st { st with sys }
  | advanced (st : State T E) (k remain n r : Nat) (fut : Option Nat) (sys : Loading T E) :
      st.task = .advancePoll k fut remain .advancing → st.sys.move b .get = Run.ret sys → sys.log = st.sys.log ++ [.advanced n r] →
      Step b st { st with sys, task := .advancePoll k fut remain (.check r), log := st.log ++ [.sys (.advanced n r)] }
  /-- advance.rs:53-60 -/
  | advanceReady (st : State T E) (k remain r : Nat) (fut : Option Nat) : st.task = .advancePoll k fut remain (.check r) →
      r = remain ∨ st.doneFlag = true → Step b st { st with task := .idle, log := st.log ++ [.advanceReady k] }
  /-- advance.rs:62-64 -/
  | advancePending (st : State T E) (k remain r : Nat) (fut : Option Nat) : st.task = .advancePoll k fut remain (.check r) →
      r ≠ remain → st.doneFlag = false →
      Step b st { st with task := .advance fut remain, log := st.log ++ [.wokeSelf k, .pollPending k] }

/-- The states the machine can be in. -/
inductive Reachable (b : Build) : State T E → Prop where
  | init (newCapacity : Nat) : Reachable b (init newCapacity)
  | step {st st' : State T E} : Reachable b st → Step b st st' → Reachable b st'

/-- Any number of steps. -/
inductive Steps (b : Build) : State T E → State T E → Prop where
  | refl (st : State T E) : Steps b st st
  | step {st st' st'' : State T E} : Steps b st st' → Step b st' st'' → Steps b st st''

end Parcom.Runner
