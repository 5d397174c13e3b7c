import Verif.Model.Prelude
/-!
# Notify

`crates/parcom-internals/src/future/notify.rs` as a machine that interleaves any number of calls of `send`, `wait` and
`poll`, one access to shared memory at a time. All accesses are `SeqCst` or under the mutex, so interleavings are all
that can be observed.

The machine keeps a log of what happened. Calls are numbered as they begin; the waker given to a `poll` is named by the
number of that call. The machine lets any calls overlap, also those a single thread would make one after the other.

A `Waker` whose `clone` or `wake` panics (poisoning the mutex) or calls back into the same `Notify` is left to
`Verif.Model.NotifyHostile`.
-/
namespace Parcom.Notify

/-- `usize::MAX + 1` on a 64-bit target. -/
def wrap : Nat := 2 ^ 64

/-- What can be seen from outside, in order. -/
inductive Event where
  /-- call `c` of `send` begins -/
  | sendBegin (c : Nat)
  /-- call `c` of `send` has incremented the version -/
  | sendAdd (c : Nat)
  /-- call `c` of `send` has taken the mutex -/
  | sendLocked (c : Nat)
  /-- call `c` of `send` wakes the waker given to call `p` of `poll` -/
  | woke (c p : Nat)
  /-- call `c` of `send` returns -/
  | sendEnd (c : Nat)
  /-- `wait` returns the `i`th `Wait` -/
  | waitMade (i : Nat)
  /-- call `p` of `poll`, on the `i`th `Wait`, begins -/
  | pollBegin (p i : Nat)
  /-- call `p` of `poll` has seen, with its waker registered, that the version is unchanged -/
  | pollChecked (p : Nat)
  /-- call `p` of `poll` returns `Ready` -/
  | pollReady (p : Nat)
  /-- call `p` of `poll` returns `Pending` -/
  | pollPending (p : Nat)
deriving DecidableEq

/-- What a call does next. -/
inductive Pc where
  /-- not begun -/
  | absent
  /-- `self.version.fetch_add(1, SeqCst)` (notify.rs:26) -/
  | sendAdd
  /-- `self.wakers.lock()` (notify.rs:27) -/
  | sendLock
  /-- `for waker in wakers.drain() { waker.wake() }` (notify.rs:28-30) -/
  | sendDrain
  /-- `if self.version != self.signal.version.load(SeqCst)` (notify.rs:55) -/
  | pollLoad (i : Nat)
  /-- `signal.wakers.lock()` (notify.rs:60) -/
  | pollLock (i : Nat)
  /-- `wakers.insert(cx.waker().clone())` (notify.rs:61) -/
  | pollInsert (i : Nat)
  /-- `if self.version != signal.version.load(SeqCst)` (notify.rs:63) -/
  | pollRecheck (i key : Nat)
  /-- `wakers.remove(key)` (notify.rs:64), then unlock and return `Ready` -/
  | pollRemove (key : Nat)
  /-- `drop(wakers)` (notify.rs:67), then return `Pending` -/
  | pollUnlock
  /-- returned -/
  | done

/-- `struct Notify` (notify.rs:11-15), the `Wait`s (notify.rs:42-46) made so far and the calls under way. -/
structure State where
  /-- `version: AtomicUsize` -/
  version : Nat
  /-- which call holds the mutex -/
  lock : Option Nat
  /-- `Slab<Waker>`: keys and wakers. Keys in use are distinct. -/
  slab : List (Nat × Nat)
  /-- the `version` of each `Wait` -/
  waits : List Nat
  /-- what each call does next -/
  pc : Nat → Pc
  /-- the number of calls begun -/
  calls : Nat
  log : List Event

/-- `Notify::new` (notify.rs:18-23). -/
def init : State where
  version := 0
  lock := none
  slab := []
  waits := []
  pc _ := .absent
  calls := 0
  log := []

/-- Call `c` goes on at `p`. -/
def State.goto (st : State) (c : Nat) (p : Pc) : State := { st with pc := fun d => if d = c then p else st.pc d }
/-- Something happens. -/
def State.emit (st : State) (e : Event) : State := { st with log := st.log ++ [e] }

/-- One step of some call. -/
inductive Step : State → State → Prop where
  /-- somebody calls `send` -/
  | sendBegin (st : State) : Step st (({ st with calls := st.calls + 1 }.goto st.calls .sendAdd).emit (.sendBegin st.calls))
  | sendAdd (st : State) (c : Nat) : st.pc c = .sendAdd →
      Step st (({ st with version := (st.version + 1) % wrap }.goto c .sendLock).emit (.sendAdd c))
  | sendLock (st : State) (c : Nat) : st.pc c = .sendLock → st.lock = none →
      Step st (({ st with lock := some c }.goto c .sendDrain).emit (.sendLocked c))
  | sendWake (st : State) (c key p : Nat) (pre post : List (Nat × Nat)) : st.pc c = .sendDrain →
      st.slab = pre ++ (key, p) :: post →
      Step st ({ st with slab := pre ++ post }.emit (.woke c p))
  | sendEnd (st : State) (c : Nat) : st.pc c = .sendDrain → st.slab = [] →
      Step st (({ st with lock := none }.goto c .done).emit (.sendEnd c))
  /-- `Notify::wait` (notify.rs:33-39) -/
  | wait (st : State) : Step st ({ st with waits := st.waits ++ [st.version] }.emit (.waitMade st.waits.length))
  /-- somebody polls the `i`th `Wait` -/
  | pollBegin (st : State) (i : Nat) : i < st.waits.length →
      Step st (({ st with calls := st.calls + 1 }.goto st.calls (.pollLoad i)).emit (.pollBegin st.calls i))
  | pollLoadReady (st : State) (p i : Nat) : st.pc p = .pollLoad i → st.waits[i]? ≠ some st.version →
      Step st ((st.goto p .done).emit (.pollReady p))
  | pollLoad (st : State) (p i : Nat) : st.pc p = .pollLoad i → st.waits[i]? = some st.version →
      Step st (st.goto p (.pollLock i))
  | pollLock (st : State) (p i : Nat) : st.pc p = .pollLock i → st.lock = none →
      Step st ({ st with lock := some p }.goto p (.pollInsert i))
  | pollInsert (st : State) (p i key : Nat) : st.pc p = .pollInsert i → key ∉ st.slab.map Prod.fst →
      Step st ({ st with slab := st.slab ++ [(key, p)] }.goto p (.pollRecheck i key))
  | pollRecheckReady (st : State) (p i key : Nat) : st.pc p = .pollRecheck i key → st.waits[i]? ≠ some st.version →
      Step st (st.goto p (.pollRemove key))
  | pollRecheck (st : State) (p i key : Nat) : st.pc p = .pollRecheck i key → st.waits[i]? = some st.version →
      Step st ((st.goto p .pollUnlock).emit (.pollChecked p))
  | pollRemove (st : State) (p key : Nat) : st.pc p = .pollRemove key →
      Step st (({ st with slab := st.slab.filter fun e => e.1 ≠ key, lock := none }.goto p .done).emit (.pollReady p))
  | pollUnlock (st : State) (p : Nat) : st.pc p = .pollUnlock →
      Step st (({ st with lock := none }.goto p .done).emit (.pollPending p))

/-- The states the machine can be in. -/
inductive Reachable : State → Prop where
  | init : Reachable init
  | step {st st' : State} : Reachable st → Step st st' → Reachable st'

/-- The number of increments of the version. -/
def adds (log : List Event) : Nat := log.countP fun
  | .sendAdd _ => true
  | _ => false

end Parcom.Notify
