import Verif.Model.Notify
/-!
# Notify with stale reads

`Verif.Model.Notify` interleaves accesses, which is all that can be observed since those to the version are `SeqCst` and the others
under the mutex. Here the accesses to the version are as weak as `Relaxed` ones of the C11 memory model, so that what holds here
asks nothing of the version but that it is one atomic counter:

* increments are read-modify-writes of one location, so each sees all those before it;
* a load returns the version after any number of the increments so far, but never fewer than its thread has come to know of. A
  thread knows of its own increments, and of what the releases of the mutex knew before it took the mutex; `poll` knows of what
  `wait` has read.

What else a thread may come to know of would only forbid more and is left out. Loads do not return what has not been written yet
(in C11's words, the union of program order and reads-from has no cycle).

Versions are numbers of increments; `usize`s are their remainders.
-/
namespace Parcom.Notify

/-- A state of `Verif.Model.Notify`, but with numbers of increments for the version and those of the `Wait`s. -/
structure Weak where
  st : State
  /-- the number of each call's increment -/
  added : Nat → Nat
  /-- how many increments those who released the mutex knew of -/
  seen : Nat

/-- `Notify::new` (notify.rs:18-23). -/
def Weak.init : Weak where
  st := Notify.init
  added _ := 0
  seen := 0

/-- One step of some call. -/
inductive WStep : Weak → Weak → Prop where
  /-- somebody calls `send` -/
  | sendBegin (w : Weak) :
      WStep w { w with st := ({ w.st with calls := w.st.calls + 1 }.goto w.st.calls .sendAdd).emit (.sendBegin w.st.calls) }
  /-- `self.version.fetch_add(1, _)` (notify.rs:26) -/
  | sendAdd (w : Weak) (c : Nat) : w.st.pc c = .sendAdd →
      WStep w { w with
        st := ({ w.st with version := w.st.version + 1 }.goto c .sendLock).emit (.sendAdd c)
        added := fun d => if d = c then w.st.version + 1 else w.added d }
  | sendLock (w : Weak) (c : Nat) : w.st.pc c = .sendLock → w.st.lock = none →
      WStep w { w with st := ({ w.st with lock := some c }.goto c .sendDrain).emit (.sendLocked c) }
  | sendWake (w : Weak) (c key p : Nat) (pre post : List (Nat × Nat)) : w.st.pc c = .sendDrain →
      w.st.slab = pre ++ (key, p) :: post →
      WStep w { w with st := { w.st with slab := pre ++ post }.emit (.woke c p) }
  /-- the mutex passes on that `c` has incremented -/
  | sendEnd (w : Weak) (c : Nat) : w.st.pc c = .sendDrain → w.st.slab = [] →
      WStep w { w with st := ({ w.st with lock := none }.goto c .done).emit (.sendEnd c), seen := max w.seen (w.added c) }
  /-- `Notify::wait` (notify.rs:33-39): the load returns any version so far -/
  | wait (w : Weak) (v : Nat) : v ≤ w.st.version →
      WStep w { w with st := { w.st with waits := w.st.waits ++ [v] }.emit (.waitMade w.st.waits.length) }
  /-- somebody polls the `i`th `Wait` -/
  | pollBegin (w : Weak) (i : Nat) : i < w.st.waits.length →
      WStep w { w with st := ({ w.st with calls := w.st.calls + 1 }.goto w.st.calls (.pollLoad i)).emit (.pollBegin w.st.calls i) }
  /-- `if self.version != self.signal.version.load(_)` (notify.rs:55): the load returns `r` -/
  | pollLoadReady (w : Weak) (p i v r : Nat) : w.st.pc p = .pollLoad i → w.st.waits[i]? = some v → v ≤ r → r ≤ w.st.version →
      v % wrap ≠ r % wrap → WStep w { w with st := (w.st.goto p .done).emit (.pollReady p) }
  | pollLoad (w : Weak) (p i v r : Nat) : w.st.pc p = .pollLoad i → w.st.waits[i]? = some v → v ≤ r → r ≤ w.st.version →
      v % wrap = r % wrap → WStep w { w with st := w.st.goto p (.pollLock i) }
  | pollLock (w : Weak) (p i : Nat) : w.st.pc p = .pollLock i → w.st.lock = none →
      WStep w { w with st := { w.st with lock := some p }.goto p (.pollInsert i) }
  | pollInsert (w : Weak) (p i key : Nat) : w.st.pc p = .pollInsert i → key ∉ w.st.slab.map Prod.fst →
      WStep w { w with st := { w.st with slab := w.st.slab ++ [(key, p)] }.goto p (.pollRecheck i key) }
  /-- `if self.version != signal.version.load(_)` (notify.rs:63): here `p` knows what the mutex passed on -/
  | pollRecheckReady (w : Weak) (p i key v r : Nat) : w.st.pc p = .pollRecheck i key → w.st.waits[i]? = some v → v ≤ r →
      w.seen ≤ r → r ≤ w.st.version → v % wrap ≠ r % wrap → WStep w { w with st := w.st.goto p (.pollRemove key) }
  | pollRecheck (w : Weak) (p i key v r : Nat) : w.st.pc p = .pollRecheck i key → w.st.waits[i]? = some v → v ≤ r →
      w.seen ≤ r → r ≤ w.st.version → v % wrap = r % wrap →
      WStep w { w with st := (w.st.goto p .pollUnlock).emit (.pollChecked p) }
  | pollRemove (w : Weak) (p key : Nat) : w.st.pc p = .pollRemove key →
      WStep w { w with
        st := ({ w.st with slab := w.st.slab.filter fun e => e.1 ≠ key, lock := none }.goto p .done).emit (.pollReady p) }
  | pollUnlock (w : Weak) (p : Nat) : w.st.pc p = .pollUnlock →
      WStep w { w with st := ({ w.st with lock := none }.goto p .done).emit (.pollPending p) }

/-- The states this machine can be in. -/
inductive WReachable : Weak → Prop where
  | init : WReachable Weak.init
  | step {w w' : Weak} : WReachable w → WStep w w' → WReachable w'

end Parcom.Notify
