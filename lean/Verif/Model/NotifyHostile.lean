import Verif.Model.Notify
/-!
# Notify with hostile wakers

`crates/parcom-internals/src/future/notify.rs` runs code of others while it holds its mutex: `send` calls `wake`, `poll`
calls `clone`, and drops the clone again if the version has changed meanwhile. Here all three may call back into the same
`Notify`, any number of times one after another, and may panic, before or after calling back. The machine is that of
`Verif.Model.Notify` with these steps added.

* A panic while the mutex is held poisons it (std): each later `lock().unwrap()` panics. A `send` that panics drops what
  it has not drained yet (slab's `Drain` forgets the rest of the list when it is dropped).
* A call made by a waker runs inside the `send` or `poll` that called the waker, which goes on only when that call has
  returned. The mutex is not reentrant: where std leaves open whether `lock` blocks or panics, it blocks here.

* `Slab::remove` takes the waker out before it is dropped. Here it is taken out when its destructor is over, which makes no
  difference: the mutex is held until then, and nobody looks at the slab without it.

Not modelled: that the wakers a panicking `send` drops panic or call back too, and those in a `Notify` that is dropped.
-/
namespace Parcom.Notify

/-- What can be seen, in order. -/
inductive HEvent where
  | calm (e : Event)
  /-- call `c` of `send` panics -/
  | sendPanic (c : Nat)
  /-- call `p` of `poll` panics -/
  | pollPanic (p : Nat)
  /-- the waker that call `c` of `send` is waking, or call `c` of `poll` is cloning or dropping, begins call `d` -/
  | callsBack (c d : Nat)
  /-- call `d` is over, and the waker goes back to call `c` -/
  | wakerEnds (c d : Nat)
deriving DecidableEq

/-- `struct Notify` among hostile wakers. -/
structure Hostile where
  base : State
  /-- the mutex is poisoned -/
  poisoned : Bool
  /-- the last call made by the waker a `send` is waking or a `poll` is cloning or dropping -/
  inside : Nat → Option Nat
  log : List HEvent

/-- `Notify::new` (notify.rs:18-23). -/
def Hostile.init : Hostile where
  base := Notify.init
  poisoned := false
  inside _ := none
  log := []

/-- What a waker calls. -/
inductive Back where
  | send
  | poll (i : Nat)

/-- Where such a call begins. -/
def Back.pc : Back → Pc
  | .send => .sendAdd
  | .poll i => .pollLoad i

/-- How such a call begins. -/
def Back.event (c : Nat) : Back → Event
  | .send => .sendBegin c
  | .poll i => .pollBegin c i

/-- The `Wait` to be polled exists. -/
def Back.valid (st : State) : Back → Prop
  | .send => True
  | .poll i => i < st.waits.length

/-- One step. -/
inductive HStep : Hostile → Hostile → Prop where
  /-- a step of `Verif.Model.Notify`, not of a call whose waker is busy, and without taking a poisoned mutex -/
  | calm (st : Hostile) (base : State) (new : List Event) : Step st.base base → base.log = st.base.log ++ new →
      (st.poisoned = true → base.lock = none) →
      (∀ c, st.inside c ≠ none → base.pc c = st.base.pc c ∧ ∀ p, .woke c p ∉ new) →
      HStep st { st with base, log := st.log ++ new.map .calm }
  /-- `waker.wake()` panics (notify.rs:29) -/
  | wakePanics (st : Hostile) (c key p : Nat) (pre post : List (Nat × Nat)) : st.base.pc c = .sendDrain → st.inside c = none →
      st.base.slab = pre ++ (key, p) :: post →
      HStep st { st with
        base := ({ st.base with slab := [], lock := none }.goto c .done).emit (.woke c p)
        poisoned := true, log := st.log ++ [.calm (.woke c p), .sendPanic c] }
  /-- `cx.waker().clone()` panics (notify.rs:61) -/
  | clonePanics (st : Hostile) (p i : Nat) : st.base.pc p = .pollInsert i → st.inside p = none →
      HStep st { st with
        base := { st.base with lock := none }.goto p .done, poisoned := true, log := st.log ++ [.pollPanic p] }
  /-- the destructor of the waker taken out by `wakers.remove(key)` panics (notify.rs:64) -/
  | dropPanics (st : Hostile) (p key : Nat) : st.base.pc p = .pollRemove key → st.inside p = none →
      HStep st { st with
        base := { st.base with slab := st.base.slab.filter fun e => e.1 ≠ key, lock := none }.goto p .done
        poisoned := true, log := st.log ++ [.pollPanic p] }
  /-- `self.wakers.lock().unwrap()` of a poisoned mutex (notify.rs:27) -/
  | sendPoisoned (st : Hostile) (c : Nat) : st.base.pc c = .sendLock → st.base.lock = none → st.poisoned = true →
      HStep st { st with base := st.base.goto c .done, log := st.log ++ [.sendPanic c] }
  /-- `signal.wakers.lock().unwrap()` of a poisoned mutex (notify.rs:60) -/
  | pollPoisoned (st : Hostile) (p i : Nat) : st.base.pc p = .pollLock i → st.base.lock = none → st.poisoned = true →
      HStep st { st with base := st.base.goto p .done, log := st.log ++ [.pollPanic p] }
  /-- `waker.wake()` calls back (notify.rs:29) -/
  | wakeCalls (st : Hostile) (c key p : Nat) (pre post : List (Nat × Nat)) (back : Back) : st.base.pc c = .sendDrain →
      st.inside c = none → st.base.slab = pre ++ (key, p) :: post → back.valid st.base →
      HStep st { st with
        base := ({ st.base with slab := pre ++ post, calls := st.base.calls + 1 }.goto st.base.calls back.pc |>.emit
          (.woke c p)).emit (back.event st.base.calls)
        inside := fun q => if q = c then some st.base.calls else st.inside q
        log := st.log ++ [.calm (.woke c p), .callsBack c st.base.calls, .calm (back.event st.base.calls)] }
  /-- `cx.waker().clone()` calls back (notify.rs:61) -/
  | cloneCalls (st : Hostile) (p i : Nat) (back : Back) : st.base.pc p = .pollInsert i → st.inside p = none →
      back.valid st.base →
      HStep st { st with
        base := ({ st.base with calls := st.base.calls + 1 }.goto st.base.calls back.pc).emit (back.event st.base.calls)
        inside := fun q => if q = p then some st.base.calls else st.inside q
        log := st.log ++ [.callsBack p st.base.calls, .calm (back.event st.base.calls)] }
  /-- the destructor of the waker taken out by `wakers.remove(key)` calls back (notify.rs:64) -/
  | dropCalls (st : Hostile) (p key : Nat) (back : Back) : st.base.pc p = .pollRemove key → st.inside p = none →
      back.valid st.base →
      HStep st { st with
        base := ({ st.base with calls := st.base.calls + 1 }.goto st.base.calls back.pc).emit (back.event st.base.calls)
        inside := fun q => if q = p then some st.base.calls else st.inside q
        log := st.log ++ [.callsBack p st.base.calls, .calm (back.event st.base.calls)] }
  /-- the call has returned, and the waker calls back once more -/
  | callsAgain (st : Hostile) (c d : Nat) (back : Back) : st.inside c = some d → st.base.pc d = .done → back.valid st.base →
      HStep st { st with
        base := ({ st.base with calls := st.base.calls + 1 }.goto st.base.calls back.pc).emit (back.event st.base.calls)
        inside := fun q => if q = c then some st.base.calls else st.inside q
        log := st.log ++ [.callsBack c st.base.calls, .calm (back.event st.base.calls)] }
  /-- the call has returned, and `waker.wake()` panics (notify.rs:29) -/
  | wakePanicsLate (st : Hostile) (c d : Nat) : st.inside c = some d → st.base.pc d = .done → st.base.pc c = .sendDrain →
      HStep st { st with
        base := { st.base with slab := [], lock := none }.goto c .done, poisoned := true
        inside := fun q => if q = c then none else st.inside q, log := st.log ++ [.sendPanic c] }
  /-- the call has returned, and `cx.waker().clone()` panics (notify.rs:61) -/
  | clonePanicsLate (st : Hostile) (p d i : Nat) : st.inside p = some d → st.base.pc d = .done → st.base.pc p = .pollInsert i →
      HStep st { st with
        base := { st.base with lock := none }.goto p .done, poisoned := true
        inside := fun q => if q = p then none else st.inside q, log := st.log ++ [.pollPanic p] }
  /-- the call has returned, and the destructor of the waker panics (notify.rs:64) -/
  | dropPanicsLate (st : Hostile) (p d key : Nat) : st.inside p = some d → st.base.pc d = .done → st.base.pc p = .pollRemove key →
      HStep st { st with
        base := { st.base with slab := st.base.slab.filter fun e => e.1 ≠ key, lock := none }.goto p .done, poisoned := true
        inside := fun q => if q = p then none else st.inside q, log := st.log ++ [.pollPanic p] }
  /-- the call has returned, and `waker.wake()`, `cx.waker().clone()` or the destructor returns -/
  | wakeEnds (st : Hostile) (c d : Nat) : st.inside c = some d → st.base.pc d = .done →
      HStep st { st with inside := fun q => if q = c then none else st.inside q, log := st.log ++ [.wakerEnds c d] }

/-- The states the machine can be in. -/
inductive HReachable : Hostile → Prop where
  | init : HReachable .init
  | step {st st' : Hostile} : HReachable st → HStep st st' → HReachable st'

/-- Any number of steps. -/
inductive HSteps : Hostile → Hostile → Prop where
  | refl (st : Hostile) : HSteps st st
  | step {st st' st'' : Hostile} : HSteps st st' → HStep st' st'' → HSteps st st''

end Parcom.Notify
