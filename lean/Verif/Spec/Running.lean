import Verif.Model.Runner
import Verif.Spec.Loading
/-!
# What the default runner's sequence should do, in terms of what can be observed
-/
namespace Parcom.Runner
open Parcom Spec
variable {T E : Type}

/-- What happened to the sequence. -/
def sysLog (log : List (Event T E)) : List (Obs T E) := log.filterMap fun
  | .sys o => some o
  | _ => none

/-- What happened to `append_signal`. -/
def signalLog (log : List (Event T E)) : List Notify.Event := log.filterMap fun
  | .signal e => some e
  | _ => none

/-- The items of the segments `next()` resolved to since `segments()` was last called. -/
def deliveredOf (log : List (Event T E)) : List T :=
  log.foldl (fun ys e => match e with
    | .sys .iterates => []
    | .nextReady _ (some seg) => ys ++ seg
    | _ => ys) []

/-- The segments `next()` resolved to since `segments()` was last called. -/
def receivedOf (log : List (Event T E)) : List (List T) :=
  log.foldl (fun segs e => match e with
    | .sys .iterates => []
    | .nextReady _ (some seg) => segs ++ [seg]
    | _ => segs) []

/-- The visible items behind the position of the sequence. -/
def availableOf (log : List (Event T E)) : List T := (committedOf (sysLog log)).drop (consumedOf (sysLog log))

/-- Something the user does, rather than anybody else. What happens inside `append_signal` does not count. -/
def Event.own : Event T E → Bool
  | .sys (.loaded ..) => false
  | .sys (.committed _) => false
  | .signal _ => false
  | .done => false
  | _ => true

/-- The waker given to the `k`th poll was woken. -/
def Woken (log : List (Event T E)) (k : Nat) : Prop :=
  .wokeSelf k ∈ log ∨ ∃ f p c, .pollBegin f k (some p) ∈ log ∧ .signal (.woke c p) ∈ log

/-- There are visible items that have not been delivered. -/
def Behind (log : List (Event T E)) : Prop := (deliveredOf log).length < (availableOf log).length

/-- The other side has something to tell. -/
def Event.news : Event T E → Bool
  | .sys (.committed _) => true
  | .done => true
  | _ => false

/-- All news has been followed by a call of `send`, which has returned. -/
def Signalled (log : List (Event T E)) : Prop := ∀ l₁ e l₂, log = l₁ ++ e :: l₂ → e.news = true →
  ∃ s, .signal (.sendBegin s) ∈ l₂ ∧ .signal (.sendEnd s) ∈ l₂

end Parcom.Runner
