import Verif.Model.RunnerWeak
/-!
# What the default runner's sequence should do with stale reads, in terms of what can be observed
-/
namespace Parcom.RunnerWeak
variable {T : Type}

/-- What happened to `append_signal`. -/
def signalLog (log : List (Event T)) : List Notify.Event := log.filterMap fun
  | .signal e => some e
  | _ => none

/-- The segments that were committed. -/
def committedOf (log : List (Event T)) : List (List T) := log.filterMap fun
  | .committed seg => some seg
  | _ => none

/-- How many items have been skipped. -/
def consumedOf (log : List (Event T)) : Nat :=
  log.foldl (fun n e => match e with
    | .advanced d r => n + (d - r)
    | _ => n) 0

/-- The items of the segments `next()` resolved to since `segments()` was last called. -/
def deliveredOf (log : List (Event T)) : List T :=
  log.foldl (fun ys e => match e with
    | .iterates => []
    | .nextReady _ (some seg) => ys ++ seg
    | _ => ys) []

/-- The items that whoever knows of `v` knows of. -/
def told (log : List (Event T)) (v : View) : List T := ((committedOf log).take v.nodes).flatten

/-- Something the user does, rather than anybody else. What happens inside `append_signal` does not count. -/
def Event.own : Event T → Bool
  | .committed _ => false
  | .done => false
  | .signal _ => false
  | .released _ _ => false
  | _ => true

/-- The waker given to the `k`th poll was woken. -/
def Woken (log : List (Event T)) (k : Nat) : Prop :=
  .wokeSelf k ∈ log ∨ ∃ f p v c, .pollBegin f k (some p) v ∈ log ∧ .signal (.woke c p) ∈ log

end Parcom.RunnerWeak
