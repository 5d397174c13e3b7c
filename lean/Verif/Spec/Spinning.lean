import Verif.Spec.Running
/-!
# How often a user who waits is woken and polled
-/
namespace Parcom.Runner
variable {T E : Type}

/-- How often `next()` or `advance` was called. -/
def callsOf (log : List (Event T E)) : Nat := log.countP fun
  | .nextCall => true
  | .advanceCall _ => true
  | _ => false

/-- How often a poll woke its own task. -/
def selfWakesOf (log : List (Event T E)) : Nat := log.countP fun
  | .wokeSelf _ => true
  | _ => false

/-- How many polls have begun. -/
def pollsOf (log : List (Event T E)) : Nat := log.countP fun
  | .pollBegin .. => true
  | _ => false

/-- How many calls of `send` on `append_signal` have begun. -/
def sendsOf (log : List (Event T E)) : Nat := log.countP fun
  | .signal (.sendBegin _) => true
  | _ => false

/-- Whoever polls the futures does so again only after the waker given to the poll before was woken. The first poll of a
future is the one that finds no `Wait` in it. -/
def Polite (log : List (Event T E)) : Prop := ∀ l₁ f k p l₂, log = l₁ ++ .pollBegin f k (some p) :: l₂ → Woken l₁ (k - 1)

end Parcom.Runner
