import Verif.Spec.Parsing
/-!
# Iterations seen from outside
-/
namespace Parcom.Spec
open Parcom

variable {σ S O E : Type}

/-- From state `x` at `s`, successive calls of `parse_next` yield these items, reaching state `x'` at `t`. -/
inductive IterRun (st : IterState σ S O E) : σ → S → List O → σ → S → Prop where
  | nil (x : σ) (s : S) : IterRun st x s [] x s
  | cons {x x₁ x' : σ} {s r t : S} {v : O} {vs : List O} : st.next x s = pure (.ok (some v) r, x₁) →
      IterRun st x₁ r vs x' t → IterRun st x s (v :: vs) x' t

/-- The next call of `parse_next` yields no item: the iteration ends there, fails, panics or hangs. -/
inductive Stops (st : IterState σ S O E) (x : σ) (s : S) : Run (PResult S Unit E) → Prop where
  | ended {r : S} {x' : σ} : st.next x s = pure (.ok none r, x') → Stops st x s (pure (.ok () r))
  | failed {e : E} {u : UnknownLocation S} {x' : σ} : st.next x s = pure (.err e u, x') → Stops st x s (pure (.err e u))
  | faulted {f : Fault} : st.next x s = Run.fault f → Stops st x s (Run.fault f)
  | hung : st.next x s = Run.diverge → Stops st x s Run.diverge

/-- A whole iteration: the items, the place right after the last item, and how the following step stopped it. -/
def Iteration (st : IterState σ S O E) (x : σ) (s : S) (vs : List O) (t : S) (stop : Run (PResult S Unit E)) : Prop :=
  ∃ x', IterRun st x s vs x' t ∧ Stops st x' t stop

/-- Items without end. -/
def Endless (st : IterState σ S O E) (x : σ) (s : S) : Prop :=
  ∀ n, ∃ vs x' t, IterRun st x s vs x' t ∧ vs.length = n

/-- The locations that steps return are reached from their input by reading and advancing. -/
def DescendsIter [RewindSequence S] [L : RewindLaw S] (st : IterState σ S O E) : Prop :=
  ∀ x s res, st.next x s = pure res → L.Desc s (loc res.1)

/-- The outputs of threading a state through a list. -/
def scanned {St T : Type} (f : St → O → T × St) : St → List O → List T
  | _, [] => []
  | a, v :: vs => (f a v).1 :: scanned f (f a v).2 vs

end Parcom.Spec
