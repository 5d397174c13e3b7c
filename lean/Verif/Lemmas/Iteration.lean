import Verif.Spec.Iteration
import Verif.Lemmas.Run
import Verif.Model.Iterative
/-!
# Iterations are determined, and there is one unless items go on for ever
-/
namespace Parcom
open Spec

variable {σ S O E A C : Type} {st : IterState σ S O E}

theorem Spec.IterRun.append {x x' x'' : σ} {s t t' : S} {vs vs' : List O} (h : IterRun st x s vs x' t)
    (h' : IterRun st x' t vs' x'' t') : IterRun st x s (vs ++ vs') x'' t' := by
  induction h with
  | nil => exact h'
  | cons hf _ ih => exact .cons hf (ih h')

theorem Spec.Stops.det {x : σ} {s : S} {o o' : Run (PResult S Unit E)} (h : Stops st x s o) (h' : Stops st x s o') :
    o = o' := by
  cases h <;> cases h' <;> simp_all

theorem Spec.Stops.no_item {x x' : σ} {s r : S} {v : O} {o : Run (PResult S Unit E)} (h : Stops st x s o)
    (h' : st.next x s = pure (.ok (some v) r, x')) : False := by
  cases h <;> simp_all

/-- Every run of items is a part of the whole iteration. -/
theorem Spec.IterRun.prefix_of {x x' x'' : σ} {s t t' : S} {vs vs' : List O} {o : Run (PResult S Unit E)}
    (h : IterRun st x s vs x' t) (ho : Stops st x' t o) (h' : IterRun st x s vs' x'' t') :
    ∃ ws, vs = vs' ++ ws ∧ IterRun st x'' t' ws x' t := by
  induction h' generalizing vs with
  | nil x s => exact ⟨vs, rfl, h⟩
  | cons hf _ ih =>
    cases h with
    | nil => exact (ho.no_item hf).elim
    | cons hf' hr =>
      rw [hf] at hf'
      simp at hf'
      obtain ⟨⟨rfl, rfl⟩, rfl⟩ := hf'
      obtain ⟨ws, rfl, hw⟩ := ih hr
      exact ⟨ws, rfl, hw⟩

theorem Spec.Iteration.det {x : σ} {s t t' : S} {vs vs' : List O} {o o' : Run (PResult S Unit E)}
    (h : Iteration st x s vs t o) (h' : Iteration st x s vs' t' o') : vs = vs' ∧ t = t' ∧ o = o' := by
  obtain ⟨x1, h1, h2⟩ := h
  obtain ⟨x2, h3, h4⟩ := h'
  obtain ⟨ws, rfl, hw⟩ := h1.prefix_of h2 h3
  cases hw with
  | nil => exact ⟨by simp, rfl, h2.det h4⟩
  | cons hf _ => exact (h4.no_item hf).elim

/-- Either there is a whole iteration, or items go on for ever. -/
theorem iteration_or_endless (st : IterState σ S O E) (x : σ) (s : S) :
    (∃ vs t o, Iteration st x s vs t o) ∨ Endless st x s := by
  by_cases h : ∃ vs t o, Iteration st x s vs t o
  · exact .inl h
  · right
    intro n
    induction n with
    | zero => exact ⟨[], x, s, .nil x s, rfl⟩
    | succ n ih =>
      obtain ⟨vs, x', t, h1, h2⟩ := ih
      cases hn : st.next x' t using Run.casesRun with
      | ret res =>
        obtain ⟨⟨_ | v, r⟩ | ⟨e, u⟩, x''⟩ := res
        · exact absurd ⟨vs, t, _, x', h1, .ended hn⟩ h
        · exact ⟨vs ++ [v], x'', r, h1.append (.cons hn (.nil _ _)), by simp [h2]⟩
        · exact absurd ⟨vs, t, _, x', h1, .failed hn⟩ h
      | fault f => exact absurd ⟨vs, t, _, x', h1, .faulted hn⟩ h
      | diverge => exact absurd ⟨vs, t, _, x', h1, .hung hn⟩ h

/-- Not both. -/
theorem Spec.Iteration.not_endless {x : σ} {s t : S} {vs : List O} {o : Run (PResult S Unit E)}
    (h : Iteration st x s vs t o) : ¬ Endless st x s := by
  intro he
  obtain ⟨x1, h1, h2⟩ := h
  obtain ⟨vs', x', t', h3, h4⟩ := he (vs.length + 1)
  obtain ⟨ws, rfl, -⟩ := h1.prefix_of h2 h3
  simp at h4
  omega

/-! ## fold -/

theorem foldLoop_run {f : A → O → A} {x x' : σ} {s t : S} {vs : List O} (h : IterRun st x s vs x' t) (a : A) :
    foldLoop st f x a s = foldLoop st f x' (vs.foldl f a) t := by
  induction h generalizing a with
  | nil => rfl
  | cons hf _ ih => rw [foldLoop, hf]; simp [ih]

/-- What `fold` makes of the way the iteration stopped. -/
def foldStop (a : A) : PResult S Unit E → PResult S A E
  | .ok _ r => .ok a r
  | .err e u => .err e u

theorem foldLoop_stop {f : A → O → A} {x : σ} {s : S} {o : Run (PResult S Unit E)} (h : Stops st x s o) (a : A) :
    foldLoop st f x a s = (do return foldStop a (← o)) := by
  rw [foldLoop]
  cases h <;> (rename_i h; rw [h]; rfl)

theorem foldLoop_iteration {f : A → O → A} {x : σ} {s t : S} {vs : List O} {o : Run (PResult S Unit E)}
    (h : Iteration st x s vs t o) (a : A) : foldLoop st f x a s = (do return foldStop (vs.foldl f a) (← o)) := by
  obtain ⟨x', h1, h2⟩ := h
  rw [foldLoop_run h1, foldLoop_stop h2]

/-- Unless `fold` hangs, there is a whole iteration. -/
theorem foldLoop_iterates (f : A → O → A) (x : σ) (a : A) (s : S) :
    foldLoop st f x a s ≠ Run.diverge → ∃ vs t o, Iteration st x s vs t o := by
  revert x a s
  refine foldLoop.fixpoint_induct (st := st) (f := f)
    (motive := fun g => ∀ x a s, g x a s ≠ Run.diverge → ∃ vs t o, Iteration st x s vs t o)
    (Run.admissible_fun₃ (fun x _ s y => y ≠ Run.diverge → ∃ vs t o, Iteration st x s vs t o)
      (fun _ _ _ h => absurd rfl h)) ?_
  intro g ih x a s h
  cases hn : st.next x s using Run.casesRun with
  | ret res =>
    obtain ⟨⟨_ | v, r⟩ | ⟨e, u⟩, x'⟩ := res
    · exact ⟨[], s, _, x, .nil x s, .ended hn⟩
    · simp only [hn, Run.ret_bind] at h
      obtain ⟨vs, t, o, x'', h1, h2⟩ := ih x' (f a v) r h
      exact ⟨v :: vs, t, o, x'', .cons hn h1, h2⟩
    · exact ⟨[], s, _, x, .nil x s, .failed hn⟩
  | fault f => exact ⟨[], s, _, x, .nil x s, .faulted hn⟩
  | diverge => simp [hn] at h

theorem foldLoop_endless {f : A → O → A} {x : σ} {s : S} (h : Endless st x s) (a : A) :
    foldLoop st f x a s = Run.diverge := by
  by_cases hd : foldLoop st f x a s = Run.diverge
  · exact hd
  · obtain ⟨vs, t, o, hi⟩ := foldLoop_iterates f x a s hd
    exact absurd h hi.not_endless

/-! ## collect -/

section
variable [RewindSequence S]

theorem collectLoop_run {extend : C → O → C} {x x' : σ} {s t : S} {vs : List O} (h : IterRun st x s vs x' t) (c : C) :
    collectLoop st extend x c s = collectLoop st extend x' (vs.foldl extend c) t := by
  induction h generalizing c with
  | nil => rfl
  | cons hf _ ih => rw [collectLoop, hf]; simp [ih]

/-- What `collect` makes of the way the iteration stopped. -/
def collectStop (c : C) (t : S) : PResult S Unit E → PResult S (C × Option E) E
  | .ok _ _ => .ok (c, none) t
  | .err e _ => .ok (c, some e) t

theorem collectLoop_stop [L : RewindLaw S] (hd : DescendsIter st) {extend : C → O → C} {x : σ} {s : S}
    {o : Run (PResult S Unit E)} (h : Stops st x s o) (c : C) :
    collectLoop st extend x c s = (do return collectStop c s (← o)) := by
  rw [collectLoop]
  cases h with
  | ended h =>
    rw [h]
    have hw := L.rewind (hd _ _ _ h)
    simp only [loc] at hw
    simp [hw, collectStop, done]
  | failed h =>
    rw [h]
    have hw := L.rewind (hd _ _ _ h)
    simp only [loc] at hw
    simp [UnknownLocation.rewind, hw, collectStop, done]
  | faulted h => rw [h]; rfl
  | hung h => rw [h]; rfl

theorem collectLoop_iteration [L : RewindLaw S] (hd : DescendsIter st) {extend : C → O → C} {x : σ} {s t : S}
    {vs : List O} {o : Run (PResult S Unit E)} (h : Iteration st x s vs t o) (c : C) :
    collectLoop st extend x c s = (do return collectStop (vs.foldl extend c) t (← o)) := by
  obtain ⟨x', h1, h2⟩ := h
  rw [collectLoop_run h1, collectLoop_stop hd h2]

theorem collectLoop_iterates (extend : C → O → C) (x : σ) (c : C) (s : S) :
    collectLoop st extend x c s ≠ Run.diverge → ∃ vs t o, Iteration st x s vs t o := by
  revert x c s
  refine collectLoop.fixpoint_induct (st := st) (extend := extend)
    (motive := fun g => ∀ x a s, g x a s ≠ Run.diverge → ∃ vs t o, Iteration st x s vs t o)
    (Run.admissible_fun₃ (fun x _ s y => y ≠ Run.diverge → ∃ vs t o, Iteration st x s vs t o)
      (fun _ _ _ h => absurd rfl h)) ?_
  intro g ih x a s h
  cases hn : st.next x s using Run.casesRun with
  | ret res =>
    obtain ⟨⟨_ | v, r⟩ | ⟨e, u⟩, x'⟩ := res
    · exact ⟨[], s, _, x, .nil x s, .ended hn⟩
    · simp only [hn, Run.ret_bind] at h
      obtain ⟨vs, t, o, x'', h1, h2⟩ := ih x' (extend a v) r h
      exact ⟨v :: vs, t, o, x'', .cons hn h1, h2⟩
    · exact ⟨[], s, _, x, .nil x s, .failed hn⟩
  | fault f => exact ⟨[], s, _, x, .nil x s, .faulted hn⟩
  | diverge => simp [hn] at h

theorem collectLoop_endless {extend : C → O → C} {x : σ} {s : S} (h : Endless st x s) (c : C) :
    collectLoop st extend x c s = Run.diverge := by
  by_cases hd : collectLoop st extend x c s = Run.diverge
  · exact hd
  · obtain ⟨vs, t, o, hi⟩ := collectLoop_iterates extend x c s hd
    exact absurd h hi.not_endless

theorem foldl_push (vs acc : List O) : vs.foldl (fun c v => c ++ [v]) acc = acc ++ vs := by
  induction vs generalizing acc with
  | nil => simp
  | cons v vs ih => simp [ih]

end
end Parcom
