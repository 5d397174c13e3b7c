import Verif.Props.Iterative
import Verif.Props.Laws
/-!
# C99: laws of the iterative adaptors

Two iterations that yield the same items cannot be told apart by `fold` or `collect`, although their states may have different
types.
-/
namespace Parcom
open Spec

variable {σ τ σ₁ τ₁ S O O' E E₁ A B C D T U St : Type}

/-- The ways a run can come out; the faults and the divergence are left to `rfl`. -/
local macro "on_run " e:term : tactic =>
  `(tactic| (generalize $e = run; cases run using Run.casesRun <;> (try rfl)))

/-! ## Iterations side by side -/

/-- Two calls of `parse_next` came out alike: both with an item and in related states, both at the end, both with the same
error, or both not at all. -/
inductive Alike (R : σ → O → τ → O' → Prop) : Run (PResult S (Option O) E × σ) → Run (PResult S (Option O') E × τ) → Prop where
  | item {x y v w r} : R x v y w → Alike R (Run.ret (.ok (some v) r, x)) (Run.ret (.ok (some w) r, y))
  | stop {x y r} : Alike R (Run.ret (.ok none r, x)) (Run.ret (.ok none r, y))
  | err {x y e u} : Alike R (Run.ret (.err e u, x)) (Run.ret (.err e u, y))
  | fault {f} : Alike R (Run.fault f) (Run.fault f)
  | diverge : Alike R Run.diverge Run.diverge

/-- What `map` does to a result. -/
def onOk (f : A → B) (x : Run (PResult S A E)) : Run (PResult S B E) := x >>= fun
  | .ok v r => pure (.ok (f v) r)
  | .err e r => pure (.err e r)

theorem onOk_id (x : Run (PResult S A E)) : onOk (fun a => a) x = x := by
  cases x using Run.casesRun with
  | ret a => cases a <;> rfl
  | fault => rfl
  | diverge => rfl

section
variable {st : IterState σ S O E} {st' : IterState τ S O' E} {g : A → O → A} {g' : B → O' → B} {ψ : A → B}
  {R : σ → A → τ → B → Prop}

private theorem foldLoop_sim
    (step : ∀ x a y b s, R x a y b → Alike (fun x' v y' w => R x' (g a v) y' (g' b w)) (st.next x s) (st'.next y s))
    (last : ∀ x a y b, R x a y b → b = ψ a) {x a y b} (s : S) (h : R x a y b) (hd : foldLoop st g x a s ≠ Run.diverge) :
    foldLoop st' g' y b s = onOk ψ (foldLoop st g x a s) := by
  revert y b h hd
  refine foldLoop.fixpoint_induct (st := st) (f := g)
    (motive := fun k => ∀ x a s, ∀ {y b}, R x a y b → k x a s ≠ Run.diverge → foldLoop st' g' y b s = onOk ψ (k x a s))
    (Run.admissible_fun₃ (fun x a s z => ∀ {y b}, R x a y b → z ≠ Run.diverge → foldLoop st' g' y b s = onOk ψ z)
      fun _ _ _ _ _ _ h => absurd rfl h) ?_ x a s
  intro k ih x a s y b h hd
  dsimp only at hd ⊢
  have hs := step x a y b s h
  rw [foldLoop]
  generalize st.next x s = m at hs hd ⊢
  generalize st'.next y s = m' at hs ⊢
  cases hs with
  | item hr => exact ih _ _ _ hr hd
  | stop => rw [last _ _ _ _ h]; rfl
  | err => rfl
  | fault => rfl
  | diverge => exact absurd rfl hd

private theorem foldLoop_ends
    (step : ∀ x a y b s, R x a y b → Alike (fun x' v y' w => R x' (g a v) y' (g' b w)) (st.next x s) (st'.next y s))
    {x a y b} (s : S) (h : R x a y b) (hd : foldLoop st' g' y b s ≠ Run.diverge) : foldLoop st g x a s ≠ Run.diverge := by
  revert x a h hd
  refine foldLoop.fixpoint_induct (st := st') (f := g')
    (motive := fun k => ∀ y b s, ∀ {x a}, R x a y b → k y b s ≠ Run.diverge → foldLoop st g x a s ≠ Run.diverge)
    (Run.admissible_fun₃ (fun y b s z => ∀ {x a}, R x a y b → z ≠ Run.diverge → foldLoop st g x a s ≠ Run.diverge)
      fun _ _ _ _ _ _ h => absurd rfl h) ?_ y b s
  intro k ih y b s x a h hd
  dsimp only at hd
  have hs := step x a y b s h
  rw [foldLoop]
  generalize st.next x s = m at hs ⊢
  generalize st'.next y s = m' at hs hd
  cases hs with
  | item hr => exact ih _ _ _ hr hd
  | stop => intro hc; cases hc
  | err => intro hc; cases hc
  | fault => intro hc; cases hc
  | diverge => exact absurd rfl hd

/-- `fold` does not see the difference. -/
theorem foldLoop_alike
    (step : ∀ x a y b s, R x a y b → Alike (fun x' v y' w => R x' (g a v) y' (g' b w)) (st.next x s) (st'.next y s))
    (last : ∀ x a y b, R x a y b → b = ψ a) {x a y b} (s : S) (h : R x a y b) :
    foldLoop st' g' y b s = onOk ψ (foldLoop st g x a s) := by
  by_cases hd : foldLoop st g x a s = Run.diverge
  · rw [hd]
    by_cases hc : foldLoop st' g' y b s = Run.diverge
    · exact hc
    · exact absurd hd (foldLoop_ends step s h hc)
  · exact foldLoop_sim step last s h hd

private def onFst (ψ : A → B) : A × Option E → B × Option E
  | (c, e) => (ψ c, e)

variable [RewindSequence S]

private theorem collectLoop_sim
    (step : ∀ x a y b s, R x a y b → Alike (fun x' v y' w => R x' (g a v) y' (g' b w)) (st.next x s) (st'.next y s))
    (last : ∀ x a y b, R x a y b → b = ψ a) {x a y b} (s : S) (h : R x a y b) (hd : collectLoop st g x a s ≠ Run.diverge) :
    collectLoop st' g' y b s = onOk (onFst ψ) (collectLoop st g x a s) := by
  revert y b h hd
  refine collectLoop.fixpoint_induct (st := st) (extend := g)
    (motive := fun k => ∀ x a s, ∀ {y b}, R x a y b → k x a s ≠ Run.diverge → collectLoop st' g' y b s = onOk (onFst ψ) (k x a s))
    (Run.admissible_fun₃ (fun x a s z => ∀ {y b}, R x a y b → z ≠ Run.diverge → collectLoop st' g' y b s = onOk (onFst ψ) z)
      fun _ _ _ _ _ _ h => absurd rfl h) ?_ x a s
  intro k ih x a s y b h hd
  dsimp only at hd ⊢
  have hs := step x a y b s h
  rw [collectLoop]
  generalize st.next x s = m at hs hd ⊢
  generalize st'.next y s = m' at hs ⊢
  cases hs with
  | item hr => exact ih _ _ _ hr hd
  | stop => rw [last _ _ _ _ h]; simp only [Run.ret_bind]; on_run RewindSequence.rewind _ (anchor s)
  | @err _ _ _ u => rw [last _ _ _ _ h]; simp only [Run.ret_bind]; on_run u.rewind (anchor s)
  | fault => rfl
  | diverge => exact absurd rfl hd

private theorem collectLoop_ends
    (step : ∀ x a y b s, R x a y b → Alike (fun x' v y' w => R x' (g a v) y' (g' b w)) (st.next x s) (st'.next y s))
    {x a y b} (s : S) (h : R x a y b) (hd : collectLoop st' g' y b s ≠ Run.diverge) : collectLoop st g x a s ≠ Run.diverge := by
  revert x a h hd
  refine collectLoop.fixpoint_induct (st := st') (extend := g')
    (motive := fun k => ∀ y b s, ∀ {x a}, R x a y b → k y b s ≠ Run.diverge → collectLoop st g x a s ≠ Run.diverge)
    (Run.admissible_fun₃ (fun y b s z => ∀ {x a}, R x a y b → z ≠ Run.diverge → collectLoop st g x a s ≠ Run.diverge)
      fun _ _ _ _ _ _ h => absurd rfl h) ?_ y b s
  intro k ih y b s x a h hd
  dsimp only at hd
  have hs := step x a y b s h
  rw [collectLoop]
  generalize st.next x s = m at hs ⊢
  generalize st'.next y s = m' at hs hd
  cases hs with
  | item hr => exact ih _ _ _ hr hd
  | stop =>
    simp only [Run.ret_bind] at hd ⊢
    revert hd
    on_run RewindSequence.rewind _ (anchor s)
    case ret => intro _ hc; cases hc
    case fault => intro _ hc; cases hc
    case diverge => exact fun h => absurd rfl h
  | @err _ _ _ u =>
    simp only [Run.ret_bind] at hd ⊢
    revert hd
    on_run u.rewind (anchor s)
    case ret => intro _ hc; cases hc
    case fault => intro _ hc; cases hc
    case diverge => exact fun h => absurd rfl h
  | fault => intro hc; cases hc
  | diverge => exact absurd rfl hd

/-- `collect` does not see the difference. -/
theorem collectLoop_alike
    (step : ∀ x a y b s, R x a y b → Alike (fun x' v y' w => R x' (g a v) y' (g' b w)) (st.next x s) (st'.next y s))
    (last : ∀ x a y b, R x a y b → b = ψ a) {x a y b} (s : S) (h : R x a y b) :
    collectLoop st' g' y b s = onOk (fun (c, e) => (ψ c, e)) (collectLoop st g x a s) := by
  by_cases hd : collectLoop st g x a s = Run.diverge
  · rw [hd]
    by_cases hc : collectLoop st' g' y b s = Run.diverge
    · exact hc
    · exact absurd hd (collectLoop_ends step s h hc)
  · exact collectLoop_sim step last s h hd
end

theorem IterParser.ext' {p q : IterParser σ σ₁ S O E} (hi : p.iter.init = q.iter.init) (hi' : p.once.init = q.once.init)
    (h : ∀ x s, p.iter.next x s = q.iter.next x s) (h' : ∀ x s, p.once.next x s = q.once.next x s) : p = q := by
  obtain ⟨⟨_, _⟩, ⟨_, _⟩⟩ := p
  obtain ⟨⟨_, _⟩, ⟨_, _⟩⟩ := q
  cases hi; cases hi'
  cases funext fun x => funext (h x)
  cases funext fun x => funext (h' x)
  rfl

/-! ## Adaptors in a row -/

/-- Two `map_each`s in a row are one. -/
theorem C99_mapEach_mapEach (p : IterParser σ σ₁ S O E) (f : O → T) (g : T → U) :
    (p.mapEach f).mapEach g = p.mapEach (g ∘ f) := by
  refine IterParser.ext' rfl rfl ?_ ?_ <;> intro x s <;> simp only [IterParser.mapEach, IterState.mapEach]
  · on_run p.iter.next x s; case ret a => obtain ⟨_ | _, _⟩ := a <;> simp [Run.pure_eq]
  · on_run p.once.next x s; case ret a => obtain ⟨_ | _, _⟩ := a <;> simp [Run.pure_eq]

/-- `map_each` with the identity changes nothing. -/
theorem C99_mapEach_id (p : IterParser σ σ₁ S O E) : p.mapEach (fun v => v) = p := by
  refine IterParser.ext' rfl rfl ?_ ?_ <;> intro x s <;> simp only [IterParser.mapEach, IterState.mapEach]
  · on_run p.iter.next x s; case ret a => obtain ⟨_ | _, _⟩ := a <;> simp [Run.pure_eq]
  · on_run p.once.next x s; case ret a => obtain ⟨_ | _, _⟩ := a <;> simp [Run.pure_eq]

/-- Two `map_while`s in a row are one, whose closure runs both closures. -/
theorem C99_mapWhile_mapWhile (p : IterParser σ σ₁ S O E) (f : O → Option T) (g : T → Option U) :
    (p.mapWhile f).mapWhile g = p.mapWhile (fun v => (f v).bind g) := by
  refine IterParser.ext' rfl rfl ?_ ?_ <;> intro x s <;> simp only [IterParser.mapWhile, IterState.mapWhile]
  · on_run p.iter.next x s; case ret a => obtain ⟨_ | _, _⟩ := a <;> simp [Run.pure_eq, Option.bind_assoc]
  · on_run p.once.next x s; case ret a => obtain ⟨_ | _, _⟩ := a <;> simp [Run.pure_eq, Option.bind_assoc]

/-- `map_while` with a closure that never rejects is `map_each`. -/
theorem C99_mapWhile_some (p : IterParser σ σ₁ S O E) (f : O → T) : p.mapWhile (fun v => some (f v)) = p.mapEach f := by
  refine IterParser.ext' rfl rfl ?_ ?_ <;> intro x s <;>
    simp only [IterParser.mapWhile, IterState.mapWhile, IterParser.mapEach, IterState.mapEach]
  · on_run p.iter.next x s; case ret a => obtain ⟨⟨_ | _, _⟩ | _, _⟩ := a <;> rfl
  · on_run p.once.next x s; case ret a => obtain ⟨⟨_ | _, _⟩ | _, _⟩ := a <;> rfl

/-- `try_map_each` with a closure that never fails is `map_each`. -/
theorem C99_tryMapEach_ok [ParseError E] (p : IterParser σ σ₁ S O E) (f : O → T) :
    p.tryMapEach (fun e => e) (fun v => .ok (f v)) = p.mapEach f := by
  refine IterParser.ext' rfl rfl ?_ ?_ <;> intro x s <;>
    simp only [IterParser.tryMapEach, IterState.tryMapEach, IterParser.mapEach, IterState.mapEach]
  · on_run p.iter.next x s; case ret a => obtain ⟨⟨_ | _, _⟩ | _, _⟩ := a <;> rfl
  · on_run p.once.next x s; case ret a => obtain ⟨⟨_ | _, _⟩ | _, _⟩ := a <;> rfl

/-- `try_map_each` with a closure whose errors are all recoverable is `map_while`. -/
theorem C99_tryMapEach_miss [ParseError E] (p : IterParser σ σ₁ S O E) (f : O → Except E T)
    (hf : ∀ v e, f v = .error e → shouldTerminate e = false) :
    p.tryMapEach (fun e => e) f = p.mapWhile (fun v => (f v).toOption) := by
  refine IterParser.ext' rfl rfl ?_ ?_ <;> intro x s <;>
    simp only [IterParser.tryMapEach, IterState.tryMapEach, IterParser.mapWhile, IterState.mapWhile]
  · on_run p.iter.next x s
    case ret a =>
    obtain ⟨⟨_ | v, _⟩ | _, _⟩ := a
    · rfl
    · simp only [Run.ret_bind]
      cases hv : f v with
      | ok w => simp [Except.toOption, hv, done]
      | error e => simp [Except.toOption, hv, done, hf _ _ hv]
    · rfl
  · on_run p.once.next x s
    case ret a =>
    obtain ⟨⟨_ | v, _⟩ | _, _⟩ := a
    · rfl
    · simp only [Run.ret_bind]
      cases hv : f v with
      | ok w => simp [Except.toOption, hv, done]
      | error e => simp [Except.toOption, hv, done, hf _ _ hv]
    · rfl

/-- `take` and `map_each` do not care about their order. -/
theorem C99_take_mapEach (p : IterParser σ σ₁ S O E) (f : O → T) (n : Nat) : (p.mapEach f).take n = (p.take n).mapEach f := by
  refine IterParser.ext' rfl rfl ?_ ?_ <;> intro x s <;> obtain ⟨x, l⟩ := x <;>
    simp only [IterParser.take, IterState.take, IterParser.mapEach, IterState.mapEach]
  · by_cases hl : l = 0
    · simp [hl, done]
    · simp only [hl, if_false]
      on_run p.iter.next x s; case ret a => obtain ⟨⟨_ | _, _⟩ | _, _⟩ := a <;> rfl
  · by_cases hl : l = 0
    · simp [hl, done]
    · simp only [hl, if_false]
      on_run p.once.next x s; case ret a => obtain ⟨⟨_ | _, _⟩ | _, _⟩ := a <;> rfl

/-- A `map_each` in front of a `scan` goes into its closure. -/
theorem C99_mapEach_scan (p : IterParser σ σ₁ S O E) (f : O → T) (i : St) (g : St → T → U × St) :
    (p.mapEach f).scan i g = p.scan i (fun z v => g z (f v)) := by
  refine IterParser.ext' rfl rfl ?_ ?_ <;> intro x s <;> obtain ⟨x, z⟩ := x <;>
    simp only [IterParser.scan, IterState.scan, IterParser.mapEach, IterState.mapEach]
  · on_run p.iter.next x s; case ret a => obtain ⟨⟨_ | _, _⟩ | _, _⟩ := a <;> rfl
  · on_run p.once.next x s; case ret a => obtain ⟨⟨_ | _, _⟩ | _, _⟩ := a <;> rfl

/-! ## Adaptors and consumers -/

private theorem take_take_alike (st : IterState σ S O E) (g : A → O → A) (n m k : Nat) :
    ∀ (x : (σ × Nat) × Nat) (a : A) (y : σ × Nat) (b : A) (s : S), (y = (x.1.1, min x.2 x.1.2) ∧ b = a) →
      Alike (fun (x' : (σ × Nat) × Nat) (v : O) (y' : σ × Nat) (w : O) => y' = (x'.1.1, min x'.2 x'.1.2) ∧ g b w = g a v)
        (((st.take n).take m).next x s) ((st.take k).next y s) := by
  rintro ⟨⟨x, l⟩, j⟩ a _ _ s ⟨rfl, rfl⟩
  simp only [IterState.take]
  by_cases hj : j = 0
  · simp only [hj, Nat.zero_min, if_true]; exact .stop
  by_cases hl : l = 0
  · simp only [hl, hj, Nat.min_zero, if_true, if_false]; exact .stop
  · simp only [hj, hl, show min j l ≠ 0 by omega, if_false]
    generalize st.next x s = m
    cases m using Run.casesRun with
    | ret r =>
      obtain ⟨⟨_ | v, r⟩ | ⟨e, u⟩, x'⟩ := r
      · exact .stop
      · refine .item ⟨?_, rfl⟩
        dsimp only
        rw [show min j l - 1 = min (j - 1) (l - 1) by omega]
      · exact .err
    | fault f => exact .fault
    | diverge => exact .diverge

/-- `take(n).take(m)` is `take(min(n, m))`, for whoever consumes it. -/
theorem C99_take_take (p : IterParser σ σ₁ S O E) (n m : Nat) (a : A) (g : A → O → A) :
    ((p.take n).take m).fold a g = (p.take (min m n)).fold a g := by
  refine Parser.ext' ?_ ?_ <;> intro s
  · refine (Eq.trans (foldLoop_alike (ψ := fun a => a) (R := fun x a y b => y = (x.1.1, min x.2 x.1.2) ∧ b = a)
      (take_take_alike p.iter g n m (min m n)) (fun _ _ _ _ h => h.2) s ⟨rfl, rfl⟩) (onOk_id _)).symm
  · refine (Eq.trans (foldLoop_alike (ψ := fun a => a) (R := fun x a y b => y = (x.1.1, min x.2 x.1.2) ∧ b = a)
      (take_take_alike p.once g n m (min m n)) (fun _ _ _ _ h => h.2) s ⟨rfl, rfl⟩) (onOk_id _)).symm

theorem C99_take_take_collect [RewindSequence S] (p : IterParser σ σ₁ S O E) (n m : Nat) (c : C) (g : C → O → C) :
    ((p.take n).take m).collect c g = (p.take (min m n)).collect c g := by
  refine Parser.ext' ?_ ?_ <;> intro s
  · refine (Eq.trans (collectLoop_alike (ψ := fun a => a) (R := fun x a y b => y = (x.1.1, min x.2 x.1.2) ∧ b = a)
      (take_take_alike p.iter g n m (min m n)) (fun _ _ _ _ h => h.2) s ⟨rfl, rfl⟩) (onOk_id _)).symm
  · refine (Eq.trans (collectLoop_alike (ψ := fun a => a) (R := fun x a y b => y = (x.1.1, min x.2 x.1.2) ∧ b = a)
      (take_take_alike p.once g n m (min m n)) (fun _ _ _ _ h => h.2) s ⟨rfl, rfl⟩) (onOk_id _)).symm

private theorem mapEach_alike {st : IterState σ S O E} {f : O → T} {Q : A → B → Prop} {g : A → O → A} {g' : B → T → B}
    (hg : ∀ a b v, Q a b → Q (g a v) (g' b (f v))) : ∀ (x : σ) (a : A) (y : σ) (b : B) (s : S), (y = x ∧ Q a b) →
      Alike (fun x' v y' w => y' = x' ∧ Q (g a v) (g' b w)) (st.next x s) ((st.mapEach f).next y s) := by
  rintro x a _ b s ⟨rfl, h⟩
  simp only [IterState.mapEach]
  generalize st.next _ s = m
  cases m using Run.casesRun with
  | ret r =>
    obtain ⟨⟨_ | v, r⟩ | ⟨e, u⟩, x'⟩ := r
    · exact .stop
    · exact .item ⟨rfl, hg _ _ _ h⟩
    · exact .err
  | fault f => exact .fault
  | diverge => exact .diverge

/-- A `map_each` in front of a `fold` goes into its closure. -/
theorem C99_mapEach_fold (p : IterParser σ σ₁ S O E) (f : O → T) (a : A) (g : A → T → A) :
    (p.mapEach f).fold a g = p.fold a (fun a v => g a (f v)) := by
  refine Parser.ext' ?_ ?_ <;> intro s
  · exact Eq.trans (foldLoop_alike (ψ := fun a => a) (R := fun x a y b => y = x ∧ b = a)
      (mapEach_alike (Q := fun a b => b = a) (by rintro a _ v rfl; rfl)) (fun _ _ _ _ h => h.2) s ⟨rfl, rfl⟩) (onOk_id _)
  · exact Eq.trans (foldLoop_alike (ψ := fun a => a) (R := fun x a y b => y = x ∧ b = a)
      (mapEach_alike (Q := fun a b => b = a) (by rintro a _ v rfl; rfl)) (fun _ _ _ _ h => h.2) s ⟨rfl, rfl⟩) (onOk_id _)

/-- Mapping what is collected into a `Vec` is collecting what is mapped. -/
theorem C99_mapEach_collect [RewindSequence S] (p : IterParser σ σ₁ S O E) (f : O → T) :
    (p.mapEach f).collectVec = p.collectVec.map (fun (vs, e) => (vs.map f, e)) := by
  refine Parser.ext' ?_ ?_ <;> intro s
  · refine Eq.trans (collectLoop_alike (ψ := List.map f) (R := fun x a y b => y = x ∧ b = a.map f)
      (g := fun c v => c ++ [v]) (x := p.iter.init) (a := [])
      (mapEach_alike (Q := fun (a : List O) b => b = a.map f) (g' := fun c w => c ++ [w]) (by rintro a _ v rfl; simp)) (fun _ _ _ _ h => h.2) s ⟨rfl, rfl⟩) ?_
    simp only [Parser.map, IterParser.collectVec, IterParser.collect, onOk]
    on_run collectLoop p.iter (fun c v => c ++ [v]) p.iter.init [] s
    case ret a => cases a <;> rfl
  · refine Eq.trans (collectLoop_alike (ψ := List.map f) (R := fun x a y b => y = x ∧ b = a.map f)
      (g := fun c v => c ++ [v]) (x := p.once.init) (a := [])
      (mapEach_alike (Q := fun (a : List O) b => b = a.map f) (g' := fun c w => c ++ [w]) (by rintro a _ v rfl; simp)) (fun _ _ _ _ h => h.2) s ⟨rfl, rfl⟩) ?_
    simp only [Parser.map, IterParser.collectVec, IterParser.collect, onOk]
    on_run collectLoop p.once (fun c v => c ++ [v]) p.once.init [] s
    case ret a => cases a <;> rfl

/-- One step of a `scan` and a `fold` together. -/
def scanFold (f : St → O → T × St) (g : A → T → A) : St × A → O → St × A
  | (z, a), v => ((f z v).2, g a (f z v).1)

private theorem scan_alike {st : IterState σ S O E} {f : St → O → T × St} {g : A → T → A} (i : St) :
    ∀ (x : σ) (a : St × A) (y : σ × St) (b : A) (s : S), (y = (x, a.1) ∧ b = a.2) →
      Alike (fun x' v (y' : σ × St) w => y' = (x', (scanFold f g a v).1) ∧ g b w = (scanFold f g a v).2)
        (st.next x s) ((st.scan i f).next y s) := by
  rintro x ⟨z, a⟩ _ _ s ⟨rfl, rfl⟩
  simp only [IterState.scan]
  generalize st.next _ s = m
  cases m using Run.casesRun with
  | ret r =>
    obtain ⟨⟨_ | v, r⟩ | ⟨e, u⟩, x'⟩ := r
    · exact .stop
    · exact .item ⟨rfl, rfl⟩
    · exact .err
  | fault f => exact .fault
  | diverge => exact .diverge

/-- A `fold` after a `scan` is one `fold` that carries both states. -/
theorem C99_scan_fold (p : IterParser σ σ₁ S O E) (i : St) (f : St → O → T × St) (a : A) (g : A → T → A) :
    (p.scan i f).fold a g = (p.fold (i, a) (scanFold f g)).map Prod.snd := by
  refine Parser.ext' ?_ ?_ <;> intro s
  · refine Eq.trans (foldLoop_alike (ψ := Prod.snd) (R := fun x a y b => y = (x, a.1) ∧ b = a.2)
      (x := p.iter.init) (a := (i, a)) (scan_alike i) (fun _ _ _ _ h => h.2) s ⟨rfl, rfl⟩) ?_
    simp only [Parser.map, IterParser.fold, onOk]
    on_run foldLoop p.iter (scanFold f g) p.iter.init (i, a) s
    case ret a => cases a <;> rfl
  · refine Eq.trans (foldLoop_alike (ψ := Prod.snd) (R := fun x a y b => y = (x, a.1) ∧ b = a.2)
      (x := p.once.init) (a := (i, a)) (scan_alike i) (fun _ _ _ _ h => h.2) s ⟨rfl, rfl⟩) ?_
    simp only [Parser.map, IterParser.fold, onOk]
    on_run foldLoop p.once (scanFold f g) p.once.init (i, a) s
    case ret a => cases a <;> rfl

private theorem take_mapWhile_alike (st : IterState σ S O E) (f : O → Option T) (g : A → T → A) (n : Nat) :
    ∀ (x : σ × Nat) (a : A) (y : σ × Nat) (b : A) (s : S), (y = x ∧ b = a) →
      Alike (fun x' v y' w => y' = x' ∧ g b w = g a v) (((st.mapWhile f).take n).next x s) (((st.take n).mapWhile f).next y s) := by
  rintro ⟨x, l⟩ a _ _ s ⟨rfl, rfl⟩
  simp only [IterState.take, IterState.mapWhile]
  by_cases hl : l = 0
  · simp only [hl, if_true]; exact .stop
  · simp only [hl, if_false]
    generalize st.next x s = m
    cases m using Run.casesRun with
    | ret r =>
      obtain ⟨⟨_ | v, r⟩ | ⟨e, u⟩, x'⟩ := r
      · exact .stop
      · simp only [Run.ret_bind, Run.pure_bind', done, Option.bind]
        cases f v with
        | none => exact .stop
        | some w => exact .item ⟨rfl, rfl⟩
      · exact .err
    | fault f => exact .fault
    | diverge => exact .diverge

/-- `take` and `map_while` do not care about their order, for whoever consumes them. -/
theorem C99_take_mapWhile (p : IterParser σ σ₁ S O E) (f : O → Option T) (n : Nat) (a : A) (g : A → T → A) :
    ((p.take n).mapWhile f).fold a g = ((p.mapWhile f).take n).fold a g := by
  refine Parser.ext' ?_ ?_ <;> intro s
  · exact Eq.trans (foldLoop_alike (ψ := fun a => a) (R := fun x a y b => y = x ∧ b = a)
      (take_mapWhile_alike p.iter f g n) (fun _ _ _ _ h => h.2) s ⟨rfl, rfl⟩) (onOk_id _)
  · exact Eq.trans (foldLoop_alike (ψ := fun a => a) (R := fun x a y b => y = x ∧ b = a)
      (take_mapWhile_alike p.once f g n) (fun _ _ _ _ h => h.2) s ⟨rfl, rfl⟩) (onOk_id _)

theorem C99_take_mapWhile_collect [RewindSequence S] (p : IterParser σ σ₁ S O E) (f : O → Option T) (n : Nat) (c : C)
    (g : C → T → C) : ((p.take n).mapWhile f).collect c g = ((p.mapWhile f).take n).collect c g := by
  refine Parser.ext' ?_ ?_ <;> intro s
  · exact Eq.trans (collectLoop_alike (ψ := fun a => a) (R := fun x a y b => y = x ∧ b = a)
      (take_mapWhile_alike p.iter f g n) (fun _ _ _ _ h => h.2) s ⟨rfl, rfl⟩) (onOk_id _)
  · exact Eq.trans (collectLoop_alike (ψ := fun a => a) (R := fun x a y b => y = x ∧ b = a)
      (take_mapWhile_alike p.once f g n) (fun _ _ _ _ h => h.2) s ⟨rfl, rfl⟩) (onOk_id _)

/-- Non-vacuity: a closure whose errors are all recoverable. -/
example : ∀ (v : Nat) e, (if v = 0 then (.error ⟨()⟩ : Except (Miss Unit) Nat) else .ok v) = .error e → shouldTerminate e = false :=
  fun _ _ _ => rfl

end Parcom
