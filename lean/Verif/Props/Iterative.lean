import Verif.Lemmas.Iteration
import Verif.Props.Combinator
/-!
# C22, C26 to C35: iterative parsers
-/
namespace Parcom
open Spec

variable {σ σ₁ S O E E₁ A C T St : Type}

/-! ## C26: fold -/

theorem foldLoop_ok {st : IterState σ S O E} {f : A → O → A} {x : σ} {s : S} {init a : A} {r : S} :
    foldLoop st f x init s = pure (.ok a r) ↔
      ∃ vs t, Iteration st x s vs t (pure (.ok () r)) ∧ a = vs.foldl f init := by
  constructor
  · intro h
    obtain ⟨vs, t, o, hi⟩ := foldLoop_iterates (st := st) f x init s (by rw [h]; simp)
    rw [foldLoop_iteration hi] at h
    cases o using Run.casesRun with
    | ret res =>
      cases res with
      | ok u r' => simp [foldStop] at h; obtain ⟨rfl, rfl⟩ := h; exact ⟨vs, t, hi, rfl⟩
      | err e u => simp [foldStop] at h
    | fault f => simp at h
    | diverge => simp at h
  · rintro ⟨vs, t, hi, rfl⟩
    rw [foldLoop_iteration hi]; rfl

theorem foldLoop_err {st : IterState σ S O E} {f : A → O → A} {x : σ} {s : S} {init : A} {e : E}
    {u : UnknownLocation S} :
    foldLoop st f x init s = pure (.err e u) ↔ ∃ vs t, Iteration st x s vs t (pure (.err e u)) := by
  constructor
  · intro h
    obtain ⟨vs, t, o, hi⟩ := foldLoop_iterates (st := st) f x init s (by rw [h]; simp)
    rw [foldLoop_iteration hi] at h
    cases o using Run.casesRun with
    | ret res =>
      cases res with
      | ok u r' => simp [foldStop] at h
      | err e u => simp [foldStop] at h; obtain ⟨rfl, rfl⟩ := h; exact ⟨vs, t, hi⟩
    | fault f => simp at h
    | diverge => simp at h
  · rintro ⟨vs, t, hi⟩
    rw [foldLoop_iteration hi]; rfl

theorem foldLoop_fault {st : IterState σ S O E} {f : A → O → A} {x : σ} {s : S} {init : A} {ft : Fault} :
    foldLoop st f x init s = Run.fault ft ↔ ∃ vs t, Iteration st x s vs t (Run.fault ft) := by
  constructor
  · intro h
    obtain ⟨vs, t, o, hi⟩ := foldLoop_iterates (st := st) f x init s (by rw [h]; simp)
    rw [foldLoop_iteration hi] at h
    cases o using Run.casesRun with
    | ret res => simp at h
    | fault f => simp at h; subst h; exact ⟨vs, t, hi⟩
    | diverge => simp at h
  · rintro ⟨vs, t, hi⟩
    rw [foldLoop_iteration hi]; rfl

theorem foldLoop_diverge {st : IterState σ S O E} {f : A → O → A} {x : σ} {s : S} {init : A} :
    foldLoop st f x init s = Run.diverge ↔ Endless st x s ∨ ∃ vs t, Iteration st x s vs t Run.diverge := by
  constructor
  · intro h
    rcases iteration_or_endless st x s with ⟨vs, t, o, hi⟩ | he
    · rw [foldLoop_iteration hi] at h
      cases o using Run.casesRun with
      | ret res => simp at h
      | fault f => simp at h
      | diverge => exact .inr ⟨vs, t, hi⟩
    · exact .inl he
  · rintro (he | ⟨vs, t, hi⟩)
    · exact foldLoop_endless he init
    · rw [foldLoop_iteration hi]; rfl

section
variable (p : IterParser σ σ₁ S O E) (init : A) (f : A → O → A) (s : S)

/-- C26, successes: the left fold of all items, positioned where the iteration ended. `parse_once` likewise, over the
iteration that `parse_iterative_once` starts. -/
theorem C26_fold_succeeds (a : A) (r : S) :
    ((p.fold init f).parse s = pure (.ok a r) ↔
      ∃ vs t, Iteration p.iter p.iter.init s vs t (pure (.ok () r)) ∧ a = vs.foldl f init) ∧
    ((p.fold init f).parseOnce s = pure (.ok a r) ↔
      ∃ vs t, Iteration p.once p.once.init s vs t (pure (.ok () r)) ∧ a = vs.foldl f init) :=
  ⟨foldLoop_ok, foldLoop_ok⟩

/-- C26, failures: exactly the error of the iteration, at the same location. -/
theorem C26_fold_fails (e : E) (u : UnknownLocation S) :
    ((p.fold init f).parse s = pure (.err e u) ↔
      ∃ vs t, Iteration p.iter p.iter.init s vs t (pure (.err e u))) ∧
    ((p.fold init f).parseOnce s = pure (.err e u) ↔
      ∃ vs t, Iteration p.once p.once.init s vs t (pure (.err e u))) :=
  ⟨foldLoop_err, foldLoop_err⟩

/-- C26, the rest: `fold` adds no panic and no hang of its own. -/
theorem C26_fold_stuck (ft : Fault) :
    ((p.fold init f).parse s = Run.fault ft ↔ ∃ vs t, Iteration p.iter p.iter.init s vs t (Run.fault ft)) ∧
    ((p.fold init f).parse s = Run.diverge ↔
      Endless p.iter p.iter.init s ∨ ∃ vs t, Iteration p.iter p.iter.init s vs t Run.diverge) :=
  ⟨foldLoop_fault, foldLoop_diverge⟩

end

/-! ## C27, C22: collect -/

section
variable [RewindSequence S] [L : RewindLaw S]

theorem collectLoop_ret {st : IterState σ S O E} (hd : DescendsIter st) {x : σ} {s : S}
    {res : PResult S (List O × Option E) E} :
    collectLoop st (fun c v => c ++ [v]) x [] s = pure res ↔ ∃ vs t stop, Iteration st x s vs t (pure stop) ∧
      res = .ok (vs, match stop with | .ok _ _ => none | .err e _ => some e) t := by
  have key : ∀ {vs t o}, Iteration st x s vs t o → collectLoop st (fun c v => c ++ [v]) x [] s =
      (do return collectStop vs t (← o)) := by
    intro vs t o hi
    rw [collectLoop_iteration hd hi, foldl_push]; rfl
  constructor
  · intro h
    obtain ⟨vs, t, o, hi⟩ := collectLoop_iterates (st := st) _ x [] s (by rw [h]; simp)
    rw [key hi] at h
    cases o using Run.casesRun with
    | ret stop => cases stop <;> (simp [collectStop] at h; exact ⟨vs, t, _, hi, h.symm⟩)
    | fault f => simp at h
    | diverge => simp at h
  · rintro ⟨vs, t, stop, hi, rfl⟩
    rw [key hi]
    cases stop <;> rfl

theorem collectLoop_fault {st : IterState σ S O E} (hd : DescendsIter st) {extend : C → O → C} {c : C} {x : σ} {s : S}
    {ft : Fault} :
    collectLoop st extend x c s = Run.fault ft ↔ ∃ vs t, Iteration st x s vs t (Run.fault ft) := by
  constructor
  · intro h
    obtain ⟨vs, t, o, hi⟩ := collectLoop_iterates (st := st) extend x c s (by rw [h]; simp)
    rw [collectLoop_iteration hd hi] at h
    cases o using Run.casesRun with
    | ret res => simp at h
    | fault f => simp at h; subst h; exact ⟨vs, t, hi⟩
    | diverge => simp at h
  · rintro ⟨vs, t, hi⟩
    rw [collectLoop_iteration hd hi]; rfl

theorem collectLoop_diverge {st : IterState σ S O E} (hd : DescendsIter st) {extend : C → O → C} {c : C} {x : σ}
    {s : S} :
    collectLoop st extend x c s = Run.diverge ↔ Endless st x s ∨ ∃ vs t, Iteration st x s vs t Run.diverge := by
  constructor
  · intro h
    rcases iteration_or_endless st x s with ⟨vs, t, o, hi⟩ | he
    · rw [collectLoop_iteration hd hi] at h
      cases o using Run.casesRun with
      | ret res => simp at h
      | fault f => simp at h
      | diverge => exact .inr ⟨vs, t, hi⟩
    · exact .inl he
  · rintro (he | ⟨vs, t, hi⟩)
    · exact collectLoop_endless he c
    · rw [collectLoop_iteration hd hi]; rfl

variable (p : IterParser σ σ₁ S O E)

/-- C27 for `collect::<Vec<_>>()`: all items in order, the error that stopped the iteration if there was one, and the
place right after the last item, wherever the last step left the input. `parse_once` likewise. -/
theorem C27_collect_vec (hi : DescendsIter p.iter) (ho : DescendsIter p.once) (s : S)
    (res : PResult S (List O × Option E) E) :
    (p.collectVec.parse s = pure res ↔ ∃ vs t stop, Iteration p.iter p.iter.init s vs t (pure stop) ∧
      res = .ok (vs, match stop with | .ok _ _ => none | .err e _ => some e) t) ∧
    (p.collectVec.parseOnce s = pure res ↔ ∃ vs t stop, Iteration p.once p.once.init s vs t (pure stop) ∧
      res = .ok (vs, match stop with | .ok _ _ => none | .err e _ => some e) t) :=
  ⟨collectLoop_ret hi, collectLoop_ret ho⟩

/-- C27 for any collection: it is extended by the items one by one, from the left. -/
theorem C27_collect_any (hi : DescendsIter p.iter) (dflt : C) (extend : C → O → C) (s t : S) (vs : List O)
    (stop : PResult S Unit E) (h : Iteration p.iter p.iter.init s vs t (pure stop)) :
    (p.collect dflt extend).parse s =
      pure (.ok (vs.foldl extend dflt, match stop with | .ok _ _ => none | .err e _ => some e) t) := by
  show collectLoop _ _ _ _ _ = _
  rw [collectLoop_iteration hi h]
  cases stop <;> rfl

/-- C27: `collect` adds no panic and no hang of its own. -/
theorem C27_collect_stuck (hi : DescendsIter p.iter) (dflt : C) (extend : C → O → C) (s : S) (ft : Fault) :
    ((p.collect dflt extend).parse s = Run.fault ft ↔ ∃ vs t, Iteration p.iter p.iter.init s vs t (Run.fault ft)) ∧
    ((p.collect dflt extend).parse s = Run.diverge ↔
      Endless p.iter p.iter.init s ∨ ∃ vs t, Iteration p.iter p.iter.init s vs t Run.diverge) :=
  ⟨collectLoop_fault hi, collectLoop_diverge hi⟩

end

/-- The full claim of C22. -/
def C22Statement : Prop :=
  ∀ {σ σ₁ S O E : Type} [RewindSequence S] [RewindLaw S] [ParseError E] (p : IterParser σ σ₁ S O E),
    DescendsIter p.iter → ∀ (s t : S) (vs : List O) (e : E) (u : UnknownLocation S),
    Iteration p.iter p.iter.init s vs t (pure (.err e u)) → shouldTerminate e = true →
    ∃ e' u', p.collectVec.parse s = pure (.err e' u')

/-- C22, what happens instead: `collect` never fails. A failed iteration, fatal or not, is a success that carries the
error in its output. -/
theorem C22_exact [RewindSequence S] [RewindLaw S] (p : IterParser σ σ₁ S O E) (hd : DescendsIter p.iter) (s : S) :
    (∀ e u, p.collectVec.parse s ≠ pure (.err e u)) ∧
    ∀ vs t e u, Iteration p.iter p.iter.init s vs t (pure (.err e u)) →
      p.collectVec.parse s = pure (.ok (vs, some e) t) := by
  constructor
  · intro e u h
    obtain ⟨vs, t, stop, -, h⟩ := (collectLoop_ret hd).mp h
    simp at h
  · intro vs t e u h
    exact (collectLoop_ret hd).mpr ⟨vs, t, _, h, rfl⟩

/-- C22, partial: the error is not lost, and reported with the items before it. Missing: that `collect` fails. -/
theorem C22_partial [RewindSequence S] [RewindLaw S] [ParseError E] (p : IterParser σ σ₁ S O E)
    (hd : DescendsIter p.iter) (s t : S) (vs : List O) (e : E) (u : UnknownLocation S)
    (h : Iteration p.iter p.iter.init s vs t (pure (.err e u))) (_ : shouldTerminate e = true) :
    p.collectVec.parse s = pure (.ok (vs, some e) t) :=
  (C22_exact p hd s).2 vs t e u h

/-- Iterating `optional` descends. -/
theorem descendsIter_optional [RewindSequence S] [L : RewindLaw S] [ParseError E] {f : S → Run (PResult S O E)}
    (hf : Descends f) : DescendsIter { init := true, next := optionalNext f } := by
  intro x s
  show Run.Ensures (optionalNext f x s) _
  refine Run.ensures_ite (fun _ => Run.ensures_pure.mpr (L.refl s)) (fun _ => ?_)
  refine Run.ensures_bind fun res h => ?_
  cases res with
  | ok v r => exact Run.ensures_pure.mpr (hf.ok h)
  | err e u =>
    refine Run.ensures_ite (fun _ => Run.ensures_pure.mpr (hf.err h)) (fun _ => ?_)
    have hw : u.rewind (anchor s) = pure s := L.rewind (hf.err h)
    rw [hw]
    exact Run.ensures_pure.mpr (L.refl s)

/-- Iterating `repeat` descends. -/
theorem descendsIter_repeat [RewindSequence S] [L : RewindLaw S] [ParseError E] {f : S → Run (PResult S O E)}
    (hf : Descends f) : DescendsIter { init := (), next := repeatNext f } := by
  intro x s
  show Run.Ensures (repeatNext f x s) _
  refine Run.ensures_bind fun res h => ?_
  cases res with
  | ok v r => exact Run.ensures_pure.mpr (hf.ok h)
  | err e u =>
    refine Run.ensures_ite (fun _ => Run.ensures_pure.mpr (hf.err h)) (fun _ => ?_)
    have hw : u.rewind (anchor s) = pure s := L.rewind (hf.err h)
    rw [hw]
    exact Run.ensures_pure.mpr (L.refl s)

/-- A parser that always fails fatally, in place. -/
def broken : Parser StrRef Unit (Fatal Unit) := .ofFn fun s => pure (.err ⟨()⟩ ⟨s⟩)

theorem broken_descends : Descends broken.parse :=
  ⟨fun {s v r} h => by simp [broken, Parser.ofFn] at h,
   fun {s e u} h => by simp [broken, Parser.ofFn] at h; rw [← h]; exact RewindLaw.refl s⟩

theorem broken_repeats (s : StrRef) :
    Iteration broken.repeatIter.iter broken.repeatIter.iter.init s [] s (pure (.err ⟨()⟩ ⟨s⟩)) :=
  ⟨(), .nil _ _, .failed (x' := ()) rfl⟩

/-- C22 does not hold for the code: a fatal error in `repeat().collect()` is turned into a success. -/
theorem C22_false : ¬ C22Statement := by
  intro h
  let s : StrRef := { alloc := 1, off := 0, text := ⟨['a']⟩ }
  obtain ⟨e, u, h1⟩ := h broken.repeatIter (descendsIter_repeat broken_descends) s s [] ⟨()⟩ ⟨s⟩ (broken_repeats s) rfl
  exact (C22_exact _ (descendsIter_repeat broken_descends) s).1 e u h1

/-! ## C28: take -/

section
variable {st : IterState σ S O E}

theorem take_run {n m : Nat} {x : σ} {s : S} {vs : List O} {y : σ × Nat} {t : S} :
    IterRun (st.take m) (x, n) s vs y t ↔ ∃ x', y = (x', n - vs.length) ∧ vs.length ≤ n ∧ IterRun st x s vs x' t := by
  constructor
  · intro h
    generalize hz : (x, n) = z at h
    induction h generalizing x n with
    | nil z s => subst hz; exact ⟨x, rfl, Nat.zero_le _, .nil x s⟩
    | @cons z z₁ y s r t v vs hn _ ih =>
      subst hz
      by_cases h0 : n = 0
      · have h1 : (st.take m).next (x, n) s = _ := if_pos h0
        rw [h1] at hn
        simp [done] at hn
      · have h1 : (st.take m).next (x, n) s = _ := if_neg h0
        rw [h1, Run.bind_eq_pure] at hn
        obtain ⟨⟨⟨_ | w, r'⟩ | _, x₁⟩, h2, h3⟩ := hn
        · simp [done, Run.pure_eq] at h3
        · simp [done, Run.pure_eq] at h3
          obtain ⟨⟨rfl, rfl⟩, rfl⟩ := h3
          obtain ⟨x', rfl, h5, h6⟩ := ih rfl
          exact ⟨x', by simp; omega, by simp; omega, .cons h2 h6⟩
        · simp [Run.pure_eq] at h3
  · rintro ⟨x', rfl, h1, h2⟩
    induction h2 generalizing n with
    | nil x s => exact .nil _ _
    | @cons x x₁ x' s r t v vs hn _ ih =>
      simp only [List.length_cons] at h1
      have h3 : (st.take m).next (x, n) s = _ := if_neg (by omega)
      rw [hn] at h3
      refine .cons (x₁ := (x₁, n - 1)) h3 ?_
      have := ih (n := n - 1) (by omega)
      have e : n - (v :: vs).length = n - 1 - vs.length := by simp; omega
      rw [e]; exact this

theorem take_stops {n m : Nat} {x : σ} {s : S} {o : Run (PResult S Unit E)} :
    Stops (st.take m) (x, n) s o ↔ (n = 0 ∧ o = pure (.ok () s)) ∨ (n ≠ 0 ∧ Stops st x s o) := by
  by_cases h0 : n = 0
  · have h1 : (st.take m).next (x, n) s = _ := if_pos h0
    constructor
    · intro h
      refine .inl ⟨h0, ?_⟩
      exact h.det (.ended h1)
    · rintro (⟨-, rfl⟩ | ⟨h, -⟩)
      · exact .ended h1
      · exact absurd h0 h
  · have h1 : (st.take m).next (x, n) s = _ := if_neg h0
    have h2 : ∀ {o}, Stops st x s o → Stops (st.take m) (x, n) s o := by
      intro o h
      cases h with
      | ended h => rw [h] at h1; exact .ended h1
      | failed h => rw [h] at h1; exact .failed h1
      | faulted h => rw [h] at h1; exact .faulted h1
      | hung h => rw [h] at h1; exact .hung h1
    constructor
    · intro h
      refine .inr ⟨h0, ?_⟩
      cases hn : st.next x s using Run.casesRun with
      | ret res =>
        obtain ⟨⟨_ | v, r⟩ | ⟨e, u⟩, x'⟩ := res
        · rw [h.det (h2 (.ended hn))]; exact .ended hn
        · rw [hn] at h1; exact (h.no_item h1).elim
        · rw [h.det (h2 (.failed hn))]; exact .failed hn
      | fault f => rw [h.det (h2 (.faulted hn))]; exact .faulted hn
      | diverge => rw [h.det (h2 (.hung hn))]; exact .hung hn
    · rintro (⟨h, -⟩ | ⟨-, h⟩)
      · exact absurd h h0
      · exact h2 h

theorem take_iteration {n m : Nat} {x : σ} {s t : S} {vs : List O} {o : Run (PResult S Unit E)} :
    Iteration (st.take m) (x, n) s vs t o ↔
      (vs.length = n ∧ (∃ x', IterRun st x s vs x' t) ∧ o = pure (.ok () t)) ∨
      (vs.length < n ∧ Iteration st x s vs t o) := by
  constructor
  · rintro ⟨y, h1, h2⟩
    obtain ⟨x', rfl, h3, h4⟩ := take_run.mp h1
    rcases take_stops.mp h2 with ⟨h5, h6⟩ | ⟨h5, h6⟩
    · exact .inl ⟨by omega, ⟨x', h4⟩, h6⟩
    · exact .inr ⟨by omega, x', h4, h6⟩
  · rintro (⟨h1, ⟨x', h2⟩, h3⟩ | ⟨h1, x', h2, h3⟩)
    · exact ⟨_, take_run.mpr ⟨x', rfl, by omega, h2⟩, take_stops.mpr (.inl ⟨by omega, h3⟩)⟩
    · exact ⟨_, take_run.mpr ⟨x', rfl, by omega, h2⟩, take_stops.mpr (.inr ⟨by omega, h3⟩)⟩

end

/-- C28: an iteration of `take(n)` is either the first `n` items, ending right after the `n`-th whatever a further step
would do, or a whole iteration of fewer than `n` items. `parse_iterative_once` likewise. -/
theorem C28_take (p : IterParser σ σ₁ S O E) (n : Nat) (s t : S) (vs : List O) (o : Run (PResult S Unit E)) :
    (Iteration (p.take n).iter (p.take n).iter.init s vs t o ↔
      (vs.length = n ∧ (∃ x', IterRun p.iter p.iter.init s vs x' t) ∧ o = pure (.ok () t)) ∨
      (vs.length < n ∧ Iteration p.iter p.iter.init s vs t o)) ∧
    (Iteration (p.take n).once (p.take n).once.init s vs t o ↔
      (vs.length = n ∧ (∃ x', IterRun p.once p.once.init s vs x' t) ∧ o = pure (.ok () t)) ∨
      (vs.length < n ∧ Iteration p.once p.once.init s vs t o)) :=
  ⟨take_iteration, take_iteration⟩

/-- C28: and there always is one, even when the underlying items never end. -/
theorem C28_take_ends (p : IterParser σ σ₁ S O E) (n : Nat) (s : S) :
    ∃ vs t o, Iteration (p.take n).iter (p.take n).iter.init s vs t o := by
  rcases iteration_or_endless (p.take n).iter (p.take n).iter.init s with h | h
  · exact h
  · obtain ⟨vs, x', t, h1, h2⟩ := h (n + 1)
    obtain ⟨x', rfl, h3, -⟩ := take_run.mp h1
    omega

/-! ## C29: map_each -/

section
variable {st : IterState σ S O E}

theorem mapEach_iteration {f : O → T} {x : σ} {s t : S} {ws : List T} {o : Run (PResult S Unit E)} :
    Iteration (st.mapEach f) x s ws t o ↔ ∃ vs, ws = vs.map f ∧ Iteration st x s vs t o := by
  have hs : ∀ {x s o}, Stops st x s o → Stops (st.mapEach f) x s o := by
    intro x s o h
    cases h with
    | ended h => exact .ended (by simp only [IterState.mapEach, h]; rfl)
    | failed h => exact .failed (by simp only [IterState.mapEach, h]; rfl)
    | faulted h => exact .faulted (by simp only [IterState.mapEach, h]; rfl)
    | hung h => exact .hung (by simp only [IterState.mapEach, h]; rfl)
  have hr : ∀ {x s vs x' t}, IterRun st x s vs x' t → IterRun (st.mapEach f) x s (vs.map f) x' t := by
    intro x s vs x' t h
    induction h with
    | nil => exact .nil _ _
    | cons h _ ih => exact .cons (by simp only [IterState.mapEach, h]; rfl) ih
  have hinv : ∀ {x s ws x' t}, IterRun (st.mapEach f) x s ws x' t → ∃ vs, ws = vs.map f ∧ IterRun st x s vs x' t := by
    intro x s ws x' t h
    induction h with
    | nil => exact ⟨[], rfl, .nil _ _⟩
    | @cons x x₁ x' s r t v vs h _ ih =>
      obtain ⟨vs', rfl, h1⟩ := ih
      simp only [IterState.mapEach, Run.bind_eq_pure] at h
      obtain ⟨⟨⟨_ | w, r'⟩ | _, y⟩, h2, h3⟩ := h <;> simp [Run.pure_eq] at h3
      obtain ⟨⟨rfl, rfl⟩, rfl⟩ := h3
      exact ⟨w :: vs', rfl, .cons h2 h1⟩
  constructor
  · rintro ⟨x', h1, h2⟩
    obtain ⟨vs, rfl, h3⟩ := hinv h1
    refine ⟨vs, rfl, x', h3, ?_⟩
    cases hn : st.next x' t using Run.casesRun with
    | ret res =>
      obtain ⟨⟨_ | v, r⟩ | ⟨e, u⟩, y⟩ := res
      · rw [h2.det (hs (.ended hn))]; exact .ended hn
      · exact (h2.no_item (v := f v) (r := r) (x' := y) (by simp only [IterState.mapEach, hn]; rfl)).elim
      · rw [h2.det (hs (.failed hn))]; exact .failed hn
    | fault f => rw [h2.det (hs (.faulted hn))]; exact .faulted hn
    | diverge => rw [h2.det (hs (.hung hn))]; exact .hung hn
  · rintro ⟨vs, rfl, x', h1, h2⟩
    exact ⟨x', hr h1, hs h2⟩

end

/-- C29: `map_each` iterates exactly as the underlying parser, with `f` applied to each item. -/
theorem C29_map_each (p : IterParser σ σ₁ S O E) (f : O → T) (s t : S) (ws : List T) (o : Run (PResult S Unit E)) :
    (Iteration (p.mapEach f).iter (p.mapEach f).iter.init s ws t o ↔
      ∃ vs, ws = vs.map f ∧ Iteration p.iter p.iter.init s vs t o) ∧
    (Iteration (p.mapEach f).once (p.mapEach f).once.init s ws t o ↔
      ∃ vs, ws = vs.map f ∧ Iteration p.once p.once.init s vs t o) :=
  ⟨mapEach_iteration, mapEach_iteration⟩

/-! ## C30: scan -/

section
variable {st : IterState σ S O E}

theorem scan_iteration {init : St} {f : St → O → T × St} {x : σ} {a : St} {s t : S} {ws : List T}
    {o : Run (PResult S Unit E)} :
    Iteration (st.scan init f) (x, a) s ws t o ↔ ∃ vs, ws = scanned f a vs ∧ Iteration st x s vs t o := by
  have hs : ∀ {x a s o}, Stops st x s o → Stops (st.scan init f) (x, a) s o := by
    intro x a s o h
    cases h with
    | ended h => exact .ended (x' := (_, a)) (by simp only [IterState.scan, h]; rfl)
    | failed h => exact .failed (x' := (_, a)) (by simp only [IterState.scan, h]; rfl)
    | faulted h => exact .faulted (by simp only [IterState.scan, h]; rfl)
    | hung h => exact .hung (by simp only [IterState.scan, h]; rfl)
  have hr : ∀ {x a s vs x' t}, IterRun st x s vs x' t →
      ∃ a', IterRun (st.scan init f) (x, a) s (scanned f a vs) (x', a') t := by
    intro x a s vs x' t h
    induction h generalizing a with
    | nil => exact ⟨a, .nil _ _⟩
    | @cons x x₁ x' s r t v vs h _ ih =>
      obtain ⟨a', h'⟩ := ih (a := (f a v).2)
      exact ⟨a', .cons (by simp only [IterState.scan, h]; rfl) h'⟩
  have hinv : ∀ {x a s ws y t}, IterRun (st.scan init f) (x, a) s ws y t →
      ∃ vs, ws = scanned f a vs ∧ IterRun st x s vs y.1 t := by
    intro x a s ws y t h
    generalize hz : (x, a) = z at h
    induction h generalizing x a with
    | nil => subst hz; exact ⟨[], rfl, .nil _ _⟩
    | @cons z z₁ y s r t v vs h _ ih =>
      subst hz
      simp only [IterState.scan, Run.bind_eq_pure] at h
      obtain ⟨⟨⟨_ | w, r'⟩ | _, x₁⟩, h2, h3⟩ := h <;> simp [Run.pure_eq, done] at h3
      obtain ⟨⟨rfl, rfl⟩, rfl⟩ := h3
      obtain ⟨vs', rfl, h1⟩ := ih rfl
      exact ⟨w :: vs', rfl, .cons h2 h1⟩
  constructor
  · rintro ⟨⟨x', a'⟩, h1, h2⟩
    obtain ⟨vs, rfl, h3⟩ := hinv h1
    refine ⟨vs, rfl, x', h3, ?_⟩
    cases hn : st.next x' t using Run.casesRun with
    | ret res =>
      obtain ⟨⟨_ | v, r⟩ | ⟨e, u⟩, y⟩ := res
      · rw [h2.det (hs (.ended hn))]; exact .ended hn
      · exact (h2.no_item (v := (f a' v).1) (r := r) (x' := (y, (f a' v).2))
          (by simp only [IterState.scan, hn]; rfl)).elim
      · rw [h2.det (hs (.failed hn))]; exact .failed hn
    | fault f => rw [h2.det (hs (.faulted hn))]; exact .faulted hn
    | diverge => rw [h2.det (hs (.hung hn))]; exact .hung hn
  · rintro ⟨vs, rfl, x', h1, h2⟩
    obtain ⟨a', h⟩ := hr (a := a) h1
    exact ⟨(x', a'), h, hs h2⟩

end

/-- C30: `scan` iterates exactly as the underlying parser, its items being the outputs of threading the state through
from its initial value. The parser itself holds no state that an iteration could change. -/
theorem C30_scan (p : IterParser σ σ₁ S O E) (init : St) (f : St → O → T × St) (s t : S) (ws : List T)
    (o : Run (PResult S Unit E)) :
    (Iteration (p.scan init f).iter (p.scan init f).iter.init s ws t o ↔
      ∃ vs, ws = scanned f init vs ∧ Iteration p.iter p.iter.init s vs t o) ∧
    (Iteration (p.scan init f).once (p.scan init f).once.init s ws t o ↔
      ∃ vs, ws = scanned f init vs ∧ Iteration p.once p.once.init s vs t o) :=
  ⟨scan_iteration, scan_iteration⟩

/-! ## C31: map_while -/

section
variable {st : IterState σ S O E}

theorem mapWhile_iteration {f : O → Option T} {x : σ} {s t : S} {ws : List T} {o : Run (PResult S Unit E)} :
    Iteration (st.mapWhile f) x s ws t o ↔ ∃ vs, vs.map f = ws.map some ∧
      (Iteration st x s vs t o ∨
       ∃ x' x'' v r, IterRun st x s vs x' t ∧ st.next x' t = pure (.ok (some v) r, x'') ∧ f v = none ∧
         o = pure (.ok () r)) := by
  have hs : ∀ {x s o}, Stops st x s o → Stops (st.mapWhile f) x s o := by
    intro x s o h
    cases h with
    | ended h => exact .ended (by simp only [IterState.mapWhile, h]; rfl)
    | failed h => exact .failed (by simp only [IterState.mapWhile, h]; rfl)
    | faulted h => exact .faulted (by simp only [IterState.mapWhile, h]; rfl)
    | hung h => exact .hung (by simp only [IterState.mapWhile, h]; rfl)
  have hitem : ∀ {x s v r x'}, st.next x s = pure (.ok (some v) r, x') →
      (st.mapWhile f).next x s = pure (.ok (f v) r, x') := by
    intro x s v r x' h
    simp only [IterState.mapWhile, h]; rfl
  have hr : ∀ {x s vs ws x' t}, IterRun st x s vs x' t → vs.map f = ws.map some →
      IterRun (st.mapWhile f) x s ws x' t := by
    intro x s vs ws x' t h hm
    induction h generalizing ws with
    | nil => cases ws with
      | nil => exact .nil _ _
      | cons => simp at hm
    | cons h _ ih => cases ws with
      | nil => simp at hm
      | cons w ws =>
        simp at hm
        refine .cons ?_ (ih hm.2)
        rw [hitem h, hm.1]
  have hinv : ∀ {x s ws x' t}, IterRun (st.mapWhile f) x s ws x' t →
      ∃ vs, vs.map f = ws.map some ∧ IterRun st x s vs x' t := by
    intro x s ws x' t h
    induction h with
    | nil => exact ⟨[], rfl, .nil _ _⟩
    | @cons x x₁ x' s r t v vs h _ ih =>
      obtain ⟨vs', hm, h1⟩ := ih
      simp only [IterState.mapWhile, Run.bind_eq_pure] at h
      obtain ⟨⟨⟨_ | w, r'⟩ | _, y⟩, h2, h3⟩ := h <;> simp [Run.pure_eq] at h3
      obtain ⟨⟨h3, rfl⟩, rfl⟩ := h3
      exact ⟨w :: vs', by simp [hm, h3], .cons h2 h1⟩
  constructor
  · rintro ⟨x', h1, h2⟩
    obtain ⟨vs, hm, h3⟩ := hinv h1
    refine ⟨vs, hm, ?_⟩
    cases hn : st.next x' t using Run.casesRun with
    | ret res =>
      obtain ⟨⟨_ | v, r⟩ | ⟨e, u⟩, y⟩ := res
      · rw [h2.det (hs (.ended hn))]; exact .inl ⟨x', h3, .ended hn⟩
      · have h4 := hitem hn
        cases hv : f v with
        | none =>
          rw [hv] at h4
          exact .inr ⟨x', y, v, r, h3, hn, hv, h2.det (.ended h4)⟩
        | some w =>
          rw [hv] at h4
          exact (h2.no_item h4).elim
      · rw [h2.det (hs (.failed hn))]; exact .inl ⟨x', h3, .failed hn⟩
    | fault f => rw [h2.det (hs (.faulted hn))]; exact .inl ⟨x', h3, .faulted hn⟩
    | diverge => rw [h2.det (hs (.hung hn))]; exact .inl ⟨x', h3, .hung hn⟩
  · rintro ⟨vs, hm, ⟨x', h1, h2⟩ | ⟨x', x'', v, r, h1, h2, h3, rfl⟩⟩
    · exact ⟨x', hr h1 hm, hs h2⟩
    · refine ⟨x', hr h1 hm, .ended (x' := x'') ?_⟩
      rw [hitem h2, h3]

end

/-- C31: `map_while` yields `f` of the items as long as `f` accepts them; it ends as the underlying iteration does, or at
the first rejected item, then positioned after that item. -/
theorem C31_map_while (p : IterParser σ σ₁ S O E) (f : O → Option T) (s t : S) (ws : List T)
    (o : Run (PResult S Unit E)) :
    (Iteration (p.mapWhile f).iter (p.mapWhile f).iter.init s ws t o ↔ ∃ vs, vs.map f = ws.map some ∧
      (Iteration p.iter p.iter.init s vs t o ∨
       ∃ x' x'' v r, IterRun p.iter p.iter.init s vs x' t ∧ p.iter.next x' t = pure (.ok (some v) r, x'') ∧
         f v = none ∧ o = pure (.ok () r))) ∧
    (Iteration (p.mapWhile f).once (p.mapWhile f).once.init s ws t o ↔ ∃ vs, vs.map f = ws.map some ∧
      (Iteration p.once p.once.init s vs t o ∨
       ∃ x' x'' v r, IterRun p.once p.once.init s vs x' t ∧ p.once.next x' t = pure (.ok (some v) r, x'') ∧
         f v = none ∧ o = pure (.ok () r))) :=
  ⟨mapWhile_iteration, mapWhile_iteration⟩

/-! ## C32: try_map_each -/

/-- An underlying stop with its error converted. -/
def convertStop (into : E → E₁) : PResult S Unit E → PResult S Unit E₁
  | .ok () r => .ok () r
  | .err e u => .err (into e) u

section
variable [ParseError E₁] {st : IterState σ S O E}

theorem tryMapEach_iteration {into : E → E₁} {f : O → Except E₁ T} {x : σ} {s t : S} {ws : List T}
    {o : Run (PResult S Unit E₁)} :
    Iteration (st.tryMapEach into f) x s ws t o ↔ ∃ vs, vs.map f = ws.map .ok ∧
      ((∃ o', Iteration st x s vs t o' ∧ o = (do return convertStop into (← o'))) ∨
       ∃ x' x'' v r e, IterRun st x s vs x' t ∧ st.next x' t = pure (.ok (some v) r, x'') ∧ f v = .error e ∧
         o = pure (if shouldTerminate e then .err e ⟨r⟩ else .ok () r)) := by
  have hs : ∀ {x s o}, Stops st x s o → Stops (st.tryMapEach into f) x s (do return convertStop into (← o)) := by
    intro x s o h
    cases h with
    | ended h => exact .ended (by simp only [IterState.tryMapEach, h]; rfl)
    | failed h => exact .failed (by simp only [IterState.tryMapEach, h]; rfl)
    | faulted h => exact .faulted (by simp only [IterState.tryMapEach, h]; rfl)
    | hung h => exact .hung (by simp only [IterState.tryMapEach, h]; rfl)
  have hok : ∀ {x s v r x' w}, st.next x s = pure (.ok (some v) r, x') → f v = .ok w →
      (st.tryMapEach into f).next x s = pure (.ok (some w) r, x') := by
    intro x s v r x' w h hv
    simp only [IterState.tryMapEach, h, Run.pure_bind', hv]; rfl
  have herr : ∀ {x s v r x' e}, st.next x s = pure (.ok (some v) r, x') → f v = .error e →
      (st.tryMapEach into f).next x s =
        pure (if shouldTerminate e then (.err e ⟨r⟩, x') else (.ok none r, x')) := by
    intro x s v r x' e h hv
    simp only [IterState.tryMapEach, h, Run.pure_bind', hv]
    by_cases he : shouldTerminate e = true
    · rw [if_pos he, if_pos he]; rfl
    · rw [if_neg he, if_neg he]; rfl
  have hstop : ∀ {x s v r x' e}, st.next x s = pure (.ok (some v) r, x') → f v = .error e →
      Stops (st.tryMapEach into f) x s (pure (if shouldTerminate e then .err e ⟨r⟩ else .ok () r)) := by
    intro x s v r x' e h hv
    have h1 := herr h hv
    by_cases he : shouldTerminate e = true
    · rw [if_pos he] at h1 ⊢; exact .failed h1
    · rw [if_neg he] at h1 ⊢; exact .ended h1
  have hr : ∀ {x s vs ws x' t}, IterRun st x s vs x' t → vs.map f = ws.map .ok →
      IterRun (st.tryMapEach into f) x s ws x' t := by
    intro x s vs ws x' t h hm
    induction h generalizing ws with
    | nil => cases ws with
      | nil => exact .nil _ _
      | cons => simp at hm
    | cons h _ ih => cases ws with
      | nil => simp at hm
      | cons w ws =>
        simp at hm
        exact .cons (hok h hm.1) (ih hm.2)
  have hinv : ∀ {x s ws x' t}, IterRun (st.tryMapEach into f) x s ws x' t →
      ∃ vs, vs.map f = ws.map .ok ∧ IterRun st x s vs x' t := by
    intro x s ws x' t h
    induction h with
    | nil => exact ⟨[], rfl, .nil _ _⟩
    | @cons x x₁ x' s r t v vs h _ ih =>
      obtain ⟨vs', hm, h1⟩ := ih
      have hb := h
      simp only [IterState.tryMapEach, Run.bind_eq_pure] at h
      obtain ⟨⟨⟨_ | w, r'⟩ | _, y⟩, h2, h3⟩ := h
      · simp [Run.pure_eq, done] at h3
      · cases hv : f w with
        | ok w' =>
          rw [hok h2 hv] at hb
          simp at hb
          obtain ⟨⟨rfl, rfl⟩, rfl⟩ := hb
          exact ⟨w :: vs', by simp [hm, hv], .cons h2 h1⟩
        | error e =>
          rw [herr h2 hv] at hb
          by_cases he : shouldTerminate e = true <;> simp [he] at hb
      · simp [Run.pure_eq] at h3
  constructor
  · rintro ⟨x', h1, h2⟩
    obtain ⟨vs, hm, h3⟩ := hinv h1
    refine ⟨vs, hm, ?_⟩
    cases hn : st.next x' t using Run.casesRun with
    | ret res =>
      obtain ⟨⟨_ | v, r⟩ | ⟨e, u⟩, y⟩ := res
      · exact .inl ⟨_, ⟨x', h3, .ended hn⟩, h2.det (hs (.ended hn))⟩
      · cases hv : f v with
        | error e => exact .inr ⟨x', y, v, r, e, h3, hn, hv, h2.det (hstop hn hv)⟩
        | ok w => exact (h2.no_item (hok hn hv)).elim
      · exact .inl ⟨_, ⟨x', h3, .failed hn⟩, h2.det (hs (.failed hn))⟩
    | fault f => exact .inl ⟨_, ⟨x', h3, .faulted hn⟩, h2.det (hs (.faulted hn))⟩
    | diverge => exact .inl ⟨_, ⟨x', h3, .hung hn⟩, h2.det (hs (.hung hn))⟩
  · rintro ⟨vs, hm, ⟨o', ⟨x', h1, h2⟩, rfl⟩ | ⟨x', x'', v, r, e, h1, h2, h3, rfl⟩⟩
    · exact ⟨x', hr h1 hm, hs h2⟩
    · exact ⟨x', hr h1 hm, hstop h2 h3⟩

end

/-- C32: `try_map_each` yields the accepted items; it stops as the underlying iteration does (errors converted), or at the
first rejected item: with that error if it terminates, as an end otherwise. -/
theorem C32_try_map_each [ParseError E₁] (p : IterParser σ σ₁ S O E) (into : E → E₁) (f : O → Except E₁ T) (s t : S)
    (ws : List T) (o : Run (PResult S Unit E₁)) :
    (Iteration (p.tryMapEach into f).iter (p.tryMapEach into f).iter.init s ws t o ↔ ∃ vs, vs.map f = ws.map .ok ∧
      ((∃ o', Iteration p.iter p.iter.init s vs t o' ∧ o = (do return convertStop into (← o'))) ∨
       ∃ x' x'' v r e, IterRun p.iter p.iter.init s vs x' t ∧ p.iter.next x' t = pure (.ok (some v) r, x'') ∧
         f v = .error e ∧ o = pure (if shouldTerminate e then .err e ⟨r⟩ else .ok () r))) ∧
    (Iteration (p.tryMapEach into f).once (p.tryMapEach into f).once.init s ws t o ↔ ∃ vs, vs.map f = ws.map .ok ∧
      ((∃ o', Iteration p.once p.once.init s vs t o' ∧ o = (do return convertStop into (← o'))) ∨
       ∃ x' x'' v r e, IterRun p.once p.once.init s vs x' t ∧ p.once.next x' t = pure (.ok (some v) r, x'') ∧
         f v = .error e ∧ o = pure (if shouldTerminate e then .err e ⟨r⟩ else .ok () r))) :=
  ⟨tryMapEach_iteration, tryMapEach_iteration⟩

/-! ## C33: optional as an iterative parser -/

section
variable [RewindSequence S] [L : RewindLaw S] [ParseError E]

theorem optional_iterates {f : S → Run (PResult S O E)} (hf : Descends f) (s : S) :
    let st : IterState Bool S O E := { init := true, next := optionalNext f }
    (∀ v r, f s = pure (.ok v r) → Iteration st true s [v] r (pure (.ok () r))) ∧
    (∀ e u, f s = pure (.err e u) → shouldTerminate e = false → Iteration st true s [] s (pure (.ok () s))) ∧
    (∀ e u, f s = pure (.err e u) → shouldTerminate e = true → Iteration st true s [] s (pure (.err e u))) ∧
    (∀ ft, f s = Run.fault ft → Iteration st true s [] s (Run.fault ft)) ∧
    (f s = Run.diverge → Iteration st true s [] s Run.diverge) := by
  intro st
  have hoff : ∀ r, st.next false r = pure (.ok none r, false) := fun r => rfl
  refine ⟨?_, ?_, ?_, ?_, ?_⟩
  · intro v r h
    exact ⟨false, .cons (x₁ := false) (by simp [st, optionalNext, h, done]) (.nil _ _), .ended (hoff r)⟩
  · intro e u h he
    have hw : u.rewind (anchor s) = pure s := L.rewind (hf.err h)
    exact ⟨true, .nil _ _, .ended (x' := false) (by simp [st, optionalNext, h, he, hw, done])⟩
  · intro e u h he
    exact ⟨true, .nil _ _, .failed (x' := false) (by simp [st, optionalNext, h, he])⟩
  · intro ft h
    exact ⟨true, .nil _ _, .faulted (by simp [st, optionalNext, h])⟩
  · intro h
    exact ⟨true, .nil _ _, .hung (by simp [st, optionalNext, h])⟩

/-- C33: iterating `p.optional()`, by `parse_iterative` or `parse_iterative_once`, yields the value once and ends right
after it; a recoverable failure yields no item at the original place; a fatal one fails. -/
theorem C33_optional (p : Parser S O E) (hp : Descends p.parse) (ho : Descends p.parseOnce) (s : S) :
    ((∀ v r, p.parse s = pure (.ok v r) →
        Iteration p.optionalIter.iter p.optionalIter.iter.init s [v] r (pure (.ok () r))) ∧
     (∀ e u, p.parse s = pure (.err e u) → shouldTerminate e = false →
        Iteration p.optionalIter.iter p.optionalIter.iter.init s [] s (pure (.ok () s))) ∧
     (∀ e u, p.parse s = pure (.err e u) → shouldTerminate e = true →
        Iteration p.optionalIter.iter p.optionalIter.iter.init s [] s (pure (.err e u)))) ∧
    ((∀ v r, p.parseOnce s = pure (.ok v r) →
        Iteration p.optionalIter.once p.optionalIter.once.init s [v] r (pure (.ok () r))) ∧
     (∀ e u, p.parseOnce s = pure (.err e u) → shouldTerminate e = false →
        Iteration p.optionalIter.once p.optionalIter.once.init s [] s (pure (.ok () s))) ∧
     (∀ e u, p.parseOnce s = pure (.err e u) → shouldTerminate e = true →
        Iteration p.optionalIter.once p.optionalIter.once.init s [] s (pure (.err e u)))) := by
  obtain ⟨h1, h2, h3, -⟩ := optional_iterates hp s
  obtain ⟨h4, h5, h6, -⟩ := optional_iterates ho s
  exact ⟨⟨h1, h2, h3⟩, ⟨h4, h5, h6⟩⟩

omit L in
theorem optional_spent {f : S → Run (PResult S O E)} {s : S} {res : PResult S (Option O) E} {me : Bool}
    (h : optionalNext f true s = pure (res, me)) (r : S) : optionalNext f me r = pure (.ok none r, me) := by
  have hme : (optionalNext f true s).Ensures (fun res => res.2 = false) := by
    refine Run.ensures_ite (fun _ => Run.ensures_pure.mpr rfl) (fun _ => ?_)
    refine Run.ensures_bind fun res h => ?_
    cases res with
    | ok v r => exact Run.ensures_pure.mpr rfl
    | err e u =>
      exact Run.ensures_ite (fun _ => Run.ensures_pure.mpr rfl)
        (fun _ => Run.ensures_bind fun _ _ => Run.ensures_pure.mpr rfl)
  have hme : me = false := hme _ h
  subst hme
  rfl

omit L in
/-- C33: after the first call, however it went, every further call ends at the place it is given; for both iterations. -/
theorem C33_optional_once (p : Parser S O E) (s : S) (res : PResult S (Option O) E) (me : Bool) (r : S) :
    (p.optionalIter.iter.next p.optionalIter.iter.init s = pure (res, me) →
      p.optionalIter.iter.next me r = pure (.ok none r, me)) ∧
    (p.optionalIter.once.next p.optionalIter.once.init s = pure (res, me) →
      p.optionalIter.once.next me r = pure (.ok none r, me)) :=
  ⟨fun h => optional_spent h r, fun h => optional_spent h r⟩

/-! ## C34: repeat().collect() -/

omit L in
theorem repeat_run {f : S → Run (PResult S O E)} {s t : S} {vs : List O} :
    IterRun { init := (), next := repeatNext f } () s vs () t ↔ RunOf f s vs t := by
  constructor
  · intro h
    suffices H : ∀ x x', IterRun { init := (), next := repeatNext f } x s vs x' t → RunOf f s vs t from H _ _ h
    clear h
    intro x x' h
    induction h with
    | nil => exact .nil _
    | @cons x x₁ x' s r t v vs h _ ih =>
      refine .cons ?_ ih
      have h : repeatNext f x s = _ := h
      rw [repeatNext, Run.bind_eq_pure] at h
      obtain ⟨⟨v, r⟩ | ⟨e, u⟩, h1, h2⟩ := h
      · simp [Run.pure_eq, done] at h2
        obtain ⟨rfl, rfl⟩ := h2
        exact h1
      · exfalso
        by_cases he : shouldTerminate e = true
        · simp [he, Run.pure_eq, fail] at h2
        · simp only [he] at h2
          rw [if_neg (by simp), Run.bind_eq_ret] at h2
          obtain ⟨w, -, h2⟩ := h2
          simp [Run.pure_eq, done] at h2
  · intro h
    induction h with
    | nil => exact .nil _ _
    | cons h _ ih =>
      refine .cons (x₁ := ()) ?_ ih
      show repeatNext f () _ = _
      rw [repeatNext, h]; rfl

/-- How `repeat` and the collected iteration of `repeat` relate. -/
theorem repeat_stops {f : S → Run (PResult S O E)} (hf : Descends f) {s : S} {o : Run (PResult S Unit E)} :
    Stops { init := (), next := repeatNext f } () s o ↔
      (∃ e u, f s = pure (.err e u) ∧ o = pure (if shouldTerminate e then .err e u else .ok () s)) ∨
      (∃ ft, f s = Run.fault ft ∧ o = Run.fault ft) ∨ (f s = Run.diverge ∧ o = Run.diverge) := by
  have herr : ∀ {e u}, f s = pure (.err e u) → Stops { init := (), next := repeatNext f } () s
      (pure (if shouldTerminate e then .err e u else .ok () s)) := by
    intro e u h
    by_cases he : shouldTerminate e = true
    · rw [if_pos he]
      refine .failed (x' := ()) ?_
      show repeatNext f () _ = _
      rw [repeatNext, h]; simp [he, fail]
    · rw [if_neg he]
      refine .ended (x' := ()) ?_
      have hw : u.rewind (anchor s) = pure s := L.rewind (hf.err h)
      show repeatNext f () _ = _
      rw [repeatNext, h]; simp [he, hw, done]
  have hft : ∀ {ft}, f s = Run.fault ft → Stops { init := (), next := repeatNext f } () s (Run.fault ft) := by
    intro ft h
    refine .faulted ?_
    show repeatNext f () _ = _
    rw [repeatNext, h]; rfl
  have hdv : f s = Run.diverge → Stops { init := (), next := repeatNext f } () s Run.diverge := by
    intro h
    refine .hung ?_
    show repeatNext f () _ = _
    rw [repeatNext, h]; rfl
  constructor
  · intro h
    cases hs : f s using Run.casesRun with
    | ret res =>
      cases res with
      | ok v r =>
        refine (h.no_item (v := v) (r := r) (x' := ()) ?_).elim
        show repeatNext f () _ = _
        rw [repeatNext, hs]; rfl
      | err e u => exact .inl ⟨e, u, rfl, h.det (herr hs)⟩
    | fault ft => exact .inr (.inl ⟨ft, rfl, h.det (hft hs)⟩)
    | diverge => exact .inr (.inr ⟨rfl, h.det (hdv hs)⟩)
  · rintro (⟨e, u, h, rfl⟩ | ⟨ft, h, rfl⟩ | ⟨h, rfl⟩)
    · exact herr h
    · exact hft h
    · exact hdv h

variable (p : Parser S O E)

/-- C34: unless an iteration fails fatally (and then `repeat` fails), collecting the iteration of `repeat` and `repeat`
give the same items and the same rest, panic alike and hang alike. -/
theorem C34_collect_repeat (hp : Descends p.parse) (s : S) (hnf : ∀ e u, p.repeat.parse s ≠ pure (.err e u)) :
    p.repeatIter.collectVec.parse s = (do
      match ← p.repeat.parse s with
      | .ok (vs, _) r => return .ok (vs, none) r
      | .err e u => return .err e u) := by
  have hd := descendsIter_repeat hp
  have hcol : ∀ {vs t o}, RunOf p.parse s vs t → Stops { init := (), next := repeatNext p.parse } () t o →
      p.repeatIter.collectVec.parse s = (do return collectStop vs t (← o)) := by
    intro vs t o h1 h2
    have h3 := collectLoop_iteration hd (extend := fun c v => c ++ [v]) ⟨(), repeat_run.mpr h1, h2⟩ []
    rw [foldl_push] at h3
    exact h3
  have hrep : ∀ {vs t}, RunOf p.parse s vs t → p.repeat.parse s = repeatLoop p.parse vs t := by
    intro vs t h; show repeatLoop _ _ _ = _; rw [repeatLoop_run [] h]; simp
  rcases iteration_or_endless { init := (), next := repeatNext p.parse } () s with ⟨vs, t, o, ⟨⟩, h1, h2⟩ | he
  · have h1 := repeat_run.mp h1
    rw [hcol h1 h2]
    have hr := hrep h1
    rcases (repeat_stops hp).mp h2 with ⟨e, u, h3, rfl⟩ | ⟨ft, h3, rfl⟩ | ⟨h3, rfl⟩
    · by_cases hte : shouldTerminate e = true
      · exact absurd (hr.trans (repeatLoop_fatal _ h3 hte)) (hnf e u)
      · have hte : shouldTerminate e = false := by simpa using hte
        rw [hr, repeatLoop_end hp _ h3 hte]
        simp [hte, collectStop]
    · rw [hr, repeatLoop, h3]; rfl
    · rw [hr, repeatLoop, h3]; rfl
  · have h1 : p.repeat.parse s = Run.diverge := by
      refine (C18_repeat_diverges p hp s).mpr (.inl fun n => ?_)
      obtain ⟨vs, ⟨⟩, t, h1, h2⟩ := he n
      exact ⟨vs, t, repeat_run.mp h1, h2⟩
    rw [h1]
    exact collectLoop_endless he _

/-- C34, the remaining case: a fatal failure is where they part. `repeat` fails, `collect` succeeds (C22). -/
theorem C34_fatal (hp : Descends p.parse) (s t : S) (vs : List O) (e : E) (u : UnknownLocation S)
    (h1 : RunOf p.parse s vs t) (h2 : p.parse t = pure (.err e u)) (he : shouldTerminate e = true) :
    p.repeat.parse s = pure (.err e u) ∧ p.repeatIter.collectVec.parse s = pure (.ok (vs, some e) t) := by
  refine ⟨(C17_repeat_fails p hp s e u).mpr ⟨vs, t, h1, h2, he⟩, ?_⟩
  refine (C22_exact _ (descendsIter_repeat hp) s).2 vs t e u ⟨(), repeat_run.mpr h1, ?_⟩
  have := (repeat_stops hp (s := t) (o := pure (.err e u))).mpr (.inl ⟨e, u, h2, by simp [he]⟩)
  exact this

end

/-! ## C35: where fold and collect stop -/

/-- The full claim of C35. -/
def C35Statement : Prop :=
  ∀ {σ σ₁ S O E A : Type} [RewindSequence S] [RewindLaw S] (p : IterParser σ σ₁ S O E), DescendsIter p.iter →
    ∀ (init : A) (f : A → O → A) (s : S) (a : A) (r : S), (p.fold init f).parse s = pure (.ok a r) →
    ∃ vs, p.collectVec.parse s = pure (.ok (vs, none) r)

/-- C35, exactly: when the iteration ends, `fold` leaves the input where the last step ended, `collect` where it began. -/
theorem C35_exact [RewindSequence S] [RewindLaw S] (p : IterParser σ σ₁ S O E) (hd : DescendsIter p.iter)
    (init : A) (f : A → O → A) (s t r : S) (vs : List O) (h : Iteration p.iter p.iter.init s vs t (pure (.ok () r))) :
    (p.fold init f).parse s = pure (.ok (vs.foldl f init) r) ∧ p.collectVec.parse s = pure (.ok (vs, none) t) :=
  ⟨(C26_fold_succeeds p init f s _ r).1.mpr ⟨vs, t, h, rfl⟩, (collectLoop_ret hd).mpr ⟨vs, t, _, h, rfl⟩⟩

/-- A step that yields no item leaves the input where it was. -/
def EndsInPlace (st : IterState σ S O E) : Prop :=
  ∀ x s r x', st.next x s = pure (.ok none r, x') → r = s

/-- Iterations of `optional` and `repeat`, and `&p`, `map_each`, `scan`, `take` of them. Not `map_while` and
`try_map_each`, which consume the item they reject. -/
inductive NonRejecting {S : Type} [RewindSequence S] [RewindLaw S] :
    {σ σ₁ O E : Type} → IterParser σ σ₁ S O E → Prop where
  | optional {O E : Type} [ParseError E] {p : Parser S O E} : Descends p.parse → NonRejecting p.optionalIter
  | repeat {O E : Type} [ParseError E] {p : Parser S O E} : Descends p.parse → NonRejecting p.repeatIter
  | byRef {σ σ₁ O E : Type} {p : IterParser σ σ₁ S O E} : NonRejecting p → NonRejecting p.byRef
  | mapEach {σ σ₁ O E T : Type} {p : IterParser σ σ₁ S O E} (f : O → T) : NonRejecting p → NonRejecting (p.mapEach f)
  | scan {σ σ₁ O E T St : Type} {p : IterParser σ σ₁ S O E} (init : St) (f : St → O → T × St) :
      NonRejecting p → NonRejecting (p.scan init f)
  | take {σ σ₁ O E : Type} {p : IterParser σ σ₁ S O E} (n : Nat) : NonRejecting p → NonRejecting (p.take n)

theorem nonRejecting_inPlace [RewindSequence S] [L : RewindLaw S] {p : IterParser σ σ₁ S O E} (h : NonRejecting p) :
    EndsInPlace p.iter ∧ DescendsIter p.iter := by
  induction h with
  | @optional O E _ p hp =>
    refine ⟨?_, descendsIter_optional hp⟩
    intro x s r x' h
    have h : optionalNext p.parse x s = _ := h
    revert h
    have : (optionalNext p.parse x s).Ensures (fun res => ∀ r, res.1 = .ok none r → r = s) := by
      refine Run.ensures_ite (fun _ => Run.ensures_pure.mpr ?_) (fun _ => ?_)
      · intro r h; simp [done] at h; exact h.symm
      refine Run.ensures_bind fun res h => ?_
      cases res with
      | ok v r => exact Run.ensures_pure.mpr (by intro r h; simp [done] at h)
      | err e u =>
        refine Run.ensures_ite (fun _ => Run.ensures_pure.mpr (by intro r h; simp at h)) (fun _ => ?_)
        have hw : u.rewind (anchor s) = pure s := L.rewind (hp.err h)
        rw [hw]
        exact Run.ensures_pure.mpr (by intro r h; simp [done] at h; exact h.symm)
    intro h
    exact this _ h r rfl
  | @«repeat» O E _ p hp =>
    refine ⟨?_, descendsIter_repeat hp⟩
    intro x s r x' h
    have h : repeatNext p.parse x s = _ := h
    revert h
    have : (repeatNext p.parse x s).Ensures (fun res => ∀ r, res.1 = .ok none r → r = s) := by
      refine Run.ensures_bind fun res h => ?_
      cases res with
      | ok v r => exact Run.ensures_pure.mpr (by intro r h; simp [done] at h)
      | err e u =>
        refine Run.ensures_ite (fun _ => Run.ensures_pure.mpr (by intro r h; simp [fail] at h)) (fun _ => ?_)
        have hw : u.rewind (anchor s) = pure s := L.rewind (hp.err h)
        rw [hw]
        exact Run.ensures_pure.mpr (by intro r h; simp [done] at h; exact h.symm)
    intro h
    exact this _ h r rfl
  | byRef _ ih => exact ih
  | @mapEach σ σ₁ O E T p f _ ih =>
    constructor
    · intro x s r x' h
      simp only [IterParser.mapEach, IterState.mapEach, Run.bind_eq_pure] at h
      obtain ⟨⟨⟨_ | w, r'⟩ | _, y⟩, h2, h3⟩ := h <;> simp [Run.pure_eq] at h3
      rw [← h3.1]
      exact ih.1 _ _ _ _ h2
    · intro x s res h
      simp only [IterParser.mapEach, IterState.mapEach, Run.bind_eq_pure] at h
      obtain ⟨⟨⟨w, r'⟩ | _, y⟩, h2, h3⟩ := h <;>
        (simp [Run.pure_eq] at h3; rw [← h3]; exact ih.2 _ _ _ h2)
  | @scan σ σ₁ O E T St p init f _ ih =>
    constructor
    · rintro ⟨x, a⟩ s r x' h
      simp only [IterParser.scan, IterState.scan, Run.bind_eq_pure] at h
      obtain ⟨⟨⟨_ | w, r'⟩ | _, y⟩, h2, h3⟩ := h <;> simp [Run.pure_eq, done] at h3
      rw [← h3.1]
      exact ih.1 _ _ _ _ h2
    · rintro ⟨x, a⟩ s res h
      simp only [IterParser.scan, IterState.scan, Run.bind_eq_pure] at h
      obtain ⟨⟨⟨_ | w, r'⟩ | _, y⟩, h2, h3⟩ := h <;>
        (simp [Run.pure_eq, done] at h3; rw [← h3]; exact ih.2 _ _ _ h2)
  | @take σ σ₁ O E p n _ ih =>
    constructor
    · rintro ⟨x, m⟩ s r x' h
      by_cases h0 : m = 0
      · have h1 : (p.take n).iter.next (x, m) s = _ := if_pos h0
        rw [h1] at h
        simp [done] at h
        exact h.1.symm
      · have h1 : (p.take n).iter.next (x, m) s = _ := if_neg h0
        rw [h1, Run.bind_eq_pure] at h
        obtain ⟨⟨⟨_ | w, r'⟩ | _, y⟩, h2, h3⟩ := h <;> simp [Run.pure_eq, done] at h3
        rw [← h3.1]
        exact ih.1 _ _ _ _ h2
    · rintro ⟨x, m⟩ s res h
      by_cases h0 : m = 0
      · have h1 : (p.take n).iter.next (x, m) s = _ := if_pos h0
        rw [h1] at h
        simp [done] at h
        rw [← h]
        exact L.refl s
      · have h1 : (p.take n).iter.next (x, m) s = _ := if_neg h0
        rw [h1, Run.bind_eq_pure] at h
        obtain ⟨⟨⟨_ | w, r'⟩ | _, y⟩, h2, h3⟩ := h <;>
          (simp [Run.pure_eq, done] at h3; rw [← h3]; exact ih.2 _ _ _ h2)

/-- C35, partial: they stop at the same place for iterative parsers built without `map_while` and `try_map_each`.
Missing: those two, for which C35 is false. -/
theorem C35_partial [RewindSequence S] [RewindLaw S] {p : IterParser σ σ₁ S O E} (hp : NonRejecting p)
    (init : A) (f : A → O → A) (s : S) (a : A) (r : S) (h : (p.fold init f).parse s = pure (.ok a r)) :
    ∃ vs, p.collectVec.parse s = pure (.ok (vs, none) r) := by
  obtain ⟨h1, h2⟩ := nonRejecting_inPlace hp
  obtain ⟨vs, t, h3, rfl⟩ := (C26_fold_succeeds p init f s a r).1.mp h
  have h4 := (C35_exact p h2 init f s t r vs h3).2
  obtain ⟨x', -, h5⟩ := h3
  generalize ho : (pure (.ok () r) : Run (PResult S Unit E)) = o at h5
  cases h5 with
  | ended h => simp at ho; subst ho; exact ⟨vs, by rw [h1 _ _ _ _ h]; exact h4⟩
  | failed h => simp at ho
  | faulted h => simp at ho
  | hung h => simp at ho

/-- A char, then stop: `any_char().repeat().map_while(|_| None)`. -/
def rejecting : IterParser Unit Unit StrRef Unit (Miss Unit) := (anyChar (S := StrRef)).repeatIter.mapWhile fun _ => none

theorem rejecting_descends : DescendsIter rejecting.iter := by
  intro x s res h
  have hd := descendsIter_repeat (tidy_iff.mp (tidy_anyChar (S := StrRef))).1
  simp only [rejecting, IterParser.mapWhile, IterState.mapWhile, Run.bind_eq_pure] at h
  obtain ⟨⟨⟨w, r'⟩ | _, y⟩, h2, h3⟩ := h <;>
    (simp [Run.pure_eq] at h3; rw [← h3]; exact hd _ _ _ h2)

theorem rejecting_iterates : let s : StrRef := { alloc := 1, off := 0, text := ⟨['a']⟩ }
    ∃ r, content r = [] ∧ Iteration rejecting.iter rejecting.iter.init s [] s (pure (.ok () r)) := by
  intro s
  obtain ⟨r, h1, h2⟩ := (C09_any_char s).1 'a' [] rfl
  refine ⟨r, h2, (C31_map_while _ _ _ _ _ _).1.mpr ⟨[], rfl, .inr ⟨(), (), 'a', r, .nil _ _, ?_, rfl, rfl⟩⟩⟩
  show repeatNext _ () _ = _
  rw [repeatNext, h1]; rfl

/-- C35 does not hold for the code: `map_while` consumes the item it rejects, `fold` leaves it consumed, `collect` does
not. -/
theorem C35_false : ¬ C35Statement := by
  intro h
  obtain ⟨r, h1, h2⟩ := rejecting_iterates
  have hx := C35_exact rejecting rejecting_descends () (fun _ _ => ()) _ _ r [] h2
  obtain ⟨vs, h3⟩ := h rejecting rejecting_descends () (fun _ _ => ()) _ _ r hx.1
  rw [hx.2] at h3
  simp at h3
  rw [← h3.2] at h1
  exact absurd h1 (by decide)

/-! ## Non-vacuity -/

/-- `any_char().repeat()` over "ab": two items, and the iteration ends at the end of the text. -/
theorem anyChar_iterates : let s : StrRef := { alloc := 1, off := 0, text := ⟨['a', 'b']⟩ }
    ∃ t, content t = [] ∧
      Iteration (anyChar (S := StrRef)).repeatIter.iter () s ['a', 'b'] t (pure (.ok () t)) := by
  intro s
  obtain ⟨r1, h1, c1⟩ := (C09_any_char s).1 'a' ['b'] rfl
  obtain ⟨r2, h2, c2⟩ := (C09_any_char r1).1 'b' [] c1
  obtain ⟨u, h3, _⟩ := (C09_any_char r2).2 c2
  have hd := (tidy_iff.mp (tidy_anyChar (S := StrRef))).1
  exact ⟨r2, c2, (), repeat_run.mpr (.cons h1 (.cons h2 (.nil _))),
    (repeat_stops hd).mpr (.inl ⟨_, u, h3, rfl⟩)⟩

/-- The theorems above, met by that iteration: fold, collect, take, map_each, scan, map_while, try_map_each. -/
example : let s : StrRef := { alloc := 1, off := 0, text := ⟨['a', 'b']⟩ }
    let p : IterParser Unit Unit StrRef Char (Miss Unit) := anyChar.repeatIter
    ∃ t, content t = [] ∧
      (p.fold 0 (fun n c => 10 * n + c.toNat)).parse s = pure (.ok 1068 t) ∧
      p.collectVec.parse s = pure (.ok (['a', 'b'], none) t) ∧
      (∃ r o, Iteration (p.take 1).iter (p.take 1).iter.init s ['a'] r o) ∧
      Iteration (p.mapEach Char.toNat).iter (p.mapEach Char.toNat).iter.init s [97, 98] t (pure (.ok () t)) ∧
      Iteration (p.scan 5 fun n c => (n + c.toNat, n + 1)).iter (p.scan 5 fun n c => (n + c.toNat, n + 1)).iter.init s
        [102, 104] t (pure (.ok () t)) ∧
      (∃ r o, Iteration (p.mapWhile fun c => if c = 'a' then some 1 else none).iter () s [1] r o) ∧
      (∃ r o, Iteration (p.tryMapEach id fun c => if c = 'a' then .ok 1 else .error ⟨()⟩).iter () s [1] r o) := by
  intro s p
  obtain ⟨t, hc, h⟩ := anyChar_iterates
  have hd := descendsIter_repeat (tidy_iff.mp (tidy_anyChar (S := StrRef))).1
  refine ⟨t, hc, ?_, ?_, ?_, ?_, ?_, ?_, ?_⟩
  · exact (C26_fold_succeeds p _ _ s _ t).1.mpr ⟨_, t, h, rfl⟩
  · exact (C27_collect_vec p hd hd s _).1.mpr ⟨_, t, _, h, rfl⟩
  · obtain ⟨x', h1, h2⟩ := h
    cases h1 with
    | @cons x x₁ x' s r t v vs h3 h4 =>
      exact ⟨r, _, (C28_take p 1 s r _ _).1.mpr (.inl ⟨rfl, ⟨x₁, .cons h3 (.nil _ _)⟩, rfl⟩)⟩
  · exact (C29_map_each p _ s t _ _).1.mpr ⟨_, rfl, h⟩
  · exact (C30_scan p _ _ s t _ _).1.mpr ⟨_, rfl, h⟩
  · obtain ⟨x', h1, h2⟩ := h
    cases h1 with
    | cons h3 h4 =>
      cases h4 with
      | cons h5 h6 =>
        exact ⟨_, _, (C31_map_while p _ s _ _ _).1.mpr
          ⟨['a'], rfl, .inr ⟨_, _, 'b', _, .cons h3 (.nil _ _), h5, rfl, rfl⟩⟩⟩
  · obtain ⟨x', h1, h2⟩ := h
    cases h1 with
    | cons h3 h4 =>
      cases h4 with
      | cons h5 h6 =>
        exact ⟨_, _, (C32_try_map_each p _ _ s _ _ _).1.mpr
          ⟨['a'], rfl, .inr ⟨_, _, 'b', _, ⟨()⟩, .cons h3 (.nil _ _), h5, rfl, rfl⟩⟩⟩

/-- C33, C34: the parsers they are about include `any_char`, whose `parse` and `parse_once` descend. -/
example : Descends (anyChar (S := StrRef)).parse ∧ Descends (anyChar (S := StrRef)).parseOnce ∧
    NonRejecting ((anyChar (S := StrRef)).repeatIter.take 3) := by
  have hd := (tidy_iff.mp (tidy_anyChar (S := StrRef))).1
  exact ⟨hd, hd, .take 3 (.repeat hd)⟩

end Parcom
