import Verif.Props.Iterative
/-!
# C22, C26, C27, C28, C34, C35 for `parse_once` and `parse_iterative_once`
-/
namespace Parcom
open Spec

variable {σ σ₁ S O E A C : Type}

/-- C26 for `parse_once`: `fold` adds no panic and no hang of its own. -/
theorem C26_once_stuck (p : IterParser σ σ₁ S O E) (init : A) (f : A → O → A) (s : S) (ft : Fault) :
    ((p.fold init f).parseOnce s = Run.fault ft ↔ ∃ vs t, Iteration p.once p.once.init s vs t (Run.fault ft)) ∧
    ((p.fold init f).parseOnce s = Run.diverge ↔
      Endless p.once p.once.init s ∨ ∃ vs t, Iteration p.once p.once.init s vs t Run.diverge) :=
  ⟨foldLoop_fault, foldLoop_diverge⟩

/-- C27 for `parse_once`, any collection. -/
theorem C27_once_any [RewindSequence S] [RewindLaw S] (p : IterParser σ σ₁ S O E) (hd : DescendsIter p.once) (dflt : C)
    (extend : C → O → C) (s t : S) (vs : List O) (stop : PResult S Unit E)
    (h : Iteration p.once p.once.init s vs t (pure stop)) :
    (p.collect dflt extend).parseOnce s =
      pure (.ok (vs.foldl extend dflt, match stop with | .ok _ _ => none | .err e _ => some e) t) := by
  cases stop <;> exact C27_collect_any ⟨p.once, p.once⟩ hd dflt extend s t vs _ h

/-- C27 for `parse_once`: `collect` adds no panic and no hang of its own. -/
theorem C27_once_stuck [RewindSequence S] [RewindLaw S] (p : IterParser σ σ₁ S O E) (hd : DescendsIter p.once) (dflt : C)
    (extend : C → O → C) (s : S) (ft : Fault) :
    ((p.collect dflt extend).parseOnce s = Run.fault ft ↔ ∃ vs t, Iteration p.once p.once.init s vs t (Run.fault ft)) ∧
    ((p.collect dflt extend).parseOnce s = Run.diverge ↔
      Endless p.once p.once.init s ∨ ∃ vs t, Iteration p.once p.once.init s vs t Run.diverge) :=
  ⟨collectLoop_fault hd, collectLoop_diverge hd⟩

/-- C28 for `parse_iterative_once`: `take` ends even when the underlying items do not. -/
theorem C28_once_ends (p : IterParser σ σ₁ S O E) (n : Nat) (s : S) :
    ∃ vs t o, Iteration (p.take n).once (p.take n).once.init s vs t o :=
  C28_take_ends ⟨p.once, p.once⟩ n s

/-- C22 for `parse_once`: `collect` never fails; a failed iteration is a success that carries the error. -/
theorem C22_once_exact [RewindSequence S] [RewindLaw S] (p : IterParser σ σ₁ S O E) (hd : DescendsIter p.once) (s : S) :
    (∀ e u, p.collectVec.parseOnce s ≠ pure (.err e u)) ∧
    ∀ vs t e u, Iteration p.once p.once.init s vs t (pure (.err e u)) →
      p.collectVec.parseOnce s = pure (.ok (vs, some e) t) :=
  C22_exact ⟨p.once, p.once⟩ hd s

/-- C34 for `parse_once`. -/
theorem C34_once_collect [RewindSequence S] [RewindLaw S] [ParseError E] (p : Parser S O E) (hp : Descends p.parse) (s : S)
    (hnf : ∀ e u, p.repeat.parseOnce s ≠ pure (.err e u)) :
    p.repeatIter.collectVec.parseOnce s = (do
      match ← p.repeat.parseOnce s with
      | .ok (vs, _) r => return .ok (vs, none) r
      | .err e u => return .err e u) :=
  C34_collect_repeat p hp s hnf

/-- C35 for `parse_once`, exactly. -/
theorem C35_once_exact [RewindSequence S] [RewindLaw S] (p : IterParser σ σ₁ S O E) (hd : DescendsIter p.once)
    (init : A) (f : A → O → A) (s t r : S) (vs : List O) (h : Iteration p.once p.once.init s vs t (pure (.ok () r))) :
    (p.fold init f).parseOnce s = pure (.ok (vs.foldl f init) r) ∧ p.collectVec.parseOnce s = pure (.ok (vs, none) t) :=
  C35_exact ⟨p.once, p.once⟩ hd init f s t r vs h

/-- The chars of "ab", by `parse_once`: the theorems above, met. -/
example : let s : StrRef := { alloc := 1, off := 0, text := ⟨['a', 'b']⟩ }
    let p : IterParser Unit Unit StrRef Char (Miss Unit) := anyChar.repeatIter
    ∃ t, content t = [] ∧ (p.fold 0 (fun n c => 10 * n + c.toNat)).parseOnce s = pure (.ok 1068 t) ∧
      p.collectVec.parseOnce s = pure (.ok (['a', 'b'], none) t) ∧
      (p.collect 0 (fun n c => 10 * n + c.toNat)).parseOnce s = pure (.ok (1068, none) t) := by
  intro s p
  obtain ⟨t, hc, h⟩ := anyChar_iterates
  have hd := descendsIter_repeat (tidy_iff.mp (tidy_anyChar (S := StrRef))).1
  have := C35_once_exact p hd 0 (fun n c => 10 * n + c.toNat) s t t _ h
  exact ⟨t, hc, this.1, this.2, C27_once_any p hd 0 _ s t _ _ h⟩

end Parcom
