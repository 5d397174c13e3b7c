import Verif.Spec.Parsing
import Verif.Lemmas.Run
import Verif.Model.Combinator
/-!
# The loop of `repeat`
-/
namespace Parcom
open Spec

variable {S O E : Type}

section
variable [RewindSequence S] [L : RewindLaw S] [ParseError E]

/-- Whatever `repeat` returns, a run of successes and a failure explain it. -/
theorem repeatLoop_sound {f : S → Run (PResult S O E)} (hf : Descends f) (buf : List O) (s : S) :
    (repeatLoop f buf s).Ensures fun res => ∃ vs t e u, RunOf f s vs t ∧ f t = pure (.err e u) ∧
      ((shouldTerminate e = true ∧ res = .err e u) ∨ (shouldTerminate e = false ∧ res = .ok (buf ++ vs, e) t)) := by
  revert buf s
  refine repeatLoop.fixpoint_induct (parse := f) (motive := fun g => ∀ buf s, Run.Ensures (g buf s) _)
    (Run.admissible_ensures₂ _) ?_
  intro g ih buf s
  refine Run.ensures_bind fun r h1 => ?_
  rcases r with ⟨v, r⟩ | ⟨e, u⟩
  · intro res h2
    obtain ⟨vs, t, e, u, hr, he, hres⟩ := ih _ _ _ h2
    exact ⟨v :: vs, t, e, u, .cons h1 hr, he, by simpa using hres⟩
  · refine Run.ensures_ite (fun ht => ?_) (fun ht => ?_)
    · exact Run.ensures_pure.mpr ⟨[], s, e, u, .nil s, h1, .inl ⟨ht, rfl⟩⟩
    · have hw : u.rewind (anchor s) = pure s := L.rewind (hf.err h1)
      rw [hw]
      exact Run.ensures_pure.mpr ⟨[], s, e, u, .nil s, h1, .inr ⟨by simpa using ht, by simp [done]⟩⟩

omit L in
/-- A run of successes unrolls `repeat`. -/
theorem repeatLoop_run {f : S → Run (PResult S O E)} (buf : List O) {s t : S} {vs : List O} (h : RunOf f s vs t) :
    repeatLoop f buf s = repeatLoop f (buf ++ vs) t := by
  induction h generalizing buf with
  | nil => simp
  | cons hf _ ih =>
    rw [repeatLoop, hf]
    simp [ih]

omit L in
theorem repeatLoop_fatal {f : S → Run (PResult S O E)} (buf : List O) {t : S} {e : E} {u : UnknownLocation S}
    (h : f t = pure (.err e u)) (he : shouldTerminate e = true) : repeatLoop f buf t = pure (.err e u) := by
  rw [repeatLoop, h]; simp [he, fail]

theorem repeatLoop_end {f : S → Run (PResult S O E)} (hf : Descends f) (buf : List O) {t : S} {e : E}
    {u : UnknownLocation S} (h : f t = pure (.err e u)) (he : shouldTerminate e = false) :
    repeatLoop f buf t = pure (.ok (buf, e) t) := by
  have hw : u.rewind (anchor t) = pure t := L.rewind (hf.err h)
  rw [repeatLoop, h]
  simp [he, hw, done]

end
end Parcom
