import Verif.Spec.Sequence
/-!
# Parsing behaviour seen from outside
-/
namespace Parcom.Spec
open Parcom

variable {S O E : Type}

/-- The location in a result. -/
def loc : PResult S O E → S
  | .ok _ r => r
  | .err _ u => u.val

/-- The locations a parse function returns are reached from its input by reading and advancing, whether it succeeds or
fails. -/
structure Descends [RewindSequence S] [L : RewindLaw S] (f : S → Run (PResult S O E)) : Prop where
  ok {s : S} {v : O} {r : S} : f s = pure (.ok v r) → L.Desc s r
  err {s : S} {e : E} {u : UnknownLocation S} : f s = pure (.err e u) → L.Desc s u.val

/-- `f` succeeds on `s` with the first value, then on its rest with the second, and so on, ending at the last sequence. -/
inductive RunOf (f : S → Run (PResult S O E)) : S → List O → S → Prop where
  | nil (s : S) : RunOf f s [] s
  | cons {s r t : S} {v : O} {vs : List O} : f s = pure (.ok v r) → RunOf f r vs t → RunOf f s (v :: vs) t

/-- Runs are determined by their length. -/
theorem RunOf.det {f : S → Run (PResult S O E)} {s t t' : S} {vs vs' : List O} (h : RunOf f s vs t)
    (h' : RunOf f s vs' t') (hl : vs.length = vs'.length) : vs = vs' ∧ t = t' := by
  induction h generalizing vs' with
  | nil s => cases h' with
    | nil => exact ⟨rfl, rfl⟩
    | cons _ _ => simp at hl
  | cons hf _ ih => cases h' with
    | nil => simp at hl
    | cons hf' hr' =>
      rw [hf] at hf'
      simp at hf'
      obtain ⟨rfl, rfl⟩ := hf'
      obtain ⟨rfl, rfl⟩ := ih hr' (by simpa using hl)
      exact ⟨rfl, rfl⟩

theorem RunOf.append {f : S → Run (PResult S O E)} {s t t' : S} {vs vs' : List O} (h : RunOf f s vs t)
    (h' : RunOf f t vs' t') : RunOf f s (vs ++ vs') t' := by
  induction h with
  | nil => exact h'
  | cons hf _ ih => exact .cons hf (ih h')

end Parcom.Spec
