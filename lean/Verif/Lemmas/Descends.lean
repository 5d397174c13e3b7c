import Verif.Lemmas.Run
import Verif.Lemmas.Primitive
import Verif.Spec.Parsing
/-!
# Parsers whose locations descend from their input
-/
namespace Parcom
open Spec

variable {S O E σ : Type}

/-- The faults that a wrong rewind causes. -/
def RewindFault (f : Fault) : Prop := f = .foreignAnchor ∨ f = .ub ∨ f = .zeroSized

/-- A parse function that returns only locations descending from its input, and whose own code has no rewind fault. -/
def Tidy [RewindSequence S] [L : RewindLaw S] (f : S → Run (PResult S O E)) : Prop :=
  ∀ s, (f s).Ensures (fun res => L.Desc s (loc res)) ∧ (f s).Avoids RewindFault

/-- The same for iterations. -/
def TidyIter [RewindSequence S] [L : RewindLaw S] (st : IterState σ S O E) : Prop :=
  ∀ x s, (st.next x s).Ensures (fun res => L.Desc s (loc res.1)) ∧ (st.next x s).Avoids RewindFault

section
variable [RewindSequence S] [L : RewindLaw S]

theorem tidy_iff {f : S → Run (PResult S O E)} :
    Tidy f ↔ Descends f ∧ ∀ s, (f s).Avoids RewindFault := by
  constructor
  · intro h
    refine ⟨⟨?_, ?_⟩, fun s => (h s).2⟩
    · intro s v r hs; exact (h s).1 _ hs
    · intro s v r hs; exact (h s).1 _ hs
  · rintro ⟨h1, h2⟩ s
    refine ⟨?_, h2 s⟩
    intro res hres
    cases res with
    | ok v r => exact h1.ok hres
    | err e u => exact h1.err hres

theorem rewind_desc {s : S} {u : UnknownLocation S} (h : L.Desc s u.val) : u.rewind (anchor s) = pure s := L.rewind h

end

/-! ### The primitive parsers are well-behaved leaves -/

section
variable {Seg Item : Type} [Sequence S Seg] [ItemSegment Seg Item] [RewindSequence S] [LawfulSequence S]
  [R : LawfulRewind S]

/-- A parser that reads, then advances over the items of some prefix or fails in place, is tidy. -/
theorem tidy_primitive {f : S → Run (PResult S O E)}
    (h : ∀ s, ∃ st, Reads (Sequence.segments s) st ∧
      ((∃ pre post v, content s = pre ++ post ∧
        f s = (do let r ← Sequence.advance (Sequence.release st) (extent Seg pre); return .ok v r)) ∨
      (∃ e, f s = pure (.err e ⟨Sequence.release st⟩)))) : Tidy f := by
  intro s
  obtain ⟨st, hr, h⟩ := h s
  have hd := R.release s st hr
  rcases h with ⟨pre, post, v, hc, hf⟩ | ⟨e, hf⟩
  · have hc' : content (Sequence.release st) = pre ++ post := (LawfulSequence.release s st hr).trans hc
    obtain ⟨s', h1, h2⟩ := LawfulSequence.advance (Sequence.release st) pre post hc'
    have hd' := R.advance _ _ pre post hc' h1
    rw [hf, h1]
    exact ⟨Run.ensures_pure.mpr (R.trans hd hd'), Run.avoids_pure⟩
  · rw [hf]
    exact ⟨Run.ensures_pure.mpr hd, Run.avoids_pure⟩

end

section
variable [Sequence S Str] [RewindSequence S] [LawfulSequence S] [LawfulRewind S]

theorem tidy_anyChar : Tidy (anyChar (S := S)).parse := by
  refine tidy_primitive fun s => ?_
  rcases content_cases s with ⟨h1, h2, h3⟩ | ⟨es, e, x, xs, post, h1, h2, h3, h4⟩
  · obtain ⟨st, hr, h⟩ := anyCharLoop_missing h2 h3
    exact ⟨st, hr, .inr ⟨_, h⟩⟩
  · obtain ⟨st, hr, h⟩ := anyCharLoop_found h2 h3 h4
    exact ⟨st, hr, .inl ⟨[x], post, x, h1, by rw [extent_str]; exact h⟩⟩

theorem tidy_theChar (c : Char) : Tidy (theChar (S := S) c).parse := by
  refine tidy_primitive fun s => ?_
  rcases content_cases s with ⟨h1, h2, h3⟩ | ⟨es, e, x, xs, post, h1, h2, h3, h4⟩
  · obtain ⟨st, hr, h⟩ := theCharLoop_missing c h2 h3
    exact ⟨st, hr, .inr ⟨_, h⟩⟩
  · obtain ⟨st, hr, h⟩ := theCharLoop_found (c := c) h2 h3 h4
    by_cases hc : x = c
    · rw [if_pos hc] at h
      exact ⟨st, hr, .inl ⟨[x], post, (), h1, by rw [extent_str, hc]; exact h⟩⟩
    · rw [if_neg hc] at h
      exact ⟨st, hr, .inr ⟨_, h⟩⟩

end

section
variable {α : Type} [Sequence S (List α)] [RewindSequence S] [LawfulSequence S] [LawfulRewind S]

theorem tidy_anyItem : Tidy (anyItem (S := S) (α := α)).parse := by
  refine tidy_primitive fun s => ?_
  rcases content_cases s with ⟨h1, h2, h3⟩ | ⟨es, e, x, xs, post, h1, h2, h3, h4⟩
  · obtain ⟨st, hr, h⟩ := anyItemLoop_missing h2 h3
    exact ⟨st, hr, .inr ⟨_, h⟩⟩
  · have h4' : e = x :: xs := h4
    subst h4'
    obtain ⟨st, hr, h⟩ := anyItemLoop_found h2 h3
    exact ⟨st, hr, .inl ⟨[x], post, x, h1, by rw [extent_list]; exact h⟩⟩

theorem tidy_theItem [BEq α] (c : α) : Tidy (theItem (S := S) c).parse := by
  refine tidy_primitive fun s => ?_
  rcases content_cases s with ⟨h1, h2, h3⟩ | ⟨es, e, x, xs, post, h1, h2, h3, h4⟩
  · obtain ⟨st, hr, h⟩ := theItemLoop_missing c h2 h3
    exact ⟨st, hr, .inr ⟨_, h⟩⟩
  · have h4' : e = x :: xs := h4
    subst h4'
    obtain ⟨st, hr, h⟩ := theItemLoop_found (c := c) h2 h3
    by_cases hc : (x == c) = true
    · rw [if_pos hc] at h
      exact ⟨st, hr, .inl ⟨[x], post, (), h1, by rw [extent_list]; exact h⟩⟩
    · rw [if_neg hc] at h
      exact ⟨st, hr, .inr ⟨_, h⟩⟩

end

end Parcom
