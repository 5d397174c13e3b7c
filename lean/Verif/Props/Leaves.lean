import Verif.Props.Atom
import Verif.Props.Nesting
/-!
# C24 for `atom`

`atom` is a leaf for `C24_locations_rewindable` too: on items always, and on texts that come in one piece. (On a text cut into
pieces it may advance to the inside of a char, see C12; where that leads is up to the sequence.)
-/
namespace Parcom
open Spec

variable {S O E : Type}

theorem lastPiece_le (ls : List Nat) : ∀ n, lastPiece ls n ≤ n := by
  induction ls with
  | nil => intro n; exact Nat.le_refl _
  | cons l ls ih =>
    intro n
    rw [lastPiece]
    split
    · exact Nat.le_refl _
    · exact Nat.le_trans (ih _) (Nat.sub_le _ _)

/-- On items. -/
theorem tidy_atomItems {α : Type} [DecidableEq α] [Sequence S (List α)] [RewindSequence S] [L : LawfulSequence S]
    [LawfulRewind S] (p : List α) : Tidy (atom (S := S) p).parse := by
  refine tidy_primitive fun s => ?_
  have hconc : (segs s).flatten = content s := by
    have := L.concat s
    rw [List.flatMap_def, show ItemSegment.items = (id : List α → List α) from rfl, List.map_id] at this
    exact this
  obtain ⟨st, h1, h2⟩ := atomLoop_slices p (L.yields s)
  refine ⟨st, h1, ?_⟩
  have hseg : L.segs s = segs s := rfl
  rw [hseg, hconc] at h2
  have h3 : (atom p).parse s = atomLoop p (Sequence.segments s) := rfl
  by_cases h : p <+: content s ∧ segs s ≠ []
  · left
    rw [if_pos h] at h2
    have hle : lastPiece ((segs s).map List.length) p.length ≤ (content s).length :=
      Nat.le_trans (lastPiece_le _ _) h.1.length_le
    refine ⟨(content s).take (lastPiece ((segs s).map List.length) p.length),
      (content s).drop (lastPiece ((segs s).map List.length) p.length), (), by simp, ?_⟩
    rw [h3, h2, extent_list, List.length_take, Nat.min_eq_left hle]
    rfl
  · right
    rw [if_neg h] at h2
    exact ⟨_, h3.trans h2⟩

/-- On a text that comes in one piece. -/
theorem tidy_atomText [Sequence S Str] [RewindSequence S] [L : LawfulSequence S] [R : LawfulRewind S]
    (hone : ∀ s : S, ∃ t, segs s = [t]) (p : Str) : Tidy (atom (S := S) p).parse := by
  intro s
  obtain ⟨t, ht⟩ := hone s
  have hconc : t.chars = content s := by
    have h : (segs s).flatMap Str.chars = content s := L.concat s
    rw [ht] at h
    simpa using h
  obtain ⟨st, h1, h2, h3, h4⟩ := atomLoop_texts p (L.yields s)
  have hseg : L.segs s = [t] := ht
  rw [hseg] at h2 h3 h4
  simp only [List.map_cons, List.map_nil, List.flatten_cons, List.flatten_nil, List.append_nil] at h2 h3 h4
  have hd := R.release s st h1
  have he : (atom p).parse s = atomLoop p (Sequence.segments s) := rfl
  rw [he]
  by_cases ha : AlignedIn [t.chars] p.chars
  · by_cases hp : p.chars <+: t.chars
    · obtain ⟨post, hpost⟩ := hp
      have hlp : lastPiece [textBytes t.chars] (textBytes p.chars) = extent Str p.chars := by
        have hle : textBytes p.chars ≤ textBytes t.chars := by
          rw [← hpost, textBytes_eq, textBytes_eq]; simp
        rw [lastPiece, if_pos hle, extent_str, textBytes_eq]
      have hc : content (Sequence.release st) = p.chars ++ post := by
        rw [show content (Sequence.release st) = content s from L.release s st h1, ← hconc, hpost]
      obtain ⟨s', hs', _⟩ := L.advance (Sequence.release st) p.chars post hc
      rw [h2 ⟨post, hpost⟩ (by simp), hlp, hs']
      exact ⟨Run.ensures_pure.mpr (R.trans hd (R.advance _ _ _ _ hc hs')), Run.avoids_pure⟩
    · rw [h3 (fun h => hp h.1) ha]
      exact ⟨Run.ensures_pure.mpr hd, Run.avoids_pure⟩
  · rw [h4 ha]
    refine ⟨fun res h => by simp at h, fun f hf h => ?_⟩
    simp at h
    rcases hf with rfl | rfl | rfl <;> simp at h

/-- The primitive parsers on texts. -/
inductive TextLeaf {S : Type} [Sequence S Str] : {O E : Type} → Parser S O E → Prop where
  | any : TextLeaf anyChar
  | the (c : Char) : TextLeaf (theChar c)
  | atom (p : Str) : TextLeaf (Parcom.atom p)

/-- The primitive parsers on items. -/
inductive ItemLeaf {S α : Type} [DecidableEq α] [Sequence S (List α)] : {O E : Type} → Parser S O E → Prop where
  | any : ItemLeaf anyItem
  | the (x : α) : ItemLeaf (theItem x)
  | atom (p : List α) : ItemLeaf (Parcom.atom p)

/-- C24 on texts: in every grammar over the primitive parsers, on a text in one piece, every location can be rewound, and no
rewind goes wrong on the way. -/
theorem C24_texts [Sequence S Str] [RewindSequence S] [LawfulSequence S] [LawfulRewind S] (hone : ∀ s : S, ∃ t, segs s = [t])
    {p : Parser S O E} (h : Built TextLeaf p) (s : S) :
    (∀ v r, p.parse s = pure (.ok v r) → RewindSequence.rewind r (anchor s) = pure s) ∧
    (∀ e u, p.parse s = pure (.err e u) → u.rewind (anchor s) = pure s) ∧
    p.parse s ≠ Run.fault .foreignAnchor ∧ p.parse s ≠ Run.fault .ub ∧ p.parse s ≠ Run.fault .zeroSized := by
  refine C24_locations_rewindable (Leaf := TextLeaf) ?_ h s
  intro O E p hp
  cases hp with
  | any => exact tidy_iff.mp tidy_anyChar
  | the c => exact tidy_iff.mp (tidy_theChar c)
  | atom p => exact tidy_iff.mp (tidy_atomText hone p)

/-- C24 on items, however they are cut. -/
theorem C24_items {α : Type} [DecidableEq α] [Sequence S (List α)] [RewindSequence S] [LawfulSequence S] [LawfulRewind S]
    {p : Parser S O E} (h : Built (ItemLeaf (α := α)) p) (s : S) :
    (∀ v r, p.parse s = pure (.ok v r) → RewindSequence.rewind r (anchor s) = pure s) ∧
    (∀ e u, p.parse s = pure (.err e u) → u.rewind (anchor s) = pure s) ∧
    p.parse s ≠ Run.fault .foreignAnchor ∧ p.parse s ≠ Run.fault .ub ∧ p.parse s ≠ Run.fault .zeroSized := by
  refine C24_locations_rewindable (Leaf := ItemLeaf (α := α)) ?_ h s
  intro O E p hp
  cases hp with
  | any => exact tidy_iff.mp tidy_anyItem
  | the x => exact tidy_iff.mp (tidy_theItem x)
  | atom p => exact tidy_iff.mp (tidy_atomItems p)

/-- `&str` and measured texts come in one piece. -/
theorem strRef_one (s : StrRef) : ∃ t, segs s = [t] := ⟨_, rfl⟩
theorem measuredStr_one {μ M : Type} [Meter μ Str M] (s : MeasuredStr μ) : ∃ t, segs s = [t] := ⟨_, rfl⟩

/-- A grammar with an `atom` in it. -/
example : Built (S := StrRef) TextLeaf (((atom ⟨"let".toList⟩).or (theChar 'x')).repeat.join anyChar.optional) :=
  .join (.repeat (.or (.leaf (.atom _)) (.leaf (.the 'x')))) (.optional (.leaf .any))

end Parcom
