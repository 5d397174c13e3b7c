import Verif.Spec.Sequence
/-!
# A reference sequence that delivers its content in several segments

Not part of /repo: it stands for any user-written `RewindSequence` and shows that the contracts of
`Verif.Spec.Sequence` are satisfiable with any segmentation, empty segments included.
-/
namespace Parcom.Spec
open Parcom Sequence

/-- Segments that can be made from items. -/
class OfItems (Seg : Type) {Item : Type} [ItemSegment Seg Item] where
  ofItems : List Item → Seg
  items_ofItems (xs : List Item) : ItemSegment.items (ofItems xs) = xs
  size_pos (x : Item) : 0 < ItemSegment.size Seg x

instance {α : Type} : OfItems (List α) where
  ofItems xs := xs
  items_ofItems _ := rfl
  size_pos _ := Nat.one_pos

instance : OfItems Str where
  ofItems xs := ⟨xs⟩
  items_ofItems _ := rfl
  size_pos c := Char.utf8Size_pos c

/-- The chunks still to come, and how much was consumed before. -/
structure Chunked (Seg Item : Type) where
  consumed : Nat
  chunks : List (List Item)
  deriving DecidableEq

/-- A partly read stream: what is left to deliver, and the sequence it reads. -/
structure ChunkedStream (Seg Item : Type) where
  left : List (List Item)
  owner : Chunked Seg Item

/-- Remove items worth `n` from the front. -/
def dropExtent (Seg : Type) {Item : Type} [ItemSegment Seg Item] : List (List Item) → Nat → Option (List (List Item))
  | cs, 0 => some cs
  | [], _ + 1 => none
  | [] :: cs, n + 1 => dropExtent Seg cs (n + 1)
  | (x :: xs) :: cs, n + 1 =>
    if ItemSegment.size Seg x ≤ n + 1 then dropExtent Seg (xs :: cs) (n + 1 - ItemSegment.size Seg x) else none
termination_by cs => (cs.length, cs.flatten.length)
decreasing_by
  all_goals simp_wf
  · left; omega
  · right; omega

variable {Seg Item : Type} [ItemSegment Seg Item] [OfItems Seg]

instance : Sequence (Chunked Seg Item) Seg where
  Stream := ChunkedStream Seg Item
  segments s := { left := s.chunks, owner := s }
  next st _ := match st.left with
    | [] => pure (none, st)
    | c :: cs => pure (some (OfItems.ofItems c), { st with left := cs })
  release st := st.owner
  advance s n := match dropExtent Seg s.chunks n with
    | some cs => pure { consumed := s.consumed + n, chunks := cs }
    | none => Run.fault .bounds

instance : RewindSequence (Chunked Seg Item) where
  Anchor := Chunked Seg Item
  anchor s := s
  rewind s a := if a.consumed ≤ s.consumed then pure a else Run.fault .foreignAnchor

omit [OfItems Seg] in
theorem dropExtent_append (cs : List (List Item)) (pre post : List Item) (hp : ∀ x : Item, 0 < ItemSegment.size Seg x)
    (h : cs.flatten = pre ++ post) : ∃ cs', dropExtent Seg cs (extent Seg pre) = some cs' ∧ cs'.flatten = post := by
  induction cs generalizing pre with
  | nil =>
    simp at h; obtain ⟨rfl, rfl⟩ := h
    exact ⟨[], by simp [extent, dropExtent]⟩
  | cons c cs ih =>
    induction c generalizing pre with
    | nil =>
      obtain ⟨cs', h1, h2⟩ := ih pre (by simpa using h)
      rcases hn : extent Seg pre with _ | n
      · have : pre = [] := by
          cases pre with
          | nil => rfl
          | cons x xs => have := hp x; simp [extent] at hn; omega
        subst this
        refine ⟨[] :: cs, by simp [dropExtent], by simpa using h⟩
      · rw [hn] at h1
        exact ⟨cs', by rw [dropExtent]; exact h1, h2⟩
    | cons x xs ihc =>
      cases pre with
      | nil => exact ⟨(x :: xs) :: cs, by simp [extent, dropExtent], by simpa using h⟩
      | cons y pre =>
        simp at h
        obtain ⟨rfl, h⟩ := h
        obtain ⟨cs', h1, h2⟩ := ihc pre (by simpa using h)
        have hx := hp x
        refine ⟨cs', ?_, h2⟩
        have he : extent Seg (x :: pre) = ItemSegment.size Seg x + extent Seg pre := by simp [extent]
        obtain ⟨n, hn⟩ : ∃ n, extent Seg (x :: pre) = n + 1 := ⟨extent Seg (x :: pre) - 1, by omega⟩
        rw [hn, dropExtent, if_pos (by omega), show n + 1 - ItemSegment.size Seg x = extent Seg pre by omega, h1]

theorem chunked_owner (s : Chunked Seg Item) {st st' : Stream (Chunked Seg Item)} (h : Reads st st') :
    st.owner = s → st'.owner = s := by
  induction h with
  | refl => exact id
  | @step st st₁ st₂ n o hn _ ih =>
    intro ho
    apply ih
    rcases hl : st.left with _ | ⟨c, cs⟩
    · simp [Sequence.next, hl] at hn; rw [← hn.2]; exact ho
    · simp [Sequence.next, hl] at hn; rw [← hn.2]; exact ho

theorem chunked_yields (cs : List (List Item)) (s : Chunked Seg Item) :
    Yields (S := Chunked Seg Item) (Seg := Seg) ({ left := cs, owner := s } : ChunkedStream Seg Item)
      (cs.map OfItems.ofItems) := by
  induction cs with
  | nil => exact .done (fun _ => ({ left := [], owner := s } : ChunkedStream Seg Item)) (fun _ => rfl)
  | cons c cs ih => exact .seg (fun _ => ({ left := cs, owner := s } : ChunkedStream Seg Item)) (fun _ => rfl) (fun _ => ih)

instance : LawfulSequence (Chunked Seg Item) where
  content s := s.chunks.flatten
  segs s := s.chunks.map OfItems.ofItems
  yields s := chunked_yields s.chunks s
  concat s := by
    induction s.chunks with
    | nil => rfl
    | cons c cs ih => simp [OfItems.items_ofItems] at ih ⊢; exact ih
  release s st h := by
    have h1 : Sequence.release (S := Chunked Seg Item) st = s := chunked_owner s h rfl
    rw [h1]
  advance s pre post h := by
    obtain ⟨cs', h1, h2⟩ := dropExtent_append s.chunks pre post (OfItems.size_pos (Seg := Seg)) h
    exact ⟨{ consumed := s.consumed + extent Seg pre, chunks := cs' }, by simp [Sequence.advance, h1], h2⟩

instance : LawfulRewind (Chunked Seg Item) where
  Desc s r := s.consumed ≤ r.consumed
  refl _ := Nat.le_refl _
  trans := Nat.le_trans
  release s st h := by
    have h1 : Sequence.release (S := Chunked Seg Item) st = s := chunked_owner s h rfl
    rw [h1]; exact Nat.le_refl _
  advance s s' pre post h h' := by
    obtain ⟨cs', h1, h2⟩ := dropExtent_append s.chunks pre post (OfItems.size_pos (Seg := Seg)) h
    simp [Sequence.advance, h1] at h'
    rw [← h']; exact Nat.le_add_right _ _
  rewind {s r} h := by
    show (if s.consumed ≤ r.consumed then pure s else Run.fault .foreignAnchor) = _
    rw [if_pos h]

end Parcom.Spec
