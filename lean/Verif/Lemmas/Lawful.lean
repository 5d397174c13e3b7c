import Verif.Lemmas.Str
import Verif.Spec.Chunked
/-!
# The sequences of parcom-core satisfy the contracts
-/
namespace Parcom
open Spec Sequence

/-! ## Reading a one-segment stream -/

theorem strRef_reads (s : StrRef) {st st' : Stream StrRef} (h : Reads st st') : st.owner = s → st'.owner = s := by
  induction h with
  | refl => exact id
  | step hn _ ih =>
    intro ho
    apply ih
    simp [Sequence.next, Nodes.next] at hn
    rw [← hn.2]; exact ho

theorem sliceRef_reads {α : Type} (s : SliceRef α) {st st' : Stream (SliceRef α)} (h : Reads st st') :
    st.owner = s → st'.owner = s := by
  induction h with
  | refl => exact id
  | step hn _ ih =>
    intro ho
    apply ih
    simp [Sequence.next, Nodes.next] at hn
    rw [← hn.2]; exact ho

theorem measuredStr_reads {μ M : Type} [Meter μ Str M] (s : MeasuredStr μ) {st st' : Stream (MeasuredStr μ)}
    (h : Reads st st') : st.owner = s → st'.owner = s := by
  induction h with
  | refl => exact id
  | step hn _ ih =>
    intro ho
    apply ih
    simp [Sequence.next, Nodes.next] at hn
    rw [← hn.2]; exact ho

theorem measuredSlice_reads {α μ M : Type} [Meter μ (List α) M] (s : MeasuredSlice α μ)
    {st st' : Stream (MeasuredSlice α μ)} (h : Reads st st') : st.owner = s → st'.owner = s := by
  induction h with
  | refl => exact id
  | step hn _ ih =>
    intro ho
    apply ih
    simp [Sequence.next, Nodes.next] at hn
    rw [← hn.2]; exact ho

/-! ## `&str` -/

theorem strRef_advance_prefix (s : StrRef) (pre post : List Char) (h : s.text.chars = pre ++ post) :
    s.advance (byteLen pre) = pure { alloc := s.alloc, off := s.off + byteLen pre, text := ⟨post⟩ } := by
  simp [StrRef.advance, StrRef.getFrom, h, cutBytes_append]

instance : LawfulSequence StrRef where
  content s := s.text.chars
  segs s := [s.text]
  yields s := .seg (fun _ => ({ me := none, owner := s } : Nodes StrRef Str)) (fun _ => rfl)
    (fun _ => .done (fun _ => ({ me := none, owner := s } : Nodes StrRef Str)) (fun _ => rfl))
  concat s := by simp [ItemSegment.items]
  release s st h := by
    have : Sequence.release (S := StrRef) st = s := strRef_reads s h rfl
    rw [this]
  advance s pre post h :=
    ⟨_, by rw [extent_str]; exact strRef_advance_prefix s pre post h, rfl⟩

/-- `r` is a later part of the text `s` points to. -/
def StrRef.Desc (s r : StrRef) : Prop :=
  ∃ pre, s.text.chars = pre ++ r.text.chars ∧ r.alloc = s.alloc ∧ r.off = s.off + byteLen pre

theorem StrRef.rewind_ok {s a : StrRef} (h1 : s.alloc = a.alloc) (h2 : a.off ≤ s.off)
    (h3 : s.off ≤ a.off + byteLen a.text.chars) : s.rewind a = pure a := by
  simp only [StrRef.rewind]
  rw [if_neg (by simp [h1]), if_pos ⟨by omega, by omega⟩]

theorem StrRef.rewind_forward {s a : StrRef} (h1 : s.alloc = a.alloc) (h2 : s.off < a.off) :
    s.rewind a = Run.fault .foreignAnchor := by
  simp only [StrRef.rewind]
  rw [if_neg (by simp [h1]), if_neg (by omega)]

theorem StrRef.desc_rewind {s r : StrRef} (h : StrRef.Desc s r) : r.rewind s = pure s := by
  obtain ⟨pre, h1, h2, h3⟩ := h
  have : byteLen s.text.chars = byteLen pre + byteLen r.text.chars := by rw [h1]; simp
  simp only [StrRef.rewind]
  rw [if_neg (by simp [h2]), if_pos ⟨by omega, by omega⟩]

instance : LawfulRewind StrRef where
  Desc := StrRef.Desc
  refl s := ⟨[], by simp⟩
  trans := by
    rintro a b c ⟨p, h1, h2, h3⟩ ⟨q, g1, g2, g3⟩
    exact ⟨p ++ q, by simp [h1, g1], by rw [g2, h2], by simp; omega⟩
  release s st h := by
    have : Sequence.release (S := StrRef) st = s := strRef_reads s h rfl
    rw [this]; exact ⟨[], by simp⟩
  advance s s' pre post h h' := by
    rw [extent_str] at h'
    have h2 := strRef_advance_prefix s pre post h
    have h3 : s.advance (byteLen pre) = pure s' := h'
    rw [h3] at h2
    simp at h2
    subst h2
    exact ⟨pre, h, rfl, rfl⟩
  rewind h := StrRef.desc_rewind h

/-! ## `&[T]` -/

theorem sliceRef_advance_prefix {α : Type} (s : SliceRef α) (pre post : List α) (h : s.items = pre ++ post) :
    s.advance pre.length = pure { alloc := s.alloc, off := s.off + pre.length, items := post } := by
  simp [SliceRef.advance, h]

instance {α : Type} : LawfulSequence (SliceRef α) where
  content s := s.items
  segs s := [s.items]
  yields s := .seg (fun _ => ({ me := none, owner := s } : Nodes (SliceRef α) (List α))) (fun _ => rfl)
    (fun _ => .done (fun _ => ({ me := none, owner := s } : Nodes (SliceRef α) (List α))) (fun _ => rfl))
  concat s := by simp [ItemSegment.items]
  release s st h := by
    have : Sequence.release (S := SliceRef α) st = s := sliceRef_reads s h rfl
    rw [this]
  advance s pre post h :=
    ⟨_, by rw [extent_list]; exact sliceRef_advance_prefix s pre post h, rfl⟩

/-- `r` is a later part of the slice `s` points to. -/
def SliceRef.Desc {α : Type} (s r : SliceRef α) : Prop :=
  ∃ pre, s.items = pre ++ r.items ∧ r.alloc = s.alloc ∧ r.off = s.off + pre.length

/-- `T` is not a zero-sized type. -/
class NonZST (α : Type) [MemSize α] : Prop where
  ne : MemSize.sizeOf α ≠ 0

theorem SliceRef.rewind_ok {α : Type} [MemSize α] (hz : MemSize.sizeOf α ≠ 0) {s a : SliceRef α}
    (h1 : s.alloc = a.alloc) (h2 : a.off ≤ s.off) (h3 : s.off ≤ a.off + a.items.length) : s.rewind a = pure a := by
  simp only [SliceRef.rewind]
  rw [if_neg hz, if_neg (by simp [h1]), if_pos ⟨by omega, by omega⟩]

theorem SliceRef.rewind_forward {α : Type} [MemSize α] (hz : MemSize.sizeOf α ≠ 0) {s a : SliceRef α}
    (h1 : s.alloc = a.alloc) (h2 : s.off < a.off) : s.rewind a = Run.fault .foreignAnchor := by
  simp only [SliceRef.rewind]
  rw [if_neg hz, if_neg (by simp [h1]), if_neg (by omega)]

theorem SliceRef.desc_rewind {α : Type} [MemSize α] [NonZST α] {s r : SliceRef α} (h : SliceRef.Desc s r) :
    r.rewind s = pure s := by
  obtain ⟨pre, h1, h2, h3⟩ := h
  have : s.items.length = pre.length + r.items.length := by rw [h1]; simp
  simp only [SliceRef.rewind]
  rw [if_neg NonZST.ne, if_neg (by simp [h2]), if_pos ⟨by omega, by omega⟩]

instance {α : Type} [MemSize α] [NonZST α] : LawfulRewind (SliceRef α) where
  Desc := SliceRef.Desc
  refl s := ⟨[], by simp⟩
  trans := by
    rintro a b c ⟨p, h1, h2, h3⟩ ⟨q, g1, g2, g3⟩
    exact ⟨p ++ q, by simp [h1, g1], by rw [g2, h2], by simp; omega⟩
  release s st h := by
    have : Sequence.release (S := SliceRef α) st = s := sliceRef_reads s h rfl
    rw [this]; exact ⟨[], by simp⟩
  advance s s' pre post h h' := by
    rw [extent_list] at h'
    have h2 := sliceRef_advance_prefix s pre post h
    have h3 : s.advance pre.length = pure s' := h'
    rw [h3] at h2
    simp at h2
    subst h2
    exact ⟨pre, h, rfl, rfl⟩
  rewind h := SliceRef.desc_rewind h

/-! ## `Measured` -/

theorem measuredStr_advance_prefix {μ M : Type} [Meter μ Str M] (s : MeasuredStr μ) (pre post : List Char)
    (h : s.base.text.chars = pre ++ post) :
    s.advance (byteLen pre) = pure
      { meter := Meter.advance s.meter (⟨pre⟩ : Str)
        base := { alloc := s.base.alloc, off := s.base.off + byteLen pre, text := ⟨post⟩ } } := by
  have h1 : min (byteLen s.base.text.chars) (byteLen pre) = byteLen pre := by
    rw [h]; simp
  simp only [MeasuredStr.advance, h1, strPrefix]
  rw [h, cutBytes_append]
  simp [strRef_advance_prefix s.base pre post h]

instance {μ M : Type} [Meter μ Str M] : LawfulSequence (MeasuredStr μ) where
  content s := s.base.text.chars
  segs s := [s.base.text]
  yields s := .seg (fun _ => ({ me := none, owner := s } : Nodes (MeasuredStr μ) Str)) (fun _ => rfl)
    (fun _ => .done (fun _ => ({ me := none, owner := s } : Nodes (MeasuredStr μ) Str)) (fun _ => rfl))
  concat s := by simp [ItemSegment.items]
  release s st h := by
    have : Sequence.release (S := MeasuredStr μ) st = s := measuredStr_reads s h rfl
    rw [this]
  advance s pre post h :=
    ⟨_, by rw [extent_str]; exact measuredStr_advance_prefix s pre post h, rfl⟩

instance {μ M : Type} [Meter μ Str M] : LawfulRewind (MeasuredStr μ) where
  Desc s r := StrRef.Desc s.base r.base
  refl s := ⟨[], by simp⟩
  trans := by
    rintro a b c ⟨p, h1, h2, h3⟩ ⟨q, g1, g2, g3⟩
    exact ⟨p ++ q, by simp [h1, g1], by rw [g2, h2], by simp; omega⟩
  release s st h := by
    have : Sequence.release (S := MeasuredStr μ) st = s := measuredStr_reads s h rfl
    rw [this]; exact ⟨[], by simp⟩
  advance s s' pre post h h' := by
    rw [extent_str] at h'
    have h2 := measuredStr_advance_prefix s pre post h
    have h3 : s.advance (byteLen pre) = pure s' := h'
    rw [h3] at h2
    simp at h2
    subst h2
    exact ⟨pre, h, rfl, rfl⟩
  rewind _ := rfl

theorem measuredSlice_advance_prefix {α μ M : Type} [Meter μ (List α) M] (s : MeasuredSlice α μ) (pre post : List α)
    (h : s.base.items = pre ++ post) :
    s.advance pre.length = pure
      { meter := Meter.advance s.meter pre
        base := { alloc := s.base.alloc, off := s.base.off + pre.length, items := post } } := by
  have h1 : min s.base.items.length pre.length = pre.length := by
    rw [h]; simp
  have h2 : s.base.items.take pre.length = pre := by rw [h]; simp
  have h3 : pre.length ≤ s.base.items.length := by rw [h]; simp
  simp only [MeasuredSlice.advance, h1, slicePrefix, if_pos h3, h2]
  simp [sliceRef_advance_prefix s.base pre post h]

instance {α μ M : Type} [Meter μ (List α) M] : LawfulSequence (MeasuredSlice α μ) where
  content s := s.base.items
  segs s := [s.base.items]
  yields s := .seg (fun _ => ({ me := none, owner := s } : Nodes (MeasuredSlice α μ) (List α))) (fun _ => rfl)
    (fun _ => .done (fun _ => ({ me := none, owner := s } : Nodes (MeasuredSlice α μ) (List α))) (fun _ => rfl))
  concat s := by simp [ItemSegment.items]
  release s st h := by
    have : Sequence.release (S := MeasuredSlice α μ) st = s := measuredSlice_reads s h rfl
    rw [this]
  advance s pre post h :=
    ⟨_, by rw [extent_list]; exact measuredSlice_advance_prefix s pre post h, rfl⟩

instance {α μ M : Type} [Meter μ (List α) M] : LawfulRewind (MeasuredSlice α μ) where
  Desc s r := SliceRef.Desc s.base r.base
  refl s := ⟨[], by simp⟩
  trans := by
    rintro a b c ⟨p, h1, h2, h3⟩ ⟨q, g1, g2, g3⟩
    exact ⟨p ++ q, by simp [h1, g1], by rw [g2, h2], by simp; omega⟩
  release s st h := by
    have : Sequence.release (S := MeasuredSlice α μ) st = s := measuredSlice_reads s h rfl
    rw [this]; exact ⟨[], by simp⟩
  advance s s' pre post h h' := by
    rw [extent_list] at h'
    have h2 := measuredSlice_advance_prefix s pre post h
    have h3 : s.advance pre.length = pure s' := h'
    rw [h3] at h2
    simp at h2
    subst h2
    exact ⟨pre, h, rfl, rfl⟩
  rewind _ := rfl

/-! ## Histories -/

section
variable {S Seg Item : Type} [Sequence S Seg] [ItemSegment Seg Item] [RewindSequence S] [LawfulSequence S]
  [L : LawfulRewind S]

/-- Every anchor of the trail was taken at a sequence the current one descends from, and so on down the trail. -/
theorem hist_invariant {s : S} {h : Hist S} (hr : HistReach (content (S := S) (Item := Item)) s h) :
    L.Desc s h.cur ∧
    ∀ (i : Nat) a t, h.trail[i]? = some (a, t) → a = anchor t ∧ L.Desc s t ∧ L.Desc t h.cur ∧
      ∀ (j : Nat) b u, i ≤ j → h.trail[j]? = some (b, u) → L.Desc u t := by
  induction hr with
  | start => exact ⟨L.refl s, by simp⟩
  | @step h h' _ hs ih =>
    obtain ⟨ih0, ih⟩ := ih
    cases hs with
    | advance pre post hc ha =>
      have hd := L.advance _ _ pre post hc ha
      refine ⟨L.trans ih0 hd, ?_⟩
      intro i a t hi
      obtain ⟨h1, h2, h3, h4⟩ := ih i a t hi
      exact ⟨h1, h2, L.trans h3 hd, h4⟩
    | mark =>
      refine ⟨ih0, ?_⟩
      intro i a t hi
      cases i with
      | zero =>
        simp at hi
        obtain ⟨rfl, rfl⟩ := hi
        refine ⟨rfl, ih0, L.refl _, ?_⟩
        intro j b u _ hj
        cases j with
        | zero => simp at hj; obtain ⟨rfl, rfl⟩ := hj; exact L.refl _
        | succ j => simp at hj; exact (ih j b u hj).2.2.1
      | succ i =>
        simp at hi
        obtain ⟨h1, h2, h3, h4⟩ := ih i a t hi
        refine ⟨h1, h2, h3, ?_⟩
        intro j b u hij hj
        cases j with
        | zero => omega
        | succ j => simp at hj; exact h4 j b u (by omega) hj
    | @rewind s' i a t hi hw =>
      obtain ⟨h1, h2, h3, h4⟩ := ih i a t hi
      subst h1
      rw [L.rewind h3] at hw
      simp at hw
      subst hw
      refine ⟨h2, ?_⟩
      intro j b u hj
      simp [List.getElem?_drop] at hj
      obtain ⟨g1, g2, g3, g4⟩ := ih (i + j) b u hj
      refine ⟨g1, g2, h4 (i + j) b u (by omega) hj, ?_⟩
      intro k c v hjk hk
      simp [List.getElem?_drop] at hk
      exact g4 (i + k) c v (by omega) hk
end

end Parcom
