import Verif.Props.Sequence
/-!
# C05 for every meter

`C05_measured_lockstep` (`Verif.Props.Sequence`) is about meters for which it does not matter how a text is cut. Any other
meter is fed with the pieces that were advanced over, one by one and in order, those that a `rewind` has taken back left out.
-/
namespace Parcom
open Spec

section
variable {S Seg Item μ : Type} [Sequence S Seg] [ItemSegment Seg Item] [RewindSequence S]

/-- Every history has such a path. -/
theorem path_exists {c : S → List Item} {s : S} {h : Hist S} (hr : HistReach c s h) :
    ∃ path marks, PathReach c s h path marks ∧ marks.length = h.trail.length := by
  induction hr with
  | start => exact ⟨[], [], .start, rfl⟩
  | step _ hs ih =>
    obtain ⟨path, marks, ih, hlen⟩ := ih
    cases hs with
    | advance pre post hc ha => exact ⟨_, _, .advance ih hc ha, hlen⟩
    | mark => exact ⟨_, _, .mark ih, by simp [hlen]⟩
    | @rewind s' i a t hi hw =>
      have hlt : i < marks.length := by
        rw [hlen]
        exact (List.getElem?_eq_some_iff.mp hi).1
      exact ⟨_, _, .rewind ih hi (List.getElem?_eq_getElem hlt) hw, by simp [hlen]⟩

/-- What a measured sequence keeps along a path. -/
theorem path_metered {c : S → List Item} (meter : S → μ) (feed : μ → List Item → μ)
    (hadv : ∀ (u u' : S) (pre post : List Item), c u = pre ++ post → Sequence.advance u (extent Seg pre) = pure u' →
      c u' = post ∧ meter u' = feed (meter u) pre)
    (hrew : ∀ u t u' : S, RewindSequence.rewind u (anchor t) = pure u' → u' = t)
    {s : S} {h : Hist S} {path : List (List Item)} {marks : List (List (List Item))} (hr : PathReach c s h path marks) :
    (c s = path.flatten ++ c h.cur ∧ meter h.cur = path.foldl feed (meter s)) ∧
    ∀ (i : Nat) a t there, h.trail[i]? = some (a, t) → marks[i]? = some there →
      a = anchor t ∧ c s = there.flatten ++ c t ∧ meter t = there.foldl feed (meter s) := by
  induction hr with
  | start => exact ⟨⟨by simp, rfl⟩, by simp⟩
  | advance _ hc ha ih =>
    obtain ⟨⟨ih1, ih2⟩, ih⟩ := ih
    obtain ⟨h1, h2⟩ := hadv _ _ _ _ hc ha
    refine ⟨⟨?_, ?_⟩, ih⟩
    · simp [ih1, hc, h1]
    · simp [h2, ih2]
  | mark _ ih =>
    obtain ⟨ih0, ih⟩ := ih
    refine ⟨ih0, ?_⟩
    intro i a t there h1 h2
    cases i with
    | zero => simp at h1 h2; obtain ⟨rfl, rfl⟩ := h1; subst h2; exact ⟨rfl, ih0⟩
    | succ i => simp at h1 h2; exact ih i a t there h1 h2
  | rewind _ hi hm hw ih =>
    obtain ⟨_, ih⟩ := ih
    obtain ⟨rfl, h1⟩ := ih _ _ _ _ hi hm
    cases hrew _ _ _ hw
    refine ⟨h1, ?_⟩
    intro j a t there hj1 hj2
    simp [List.getElem?_drop] at hj1 hj2
    exact ih _ a t there hj1 hj2

end

/-- Feeding a meter piece by piece is feeding it in one go, for meters that do not mind. -/
theorem fold_additive {μ A : Type} (feed : μ → List A → μ) (hadd : ∀ m a b, feed (feed m a) b = feed m (a ++ b))
    (hnil : ∀ m, feed m [] = m) (path : List (List A)) : ∀ m, path.foldl feed m = feed m path.flatten := by
  induction path with
  | nil => intro m; simp [hnil]
  | cons a as ih => intro m; simp [ih, hadd]

/-- C05 (texts), for every meter: the metrics are those of the start meter fed with the pieces between the start and here, in
order, each piece being what one `advance` went over. -/
theorem C05_any_meter {μ M : Type} [Meter μ Str M] {s : MeasuredStr μ} {h : Hist (MeasuredStr μ)} {path : List (List Char)}
    {marks : List (List (List Char))} (hr : PathReach (fun s : MeasuredStr μ => s.base.text.chars) s h path marks) :
    s.base.text.chars = path.flatten ++ h.cur.base.text.chars ∧
      h.cur.metrics = Meter.metrics Str (path.foldl (fun m piece => Meter.advance m (⟨piece⟩ : Str)) s.meter) := by
  have := (path_metered (Seg := Str) (fun s : MeasuredStr μ => s.meter) (fun m piece => Meter.advance m (⟨piece⟩ : Str)) ?_ ?_ hr).1
  · exact ⟨this.1, by rw [MeasuredStr.metrics]; exact congrArg _ this.2⟩
  · intro u u' pre post hc ha
    rw [extent_str] at ha
    have h1 := measuredStr_advance_prefix u pre post hc
    have h2 : u.advance (byteLen pre) = pure u' := ha
    rw [h2] at h1
    simp at h1
    subst h1
    exact ⟨rfl, rfl⟩
  · intro u t u' hw
    have hw' : (pure t : Run (MeasuredStr μ)) = pure u' := hw
    simp at hw'
    exact hw'.symm

/-- C05 (slices), for every meter. -/
theorem C05_any_meter_slice {α μ M : Type} [Meter μ (List α) M] {s : MeasuredSlice α μ} {h : Hist (MeasuredSlice α μ)}
    {path : List (List α)} {marks : List (List (List α))}
    (hr : PathReach (fun s : MeasuredSlice α μ => s.base.items) s h path marks) :
    s.base.items = path.flatten ++ h.cur.base.items ∧
      h.cur.metrics = Meter.metrics (List α) (path.foldl (fun m piece => Meter.advance m piece) s.meter) := by
  have := (path_metered (Seg := List α) (fun s : MeasuredSlice α μ => s.meter) (fun m piece => Meter.advance m piece) ?_ ?_ hr).1
  · exact ⟨this.1, by rw [MeasuredSlice.metrics]; exact congrArg _ this.2⟩
  · intro u u' pre post hc ha
    rw [extent_list] at ha
    have h1 := measuredSlice_advance_prefix u pre post hc
    have h2 : u.advance pre.length = pure u' := ha
    rw [h2] at h1
    simp at h1
    subst h1
    exact ⟨rfl, rfl⟩
  · intro u t u' hw
    have hw' : (pure t : Run (MeasuredSlice α μ)) = pure u' := hw
    simp at hw'
    exact hw'.symm

/-- C05 (slices), for every meter for which it does not matter how the items are cut. -/
theorem C05_slice_lockstep {α μ M : Type} [Meter μ (List α) M]
    (hadd : ∀ (m : μ) (a b : List α), Meter.advance (Meter.advance m a) b = Meter.advance m (a ++ b))
    (hnil : ∀ m : μ, Meter.advance m ([] : List α) = m) (s : MeasuredSlice α μ) (h : Hist (MeasuredSlice α μ))
    (hr : HistReach (fun s : MeasuredSlice α μ => s.base.items) s h) :
    ∃ consumed, s.base.items = consumed ++ h.cur.base.items ∧
      h.cur.metrics = Meter.metrics (List α) (Meter.advance s.meter consumed) := by
  obtain ⟨path, marks, hp, _⟩ := path_exists hr
  obtain ⟨h1, h2⟩ := C05_any_meter_slice hp
  refine ⟨path.flatten, h1, ?_⟩
  rw [h2]
  exact congrArg _ (fold_additive (fun m piece => Meter.advance m piece) hadd hnil path s.meter)

/-- Every history of a measured text or slice has a path, to which `C05_any_meter` applies. -/
theorem C05_has_path {S Seg Item : Type} [Sequence S Seg] [ItemSegment Seg Item] [RewindSequence S] {c : S → List Item} {s : S}
    {h : Hist S} (hr : HistReach c s h) : ∃ path marks, PathReach c s h path marks :=
  let ⟨path, marks, hp, _⟩ := path_exists hr
  ⟨path, marks, hp⟩

/-- A meter that minds: it counts the pieces. -/
structure Pieces where
  n : Nat
  deriving DecidableEq

instance {α : Type} : Meter Pieces (List α) Nat where
  advance p _ := ⟨p.n + 1⟩
  metrics p := p.n

/-- `[1, 2, 3]`, over `1`, an anchor, over `2`, over `3`, back to the anchor, over `2` and `3`: two pieces. -/
example : ∃ h : Hist (MeasuredSlice Nat Pieces), PathReach (fun s : MeasuredSlice Nat Pieces => s.base.items)
    { meter := ⟨0⟩, base := ⟨1, 0, [1, 2, 3]⟩ } h [[1], [2, 3]] [[[1]]] ∧ h.cur.metrics = 2 := by
  have h0 := PathReach.start (c := fun s : MeasuredSlice Nat Pieces => s.base.items) (Seg := List Nat)
    (s := { meter := ⟨0⟩, base := ⟨1, 0, [1, 2, 3]⟩ })
  have h1 := PathReach.advance (pre := [1]) (post := [2, 3]) h0 rfl (by rw [extent_list]; rfl)
  have h2 := PathReach.mark h1
  have h3 := PathReach.advance (pre := [2]) (post := [3]) h2 rfl (by rw [extent_list]; rfl)
  have h4 := PathReach.advance (pre := [3]) (post := []) h3 rfl (by rw [extent_list]; rfl)
  have h5 := PathReach.rewind (i := 0) h4 rfl rfl rfl
  have h6 := PathReach.advance (pre := [2, 3]) (post := []) h5 rfl (by rw [extent_list]; rfl)
  exact ⟨_, h6, rfl⟩

end Parcom
