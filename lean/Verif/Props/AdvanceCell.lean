import Verif.Model.AdvanceCell
/-!
# C93: the `Wait` inside an `Advance` does not dangle
-/
namespace Parcom.AdvanceCell

theorem split_at {α : Type} {xs : List α} {i : Nat} {c : α} (h : xs[i]? = some c) :
    ∃ l r, xs = l ++ c :: r ∧ xs.eraseIdx i = l ++ r ∧ ∀ c', xs.set i c' = l ++ c' :: r := by
  induction xs generalizing i with
  | nil => simp at h
  | cons x xs ih =>
    cases i with
    | zero => simp at h; subst h; exact ⟨[], xs, rfl, rfl, fun _ => rfl⟩
    | succ i =>
      obtain ⟨l, r, h1, h2, h3⟩ := ih (i := i) (by simpa using h)
      exact ⟨x :: l, r, by simp [h1], by simp [h2], fun c' => by simp [h3]⟩

/-- The sequences that have an owner. -/
def owned (h : Heap) : List Nat := h.held ++ h.cells.filterMap Cell.sequence

/-- The sequences that exist are those with an owner, each has only one, and a `Wait` refers to the sequence beside it. -/
structure Sane (h : Heap) : Prop where
  nodup : (owned h).Nodup
  exist : ∀ a, h.alive a = true ↔ a ∈ owned h
  below : ∀ a ∈ owned h, a < h.next
  beside : ∀ c ∈ h.cells, c.fut = none ∨ c.fut = c.sequence

theorem Sane.alive {h : Heap} (s : Sane h) : ∀ a ∈ owned h, h.alive a = true := fun a m => (s.exist a).mpr m

theorem sane_empty : Sane Heap.empty := ⟨.nil, by simp [owned, Heap.empty], by simp [owned, Heap.empty], by simp [Heap.empty]⟩

/-- Moving sequences between owners, without dropping any. -/
theorem Sane.moved {h h' : Heap} (s : Sane h) (hp : (owned h).Perm (owned h')) (ha : h'.alive = h.alive)
    (hn : h'.next = h.next) (hb : ∀ c ∈ h'.cells, c.fut = none ∨ c.fut = c.sequence) : Sane h' where
  nodup := hp.nodup_iff.mp s.nodup
  exist a := by rw [ha, s.exist a, hp.mem_iff]
  below a m := by rw [hn]; exact s.below a (hp.mem_iff.mpr m)
  beside := hb

/-- Dropping a sequence. -/
theorem Sane.released {h h' : Heap} {s : Nat} (hs : Sane h) (hp : (owned h).Perm (s :: owned h'))
    (ha : ∀ q, h'.alive q = if q = s then false else h.alive q) (hn : h'.next = h.next)
    (hb : ∀ c ∈ h'.cells, c.fut = none ∨ c.fut = c.sequence) : Sane h' := by
  have hd := hp.nodup_iff.mp hs.nodup
  rw [List.nodup_cons] at hd
  refine ⟨hd.2, fun a => ?_, fun a m => ?_, hb⟩
  · rw [ha a]
    by_cases h : a = s
    · subst h; simp [hd.1]
    · rw [if_neg h, hs.exist a, hp.mem_iff, List.mem_cons]
      simp [h]
  · rw [hn]
    exact hs.below a (hp.mem_iff.mpr (List.mem_cons_of_mem _ m))

theorem touch_ok {h : Heap} {a : Nat} (ha : h.alive a = true) : touch a h = (.ok (), h) := by simp [touch, ha]

theorem useFut_ok {h : Heap} {f : Option Nat} (ha : ∀ a, f = some a → h.alive a = true) : useFut f h = (.ok (), h) := by
  cases f with
  | none => rfl
  | some a => exact touch_ok (ha a rfl)

/-- The outcome is not undefined, and leaves a sane heap. -/
def Good (x : Except Fault Unit × Heap) : Prop := (x.1 = .ok () ∨ x.1 = .error .assertion) ∧ Sane x.2

theorem poll_good {h : Heap} (hs : Sane h) {i : Nat} {c : Cell} (hc : h.cells[i]? = some c) (waited : Bool)
    (progress : Progress) : Good (poll i waited progress c h) := by
  obtain ⟨l, r, h1, -, h3⟩ := split_at hc
  have hmem : c ∈ h.cells := by rw [h1]; simp
  unfold poll
  cases hseq : c.sequence with
  | none => exact ⟨.inr rfl, hs⟩
  | some s =>
    have hown : s ∈ owned h := by
      simp only [owned, List.mem_append, List.mem_filterMap]
      exact .inr ⟨c, hmem, hseq⟩
    have halive := hs.alive s hown
    have hfut : ∀ a, c.fut = some a → h.alive a = true := by
      intro a ha
      rcases hs.beside c hmem with h4 | h4
      · rw [h4] at ha; cases ha
      · rw [h4, hseq] at ha; cases ha; exact halive
    simp only
    rw [Act.bind_ok (useFut_ok hfut)]
    by_cases hp : c.fut.isSome ∧ ¬ waited
    · rw [if_pos hp]
      exact ⟨.inl rfl, hs⟩
    · rw [if_neg hp]
      rw [Act.bind_ok (touch_ok halive), Act.bind_ok (useFut_ok hfut)]
      have hown' : ∀ f : Option Nat, owned { h with cells := h.cells.set i { fut := f, sequence := some s } } = owned h := by
        intro f
        show h.held ++ (h.cells.set i _).filterMap _ = h.held ++ h.cells.filterMap _
        rw [h3, h1]
        simp [hseq]
      have hsane : Sane { h with cells := h.cells.set i { fut := some s, sequence := some s } } := by
        refine hs.moved (by rw [hown']) rfl rfl ?_
        intro c' hc'
        rcases List.mem_or_eq_of_mem_set hc' with h4 | h4
        · exact hs.beside c' h4
        · subst h4; exact .inr rfl
      cases progress with
      | panics => exact ⟨.inr rfl, hsane⟩
      | more => exact ⟨.inl rfl, hsane⟩
      | finished =>
        simp only [put, Act.modify_bind_run]
        rw [Act.bind_ok (useFut_ok (f := some s) (fun a ha => by cases ha; exact halive))]
        refine ⟨.inl rfl, ?_⟩
        simp only [Act.modify_bind_run, Act.modify_run, List.set_set]
        refine hs.moved ?_ rfl rfl ?_
        · show (h.held ++ h.cells.filterMap _).Perm (h.held ++ [s] ++ (h.cells.set i _).filterMap _)
          rw [h3, h1]
          simp only [List.filterMap_append, List.filterMap_cons, hseq, List.append_assoc]
          refine List.Perm.append_left _ ?_
          exact List.perm_middle
        · intro c' hc'
          rcases List.mem_or_eq_of_mem_set hc' with h4 | h4
          · exact hs.beside c' h4
          · subst h4; exact .inl rfl

theorem use_good {h : Heap} (hs : Sane h) (u : Use) : Good (u.run h) := by
  cases u with
  | new =>
    refine ⟨.inl rfl, ?_⟩
    have hp : ((h.next :: owned h)).Perm (owned { h with
        alive := fun q => if q = h.next then true else h.alive q, next := h.next + 1, held := h.held ++ [h.next] }) := by
      show (h.next :: (h.held ++ _)).Perm (h.held ++ [h.next] ++ _)
      rw [List.append_assoc]
      exact List.perm_middle.symm
    refine ⟨hp.nodup_iff.mp (List.nodup_cons.mpr ⟨fun hm => Nat.lt_irrefl _ (hs.below _ hm), hs.nodup⟩), ?_, ?_, hs.beside⟩
    · intro a
      show (if a = h.next then true else h.alive a) = true ↔ _
      refine Iff.trans ?_ hp.mem_iff
      rw [List.mem_cons]
      by_cases hne : a = h.next
      · simp [hne]
      · rw [if_neg hne, hs.exist a]; simp [hne]
    · intro a ha
      show a < h.next + 1
      have := hp.mem_iff.mpr ha
      rw [List.mem_cons] at this
      rcases this with rfl | this
      · omega
      · have := hs.below a this; omega
  | advance i =>
    simp only [Use.run, Act.get_bind_run]
    cases hi : h.held[i]? with
    | none => exact ⟨.inl rfl, hs⟩
    | some s =>
      obtain ⟨l, r, h1, h2, -⟩ := split_at hi
      refine ⟨.inl rfl, hs.moved ?_ rfl rfl ?_⟩
      · show (h.held ++ h.cells.filterMap _).Perm (h.held.eraseIdx i ++ (h.cells ++ [_]).filterMap _)
        rw [h2, h1]
        simp only [List.filterMap_append, List.append_assoc, List.cons_append]
        refine List.Perm.append_left _ ?_
        rw [← List.append_assoc]
        exact (List.perm_append_singleton s _).symm
      · intro c hc
        rcases List.mem_append.mp hc with hc | hc
        · exact hs.beside c hc
        · simp at hc; subst hc; exact .inl rfl
  | poll i waited progress =>
    simp only [Use.run, Act.get_bind_run]
    cases hi : h.cells[i]? with
    | none => exact ⟨.inl rfl, hs⟩
    | some c => exact poll_good hs hi waited progress
  | dropCell i =>
    simp only [Use.run, Act.get_bind_run]
    cases hi : h.cells[i]? with
    | none => exact ⟨.inl rfl, hs⟩
    | some c =>
      obtain ⟨l, r, h1, h2, -⟩ := split_at hi
      have hmem : c ∈ h.cells := by rw [h1]; simp
      simp only [Act.modify_bind_run]
      unfold dropCell
      have hfut : ∀ a, c.fut = some a → h.alive a = true := by
        intro a ha
        rcases hs.beside c hmem with h4 | h4
        · rw [h4] at ha; cases ha
        · refine hs.alive a ?_
          simp only [owned, List.mem_append, List.mem_filterMap]
          exact .inr ⟨c, hmem, by rw [← h4, ha]⟩
      rw [Act.bind_ok (useFut_ok (h := { h with cells := h.cells.eraseIdx i }) hfut)]
      have hb : ∀ c' ∈ h.cells.eraseIdx i, c'.fut = none ∨ c'.fut = c'.sequence :=
        fun c' hc' => hs.beside c' (List.mem_of_mem_eraseIdx hc')
      cases hseq : c.sequence with
      | none =>
        refine ⟨.inl rfl, hs.moved ?_ rfl rfl hb⟩
        show (h.held ++ h.cells.filterMap _).Perm (h.held ++ (h.cells.eraseIdx i).filterMap _)
        rw [h2, h1]
        simp [hseq]
      | some s =>
        refine ⟨.inl rfl, hs.released (s := s) ?_ (fun _ => rfl) rfl hb⟩
        show (h.held ++ h.cells.filterMap _).Perm (s :: (h.held ++ (h.cells.eraseIdx i).filterMap _))
        rw [h2, h1]
        simp only [List.filterMap_append, List.filterMap_cons, hseq]
        rw [← List.append_assoc, ← List.append_assoc]
        exact List.perm_middle
  | dropSequence i =>
    simp only [Use.run, Act.get_bind_run]
    cases hi : h.held[i]? with
    | none => exact ⟨.inl rfl, hs⟩
    | some s =>
      obtain ⟨l, r, h1, h2, -⟩ := split_at hi
      simp only [Act.modify_bind_run]
      refine ⟨.inl rfl, hs.released (s := s) ?_ (fun _ => rfl) rfl hs.beside⟩
      show (h.held ++ _).Perm (s :: (h.held.eraseIdx i ++ _))
      rw [h2, h1, List.append_assoc, List.append_assoc]
      exact List.perm_middle

theorem uses_good (us : List Use) {h : Heap} (hs : Sane h) :
    (∀ r ∈ (uses us h).1, r = .ok () ∨ r = .error .assertion) ∧ Sane (uses us h).2 := by
  induction us generalizing h with
  | nil => exact ⟨by simp [uses], hs⟩
  | cons u us ih =>
    obtain ⟨h1, h2⟩ := use_good hs u
    obtain ⟨h3, h4⟩ := ih h2
    refine ⟨?_, h4⟩
    intro r hr
    simp only [uses, List.mem_cons] at hr
    rcases hr with rfl | hr
    · exact h1
    · exact h3 r hr

/-! ## C93 -/

/-- C93: whatever is done with sequences and their `Advance` futures, in any order, with panics caught, the reference in
a `Wait` is never used after its sequence is gone. -/
theorem C93_no_dangling_use (us : List Use) : .error .ub ∉ (uses us Heap.empty).1 := by
  intro h
  rcases (uses_good us sane_empty).1 _ h with h | h <;> simp at h

/-- C93, at rest: the `Wait` in a future refers to the sequence in the same future, which exists. -/
theorem C93_beside (us : List Use) {c : Cell} (hc : c ∈ (uses us Heap.empty).2.cells) {a : Nat} (ha : c.fut = some a) :
    c.sequence = some a ∧ (uses us Heap.empty).2.alive a = true := by
  have hs := (uses_good us sane_empty).2
  rcases hs.beside c hc with h | h
  · rw [h] at ha; cases ha
  · rw [ha] at h
    refine ⟨h.symm, hs.alive a ?_⟩
    simp only [owned, List.mem_append, List.mem_filterMap]
    exact .inr ⟨c, hc, h.symm⟩

/-- C93: a sequence has one owner at a time, and exists exactly as long as it has one: none is dropped twice, or never. -/
theorem C93_one_owner (us : List Use) : ((uses us Heap.empty).2.held ++ (uses us Heap.empty).2.cells.filterMap Cell.sequence).Nodup ∧
    ∀ a, (uses us Heap.empty).2.alive a = true ↔
      a ∈ (uses us Heap.empty).2.held ++ (uses us Heap.empty).2.cells.filterMap Cell.sequence :=
  have hs := (uses_good us sane_empty).2
  ⟨hs.nodup, hs.exist⟩

/-- C93: polling again after `Ready` panics, and changes nothing. -/
theorem C93_after_ready (h : Heap) (i : Nat) (c : Cell) (hc : h.cells[i]? = some c) (hr : c.sequence = none) (waited : Bool)
    (progress : Progress) : (Use.poll i waited progress).run h = (.error .assertion, h) := by
  simp only [Use.run, Act.get_bind_run, hc]
  simp [poll, hr]

/-- Non-vacuity of C93: an advance that waits, goes on, panics, is polled again and finishes, is polled once more, and is
dropped; its sequence is advanced again and that future dropped while it waits. -/
example : (uses [.new, .advance 0, .poll 0 true .more, .poll 0 false .more, .poll 0 true .panics, .poll 0 true .finished,
    .poll 0 true .more, .advance 0, .poll 1 true .more, .dropCell 1, .dropCell 0] Heap.empty).1 =
    [.ok (), .ok (), .ok (), .ok (), .error .assertion, .ok (), .error .assertion, .ok (), .ok (), .ok (), .ok ()] := rfl

end Parcom.AdvanceCell
