import Verif.Props.Aliasing
/-!
# C121: the rules of Stacked Borrows that it is judged by
-/
namespace Parcom.Aliasing

/-- The entry that grants the access is the topmost one that can. -/
def Topmost (k : Kind) (t : Nat) (above : Stack) (g : Item) : Prop :=
  g.grants k t = true ∧ ∀ i ∈ above, i.grants k t = false

/-- `raws` are the raw pointers directly above `g`: all of them, and none if `g` is no raw pointer itself. -/
def DirectlyAbove (above raws : Stack) (g : Item) : Prop :=
  (∀ i ∈ raws, i.perm = .srw) ∧ (g.perm ≠ .srw → raws = []) ∧
    ∀ i, above.getLast? = some i → g.perm = .srw → i.perm ≠ .srw

/-- C121: what no entry grants is undefined. -/
theorem C121_not_granted (calls : List Nat) (new : Item) (t : Nat) (s : Stack) :
    ((∀ i ∈ s, i.grants .read t = false) → readStack calls t s = none) ∧
    ((∀ i ∈ s, i.grants .write t = false) → writeStack calls t s = none ∧ insertStack new t s = none) := by
  induction s with
  | nil => simp [readStack, writeStack, insertStack]
  | cons i s ih =>
    refine ⟨fun h => ?_, fun h => ⟨?_, ?_⟩⟩
    · rw [readStack, ih.1 fun j hj => h j (by simp [hj])]; simp [h i (by simp)]
    · rw [writeStack, (ih.2 fun j hj => h j (by simp [hj])).1]; simp [h i (by simp)]
    · rw [insertStack, (ih.2 fun j hj => h j (by simp [hj])).2]; simp [h i (by simp)]

/-- C121: reading ends every `&mut` above, and is undefined if one of them is an argument of a call under way. -/
theorem C121_read (calls : List Nat) (t : Nat) (above : Stack) (g : Item) (below : Stack) (h : Topmost .read t above g) :
    readStack calls t (above ++ g :: below) =
      if ∃ i ∈ above, i.perm = .unique ∧ i.guarded calls = true then none
      else some (above.map (fun i => if i.perm = .unique then { i with perm := .disabled } else i) ++ g :: below) := by
  induction above with
  | nil => simp [readStack, h.1]
  | cons i s ih =>
    have := ih ⟨h.1, fun j hj => h.2 j (by simp [hj])⟩
    rw [List.cons_append, readStack, this, if_neg (by simp [h.2 i (by simp)])]
    by_cases hs : ∃ j ∈ s, j.perm = .unique ∧ j.guarded calls = true
    · rw [if_pos hs, if_pos]
      obtain ⟨j, hj, h'⟩ := hs
      exact ⟨j, by simp [hj], h'⟩
    · rw [if_neg hs]
      by_cases hi : i.perm = .unique
      · by_cases hg : i.guarded calls = true
        · rw [if_pos ⟨i, by simp, hi, hg⟩]; simp [hi, hg]
        · rw [if_neg]
          · simp [hi, hg]
          · rintro ⟨j, hj, h1, h2⟩
            rcases List.mem_cons.mp hj with rfl | hj
            · exact hg h2
            · exact hs ⟨j, hj, h1, h2⟩
      · rw [if_neg]
        · simp [hi]
        · rintro ⟨j, hj, h1, h2⟩
          rcases List.mem_cons.mp hj with rfl | hj
          · exact hi h1
          · exact hs ⟨j, hj, h1, h2⟩

/-- Entries of raw pointers directly above a raw pointer stay when it is written through. -/
theorem writeStack_raws (calls : List Nat) (t : Nat) (raws : Stack) (g : Item) (below : Stack)
    (h : Topmost .write t raws g) (hr : ∀ i ∈ raws, i.perm = .srw) (hg : g.perm ≠ .srw → raws = []) :
    writeStack calls t (raws ++ g :: below) = some (raws ++ g :: below) := by
  induction raws with
  | nil => simp [writeStack, h.1]
  | cons i s ih =>
    have hgp : g.perm = .srw := by
      by_cases hp : g.perm = .srw
      · exact hp
      · cases hg hp
    have := ih ⟨h.1, fun j hj => h.2 j (by simp [hj])⟩ (fun j hj => hr j (by simp [hj])) (fun hn => absurd hgp hn)
    rw [List.cons_append, writeStack, this, if_neg (by simp [h.2 i (by simp)])]
    have hhead : (s ++ g :: below).head?.map Item.perm = some .srw := by
      cases s with
      | nil => simp [hgp]
      | cons j s => simp [hr j (by simp)]
    exact if_pos ⟨hr i (by simp), rfl, hhead⟩

theorem insertStack_raws (new : Item) (t : Nat) (raws : Stack) (g : Item) (below : Stack)
    (h : Topmost .write t raws g) (hr : ∀ i ∈ raws, i.perm = .srw) (hg : g.perm ≠ .srw → raws = []) :
    insertStack new t (raws ++ g :: below) = some (new :: raws ++ g :: below) := by
  induction raws with
  | nil => simp [insertStack, h.1]
  | cons i s ih =>
    have hgp : g.perm = .srw := by
      by_cases hp : g.perm = .srw
      · exact hp
      · cases hg hp
    have := ih ⟨h.1, fun j hj => h.2 j (by simp [hj])⟩ (fun j hj => hr j (by simp [hj])) (fun hn => absurd hgp hn)
    rw [List.cons_append, insertStack, this, if_neg (by simp [h.2 i (by simp)])]
    have hhead : (s ++ g :: below).head?.map Item.perm = some .srw := by
      cases s with
      | nil => simp [hgp]
      | cons j s => simp [hr j (by simp)]
    exact if_pos ⟨hr i (by simp), rfl, hhead⟩

/-- What is first in `above ++ (raws ++ g :: below)` is no raw pointer directly above others. -/
theorem last_not_raw {i : Item} {raws below : Stack} {g : Item} (hd : DirectlyAbove [i] raws g) :
    ¬ (i.perm = .srw ∧ (raws ++ g :: below).head?.map Item.perm = some .srw) := by
  rintro ⟨h1, h2⟩
  by_cases hg : g.perm = .srw
  · exact hd.2.2 i rfl hg h1
  · rw [hd.2.1 hg] at h2
    simp [hg] at h2

theorem DirectlyAbove.tail {i j : Item} {s raws : Stack} {g : Item} (h : DirectlyAbove (i :: j :: s) raws g) :
    DirectlyAbove (j :: s) raws g :=
  ⟨h.1, h.2.1, fun k hk => h.2.2 k (by simpa using hk)⟩

theorem DirectlyAbove.nil {above raws : Stack} {g : Item} (h : DirectlyAbove above raws g) : DirectlyAbove [] raws g :=
  ⟨h.1, h.2.1, by simp⟩

/-- C121: writing ends everything above but for the raw pointers directly above a raw pointer, and is undefined if something it
ends is an argument of a call under way. -/
theorem C121_write (calls : List Nat) (t : Nat) (above raws : Stack) (g : Item) (below : Stack)
    (h : Topmost .write t (above ++ raws) g) (hd : DirectlyAbove above raws g) :
    writeStack calls t (above ++ (raws ++ g :: below)) =
      if ∃ i ∈ above, i.guarded calls = true then none else some (raws ++ g :: below) := by
  induction above with
  | nil => rw [if_neg (by simp)]; exact writeStack_raws calls t raws g below h hd.1 hd.2.1
  | cons i s ih =>
    have hd' : DirectlyAbove s raws g := by cases s with
      | nil => exact hd.nil
      | cons j s => exact hd.tail
    have := ih ⟨h.1, fun j hj => h.2 j (by simp at hj ⊢; grind)⟩ hd'
    rw [List.cons_append, writeStack, this, if_neg (by simp [h.2 i (by simp)])]
    by_cases hs : ∃ j ∈ s, j.guarded calls = true
    · rw [if_pos hs, if_pos]
      obtain ⟨j, hj, h'⟩ := hs
      exact ⟨j, by simp [hj], h'⟩
    · rw [if_neg hs]
      have hno : ¬ (i.perm = .srw ∧ raws ++ g :: below = s ++ (raws ++ g :: below) ∧
          (s ++ (raws ++ g :: below)).head?.map Item.perm = some .srw) := by
        rintro ⟨h1, h2, h3⟩
        have : s = [] := by
          have := congrArg List.length h2
          simp only [List.length_append] at this
          exact List.length_eq_zero_iff.mp (by omega)
        subst this
        exact last_not_raw hd ⟨h1, h3⟩
      simp only [hno, if_false]
      by_cases hg : i.guarded calls = true
      · rw [if_pos hg, if_pos ⟨i, by simp, hg⟩]
      · rw [if_neg hg, if_neg]
        rintro ⟨j, hj, h1⟩
        rcases List.mem_cons.mp hj with rfl | hj
        · exact hg h1
        · exact hs ⟨j, hj, h1⟩

/-- C121: a raw pointer is put directly above what it is made from, or above the raw pointers directly above that. -/
theorem C121_raw (new : Item) (t : Nat) (above raws : Stack) (g : Item) (below : Stack) (hnew : new ∉ above)
    (h : Topmost .write t (above ++ raws) g) (hd : DirectlyAbove above raws g) :
    insertStack new t (above ++ (raws ++ g :: below)) = some (above ++ (new :: raws ++ g :: below)) := by
  induction above with
  | nil => exact insertStack_raws new t raws g below h hd.1 hd.2.1
  | cons i s ih =>
    have hd' : DirectlyAbove s raws g := by cases s with
      | nil => exact hd.nil
      | cons j s => exact hd.tail
    have := ih (fun h => hnew (by simp [h])) ⟨h.1, fun j hj => h.2 j (by simp at hj ⊢; grind)⟩ hd'
    rw [List.cons_append, insertStack, this, if_neg (by simp [h.2 i (by simp)])]
    have hno : ¬ (i.perm = .srw ∧ s ++ (new :: raws ++ g :: below) = new :: (s ++ (raws ++ g :: below)) ∧
        (s ++ (raws ++ g :: below)).head?.map Item.perm = some .srw) := by
      rintro ⟨h1, h2, h3⟩
      cases s with
      | nil => exact last_not_raw hd ⟨h1, h3⟩
      | cons j s =>
        simp only [List.cons_append, List.cons.injEq] at h2
        exact hnew (by simp [h2.1])
    exact if_neg hno

/-- C121: a new vector. The place it is at has its owner's tag; on the heap is exactly what `with_capacity` asked for, with the tag
of the pointer to it. -/
theorem C121_start (v : Cfg) (n b i : Nat) :
    (b = 1 ∧ v.N < n → (init v n).stacks (.heap b i) = [⟨.unique, 1, none⟩]) ∧
    (¬ (b = 1 ∧ v.N < n) → (init v n).stacks (.heap b i) = []) ∧
    ∀ l, (∀ b i, l ≠ .heap b i) → (init v n).stacks l = [⟨.unique, 0, none⟩] := by
  refine ⟨fun h => if_pos h, fun h => if_neg h, fun l hl => ?_⟩
  cases l <;> first | rfl | exact absurd rfl (hl _ _)

/-- C121: elements are somewhere exactly if there are some and they have a size, one after the other, and nowhere twice. -/
theorem C121_places (v : Cfg) (st : St) (a b c : Nat) (hab : a ≤ b) (hbc : b ≤ c) :
    ((∃ l, elems v st a b l) ↔ a < b ∧ 0 < v.size) ∧
    (∀ l, elems v st a c l ↔ elems v st a b l ∨ elems v st b c l) ∧ ∀ l, ¬ (elems v st a b l ∧ elems v st b c l) := by
  have m1 := Nat.mul_le_mul_right v.size hab
  have m2 := Nat.mul_le_mul_right v.size hbc
  by_cases h : v.N < st.cap
  · simp only [elems, h, if_true]
    refine ⟨⟨?_, fun h => ⟨.heap st.block a, rfl, Nat.le_refl _, h⟩⟩, fun l => ?_, fun l => ?_⟩
    · rintro ⟨l, hl⟩; cases l <;> simp only [heapElems] at hl; omega
    · cases l <;> simp only [heapElems, or_false]; omega
    · cases l <;> simp only [heapElems, false_and, not_false_eq_true]; omega
  · simp only [elems, h, if_false]
    refine ⟨⟨?_, fun h => ⟨.data (a * v.size), Nat.le_refl _, Nat.mul_lt_mul_of_pos_right h.1 h.2⟩⟩, fun l => ?_, fun l => ?_⟩
    · rintro ⟨l, hl⟩
      cases l <;> simp only [inlineElems] at hl
      have hlt : a * v.size < b * v.size := by omega
      exact ⟨Nat.lt_of_mul_lt_mul_right hlt, Nat.pos_of_ne_zero fun h0 => by rw [h0] at hlt; simp at hlt⟩
    · cases l <;> simp only [inlineElems, or_false]; omega
    · cases l <;> simp only [inlineElems, false_and, not_false_eq_true]; omega

/-- A case of the rules: above a raw pointer that is written through are two raw pointers, and above those a `&mut`. -/
example : Topmost .write 2 ([⟨.unique, 5, none⟩] ++ [⟨.srw, 4, none⟩, ⟨.srw, 3, none⟩]) ⟨.srw, 2, none⟩ ∧
    DirectlyAbove [⟨.unique, 5, none⟩] [⟨.srw, 4, none⟩, ⟨.srw, 3, none⟩] ⟨.srw, 2, none⟩ := by
  constructor <;> simp [Topmost, DirectlyAbove, Item.grants]

end Parcom.Aliasing
