import Verif.Spec.AnyWriter
import Verif.Lemmas.Writer
/-!
# C125: the methods of `BufferWriter` trust the implementation
-/
namespace Parcom
open Spec
variable {σ T : Type} {b : Build} {I : Impl σ} {w w' : AnyWriter σ T}

theorem read_there {i : Nat} (h : There w i) : ∃ x, w.mem.cells i = some x ∧ w.mem.read i = Run.ret x := by
  obtain ⟨h1, x, h2⟩ := h
  exact ⟨x, h2, by unfold RawVec.read; rw [if_pos h1, h2]; rfl⟩

theorem read_notThere {i : Nat} (h : ¬ There w i) : w.mem.read i = Run.fault .ub := by
  unfold RawVec.read
  split
  · rename_i hi
    split
    · rename_i x hx; exact absurd ⟨hi, x, hx⟩ h
    · rfl
  · rfl

theorem any_readMany : ∀ (n a : Nat), (∀ i, a ≤ i → i < a + n → There w i) → ∃ xs, I.writer.readMany w a n = Run.ret xs
  | 0, _, _ => ⟨[], rfl⟩
  | n + 1, a, h => by
    obtain ⟨x, _, hx⟩ := read_there (h a (Nat.le_refl _) (by omega))
    obtain ⟨xs, hxs⟩ := any_readMany n (a + 1) fun i h1 h2 => h i (by omega) (by omega)
    refine ⟨x :: xs, ?_⟩
    show (w.mem.read a >>= _) = _
    rw [hx, Run.ret_bind, hxs, Run.ret_bind]
    rfl

theorem any_readMany_ub : ∀ (n a : Nat), (∃ i, a ≤ i ∧ i < a + n ∧ ¬ There w i) → I.writer.readMany w a n = Run.fault .ub
  | 0, _, ⟨i, h1, h2, _⟩ => by omega
  | n + 1, a, ⟨i, h1, h2, h3⟩ => by
    show (w.mem.read a >>= _) = _
    by_cases ha : There w a
    · obtain ⟨x, _, hx⟩ := read_there ha
      have : a ≠ i := fun e => h3 (e ▸ ha)
      rw [hx, Run.ret_bind, any_readMany_ub n (a + 1) ⟨i, by omega, by omega, h3⟩]
      rfl
    · rw [read_notThere ha]
      rfl

theorem any_asSlice : (∃ i, i < I.len w.state ∧ ¬ There w i) ∧ I.writer.asSlice w = Run.fault .ub ∨
    (∀ i, i < I.len w.state → There w i) ∧ ∃ xs, I.writer.asSlice w = Run.ret xs := by
  by_cases h : ∃ i, i < I.len w.state ∧ ¬ There w i
  · obtain ⟨i, h1, h2⟩ := h
    exact .inl ⟨⟨i, h1, h2⟩, any_readMany_ub _ 0 ⟨i, by omega, by omega, h2⟩⟩
  · have hn : ∀ i, i < I.len w.state → There w i := fun i hi => Classical.not_not.mp fun hc => h ⟨i, hi, hc⟩
    exact .inr ⟨hn, any_readMany _ 0 fun i _ hi => hn i (by omega)⟩

theorem any_setItem {i : Nat} {x : T} (h : There w i) (hi : i < I.len w.state) :
    ∃ mem, I.writer.setItem w i x = Run.ret { w with mem } ∧ mem.cap = w.mem.cap ∧
      ∀ j, mem.cells j = if j = i then some x else w.mem.cells j := by
  obtain ⟨y, hy, hr⟩ := read_there h
  refine ⟨{ w.mem with cells := fun j => if j = i then some x else if j = i then none else w.mem.cells j }, ?_, rfl, fun j => ?_⟩
  · show (if i < I.len w.state then _ else _) = _
    rw [if_pos hi]
    show ((w.mem.dropAt i >>= _) >>= _) = _
    unfold RawVec.dropAt
    rw [hr]
    simp only [Run.ret_bind, Run.pure_bind']
    show (RawVec.write _ i x >>= _) = _
    have hw : RawVec.write { w.mem with cells := fun j => if j = i then none else w.mem.cells j } i x = Run.ret _ :=
      write_ret (show i < w.mem.cap from h.1)
    rw [hw]
    rfl
  · show (if j = i then _ else _) = _
    split <;> rfl

theorem any_writeMany : ∀ (xs : List T) (w : AnyWriter σ T) (a : Nat), a + xs.length ≤ w.mem.cap →
    ∃ mem, I.writer.writeMany w a xs = Run.ret { w with mem } ∧ mem.cap = w.mem.cap ∧ ∀ j, j < a → mem.cells j = w.mem.cells j
  | [], w, _, _ => ⟨w.mem, rfl, rfl, fun _ _ => rfl⟩
  | x :: xs, w, a, h => by
    simp only [List.length_cons] at h
    obtain ⟨mem, h1, h2, h3⟩ := any_writeMany xs
      { w with mem := { w.mem with cells := fun j => if j = a then some x else w.mem.cells j } } (a + 1) (by
        show a + 1 + xs.length ≤ w.mem.cap
        omega)
    refine ⟨mem, ?_, h2, fun j hj => ?_⟩
    · show ((w.mem.write a x >>= _) >>= _) = _
      rw [write_ret (show a < w.mem.cap by omega)]
      simp only [Run.ret_bind, Run.pure_bind']
      exact h1
    · rw [h3 j (by omega)]
      exact if_neg (by omega)

theorem any_dropMany : ∀ (n : Nat) (w : AnyWriter σ T) (a : Nat), (∀ i, a ≤ i → i < a + n → There w i) →
    ∃ mem, I.writer.dropMany w a n = Run.ret { w with mem } ∧ mem.cap = w.mem.cap ∧ ∀ j, j < a → mem.cells j = w.mem.cells j
  | 0, w, _, _ => ⟨w.mem, rfl, rfl, fun _ _ => rfl⟩
  | n + 1, w, a, h => by
    obtain ⟨x, _, hr⟩ := read_there (h a (Nat.le_refl _) (by omega))
    obtain ⟨mem, h1, h2, h3⟩ := any_dropMany n
      { w with mem := { w.mem with cells := fun j => if j = a then none else w.mem.cells j } } (a + 1) (fun i hi hj => by
        obtain ⟨e1, y, e2⟩ := h i (by omega) (by omega)
        exact ⟨e1, y, (if_neg (by omega)).trans e2⟩)
    refine ⟨mem, ?_, h2, fun j hj => ?_⟩
    · show ((w.mem.dropAt a >>= _) >>= _) = _
      unfold RawVec.dropAt
      rw [hr]
      simp only [Run.ret_bind, Run.pure_bind']
      exact h1
    · rw [h3 j (by omega)]
      exact if_neg (by omega)

theorem any_dropMany_ub : ∀ (n : Nat) (w : AnyWriter σ T) (a : Nat), (∃ i, a ≤ i ∧ i < a + n ∧ ¬ There w i) →
    I.writer.dropMany w a n = Run.fault .ub
  | 0, _, _, ⟨i, h1, h2, _⟩ => by omega
  | n + 1, w, a, ⟨i, h1, h2, h3⟩ => by
    show ((w.mem.dropAt a >>= _) >>= _) = _
    unfold RawVec.dropAt
    by_cases ha : There w a
    · obtain ⟨x, _, hx⟩ := read_there ha
      have : a ≠ i := fun e => h3 (e ▸ ha)
      rw [hx]
      simp only [Run.ret_bind, Run.pure_bind']
      refine any_dropMany_ub n _ (a + 1) ⟨i, by omega, by omega, fun ⟨e1, y, e2⟩ => h3 ⟨e1, y, ?_⟩⟩
      exact (if_neg (Ne.symm this)).symm.trans e2
    · rw [read_notThere ha]
      rfl

/-- An operation is undefined, or panics, or returns. -/
theorem any_cases (hf : WriterFits I w) (op : SafeOp T) :
    Undefined b I w op ∧ op.run b I w = Run.fault .ub ∨
    ¬ Undefined b I w op ∧ ((∃ f, f ≠ .ub ∧ op.run b I w = Run.fault f) ∨ ∃ w', op.run b I w = Run.ret w') := by
  cases op with
  | view =>
    rcases any_asSlice (I := I) (w := w) with ⟨h, e⟩ | ⟨h, xs, e⟩
    · exact .inl ⟨h, by unfold SafeOp.run; rw [e]; rfl⟩
    · exact .inr ⟨fun ⟨i, h1, h2⟩ => h2 (h i h1), .inr ⟨w, by unfold SafeOp.run; rw [e]; rfl⟩⟩
  | assign i x =>
    rcases any_asSlice (I := I) (w := w) with ⟨h, e⟩ | ⟨h, xs, e⟩
    · exact .inl ⟨h, by unfold SafeOp.run; rw [e]; rfl⟩
    · refine .inr ⟨fun ⟨i, h1, h2⟩ => h2 (h i h1), ?_⟩
      by_cases hi : i < I.len w.state
      · obtain ⟨mem, hm, _⟩ := any_setItem (x := x) (h i hi) hi
        exact .inr ⟨_, by unfold SafeOp.run; rw [e]; simp only [Run.ret_bind]; exact hm⟩
      · refine .inl ⟨.bounds, by simp, ?_⟩
        unfold SafeOp.run
        rw [e]
        simp only [Run.ret_bind]
        show (if i < I.len w.state then _ else _) = _
        rw [if_neg hi]
  | prepare xs =>
    have hrun : (SafeOp.prepare xs).run b I w = (usizeSub b (I.capacity w.state) (I.len w.state) >>= fun len =>
        (if I.len w.state + len ≤ w.mem.cap then pure () else Run.fault .ub) >>= fun _ =>
        if xs.length ≤ len then I.writer.writeMany w (I.len w.state) xs else Run.fault .bounds) := by
      unfold SafeOp.run BufferWriter.spareCapacity
      show ((usizeSub _ _ _ >>= _) >>= _) = _
      rw [Run.bind_assoc']
      congr 1
      funext len
      show (((if I.len w.state + len ≤ w.mem.cap then pure () else Run.fault .ub) >>= _) >>= _) = _
      split <;> rfl
    rw [hrun]
    show (if I.len w.state ≤ I.capacity w.state then w.mem.cap < I.capacity w.state else b = .wrapping) ∧ _ ∨
      ¬ (if I.len w.state ≤ I.capacity w.state then w.mem.cap < I.capacity w.state else b = .wrapping) ∧ _
    by_cases hl : I.len w.state ≤ I.capacity w.state
    · rw [if_pos hl, usizeSub_ret _ hl, Run.ret_bind]
      by_cases hc : w.mem.cap < I.capacity w.state
      · exact .inl ⟨hc, by rw [if_neg (by omega)]; rfl⟩
      · refine .inr ⟨hc, ?_⟩
        rw [if_pos (by omega)]
        by_cases hx : xs.length ≤ I.capacity w.state - I.len w.state
        · obtain ⟨mem, hm, _⟩ := any_writeMany (I := I) xs w (I.len w.state) (by omega)
          exact .inr ⟨_, by rw [if_pos hx]; exact hm⟩
        · exact .inl ⟨.bounds, by simp, by rw [if_neg hx]; rfl⟩
    · rw [if_neg hl]
      cases b with
      | checked =>
        rw [usizeSub_checked (by omega)]
        exact .inr ⟨by simp, .inl ⟨.overflow, by simp, rfl⟩⟩
      | wrapping =>
        have := hf.room
        have := hf.len
        rw [usizeSub_wrapping (by omega), Run.ret_bind, if_neg (by omega)]
        exact .inl ⟨rfl, rfl⟩
  | push x =>
    show (_ ∧ _) ∧ _ ∨ ¬ (_ ∧ _) ∧ _
    by_cases hc : I.len w.state = I.capacity w.state
    · refine .inr ⟨fun h => h.1 hc, .inr ⟨w, ?_⟩⟩
      unfold SafeOp.run BufferWriter.pushItem
      show ((if I.len w.state = I.capacity w.state then _ else _) >>= _) = _
      rw [if_pos hc]
      rfl
    · have hrun : (SafeOp.push x).run b I w = (w.mem.write (I.len w.state) x >>= fun mem =>
          pure { w with mem, state := I.setLen w.state (I.len w.state + 1) }) := by
        unfold SafeOp.run BufferWriter.pushItem
        show ((if I.len w.state = I.capacity w.state then _ else _) >>= _) = _
        rw [if_neg hc]
        show (((w.mem.write (I.len w.state) x >>= _) >>= _) >>= _) = _
        simp only [Run.bind_assoc']
        rfl
      rw [hrun]
      by_cases hr : w.mem.cap ≤ I.len w.state
      · exact .inl ⟨⟨hc, hr⟩, by rw [write_ub (by omega)]; rfl⟩
      · exact .inr ⟨fun h => hr h.2, .inr ⟨_, by rw [write_ret (by omega), Run.ret_bind]; rfl⟩⟩
  | shrink n =>
    show (∃ i, _) ∧ _ ∨ ¬ (∃ i, _) ∧ _
    have hrun : (SafeOp.shrink n).run b I w = if ¬ n ≤ I.len w.state then Run.fault .assertion else
        if n = I.len w.state then Run.ret w else (I.writer.dropMany w n (I.len w.state - n) >>= fun w => I.writer.setLen w n) := by
      unfold SafeOp.run BufferWriter.shrinkTo
      show ((if ¬ n ≤ I.len w.state then _ else _) ) = _
      split
      · rfl
      · show (if n = I.len w.state then _ else _) = _
        split <;> rfl
    rw [hrun]
    by_cases h1 : n ≤ I.len w.state
    · rw [if_neg (fun h => h h1)]
      by_cases h2 : n = I.len w.state
      · rw [if_pos h2]
        exact .inr ⟨fun ⟨i, _, _, _⟩ => by omega, .inr ⟨w, rfl⟩⟩
      · rw [if_neg h2]
        by_cases h3 : ∃ i, n ≤ i ∧ i < I.len w.state ∧ ¬ There w i
        · obtain ⟨i, e1, e2, e3⟩ := h3
          exact .inl ⟨⟨i, e1, e2, e3⟩, by rw [any_dropMany_ub _ w n ⟨i, e1, by omega, e3⟩]; rfl⟩
        · obtain ⟨mem, hm, _⟩ := any_dropMany (I := I) (I.len w.state - n) w n fun i e1 e2 =>
            Classical.not_not.mp fun hc => h3 ⟨i, e1, by omega, hc⟩
          exact .inr ⟨h3, .inr ⟨_, by rw [hm]; rfl⟩⟩
    · rw [if_pos h1]
      exact .inr ⟨fun ⟨i, _, _, _⟩ => by omega, .inl ⟨.assertion, by simp, rfl⟩⟩

/-- The statement: whatever implements the trait, safe code that uses it through the methods with a body does nothing undefined. -/
def C125Statement : Prop :=
  ∀ (σ T : Type) (b : Build) (I : Impl σ) (w : AnyWriter σ T) (op : SafeOp T), WriterFits I w → op.run b I w ≠ Run.fault .ub

/-- An implementation without any memory that says it has written one item. -/
def boaster : Impl Unit := { capacity := fun _ => 1, len := fun _ => 1, setLen := fun _ _ => () }

theorem boaster_fits : WriterFits boaster ({ state := (), mem := .empty 0 } : AnyWriter Unit Nat) := ⟨by decide, by decide, by decide⟩

/-- It is not so: the trait would have to be `unsafe`. -/
theorem C125_false : ¬ C125Statement := fun h => h Unit Nat .checked boaster ⟨(), .empty 0⟩ .view boaster_fits rfl

/-- Exactly: whether an operation is undefined depends on what the implementation said; if not, it panics or returns. -/
theorem C125_exact (hf : WriterFits I w) (op : SafeOp T) :
    (op.run b I w = Run.fault .ub ↔ Undefined b I w op) ∧
    (¬ Undefined b I w op → (∃ f, f ≠ .ub ∧ op.run b I w = Run.fault f) ∨ ∃ w', op.run b I w = Run.ret w') := by
  rcases any_cases (b := b) hf op with ⟨h1, h2⟩ | ⟨h1, h2⟩
  · exact ⟨⟨fun _ => h1, fun _ => h2⟩, fun h => absurd h1 h⟩
  · refine ⟨⟨fun h => ?_, fun h => absurd h h1⟩, fun _ => h2⟩
    rcases h2 with ⟨f, e1, e2⟩ | ⟨w', e⟩
    · rw [e2] at h
      exact absurd (by simpa using h) e1
    · rw [e] at h
      simp at h

theorem honest_there {xs : List T} (h : Honest I w xs) {i : Nat} (hi : i < I.len w.state) : There w i := by
  rw [h.len] at hi
  refine ⟨Nat.lt_of_lt_of_le hi (Nat.le_trans h.fits h.room), xs[i], ?_⟩
  rw [h.items i hi, List.getElem?_eq_getElem hi]

/-- What the documentation says is all it takes, and nothing less will do. -/
theorem C125_needed (hf : WriterFits I w) : (∀ (b : Build) (op : SafeOp T), op.run b I w ≠ Run.fault .ub) ↔ ∃ xs, Honest I w xs := by
  constructor
  · intro h
    have h1 : ∀ i, i < I.len w.state → There w i := fun i hi => Classical.not_not.mp fun hc =>
      h .checked .view ((C125_exact hf .view).1.mpr ⟨i, hi, hc⟩)
    have h2 : ¬ Undefined .wrapping I w (.prepare []) := fun hc => h _ _ ((C125_exact hf _).1.mpr hc)
    have h3 : I.len w.state ≤ I.capacity w.state := by
      refine Classical.not_not.mp fun hc => h2 ?_
      show if _ then _ else _
      rw [if_neg hc]
    have h4 : I.capacity w.state ≤ w.mem.cap := by
      refine Classical.not_not.mp fun hc => h2 ?_
      show if _ then _ else _
      rw [if_pos h3]
      omega
    have hs : ∀ i, i < I.len w.state → (w.mem.cells i).isSome := fun i hi => by
      obtain ⟨_, x, hx⟩ := h1 i hi
      rw [hx]
      rfl
    have key : ∀ n, n ≤ I.len w.state → ∃ xs : List T, xs.length = n ∧ ∀ i : Nat, i < n → w.mem.cells i = xs[i]? := by
      intro n
      induction n with
      | zero => exact fun _ => ⟨[], rfl, fun i hi => absurd hi (Nat.not_lt_zero i)⟩
      | succ n ih =>
        intro hn
        obtain ⟨xs, e1, e2⟩ := ih (by omega)
        obtain ⟨_, x, hx⟩ := h1 n (by omega)
        refine ⟨xs ++ [x], by simp [e1], fun i hi => ?_⟩
        by_cases hin : i < n
        · rw [e2 i hin, List.getElem?_append_left (by omega)]
        · obtain rfl : i = n := by omega
          rw [hx, List.getElem?_append_right (by omega), e1, Nat.sub_self]
          rfl
    obtain ⟨xs, e1, e2⟩ := key _ (Nat.le_refl _)
    exact ⟨xs, e1.symm, by omega, h4, by rw [e1]; exact e2⟩
  · rintro ⟨xs, h⟩ b op hop
    have hu := (C125_exact hf op).1.mp hop
    have hl := h.len
    have hfit := h.fits
    have hroom := h.room
    cases op with
    | view => obtain ⟨i, h1, h2⟩ := hu; exact h2 (honest_there h h1)
    | assign i x => obtain ⟨i, h1, h2⟩ := hu; exact h2 (honest_there h h1)
    | prepare ys =>
      have hu : if I.len w.state ≤ I.capacity w.state then w.mem.cap < I.capacity w.state else b = .wrapping := hu
      rw [if_pos (by omega)] at hu
      omega
    | push x =>
      obtain ⟨h1, h2⟩ := hu
      omega
    | shrink n => obtain ⟨i, _, h1, h2⟩ := hu; exact h2 (honest_there h h1)

/-- The slice shows the items. -/
theorem C125_view {xs : List T} (h : Honest I w xs) : I.writer.asSlice w = Run.ret xs := by
  have key : ∀ n a, a + n = xs.length → I.writer.readMany w a n = Run.ret (xs.drop a) := by
    intro n
    induction n with
    | zero => intro a ha; rw [List.drop_eq_nil_of_le (by omega)]; rfl
    | succ n ih =>
      intro a ha
      have hi : a < xs.length := by omega
      have hr : w.mem.read a = Run.ret xs[a] := by
        unfold RawVec.read
        rw [if_pos (Nat.lt_of_lt_of_le hi (Nat.le_trans h.fits h.room)), h.items a hi, List.getElem?_eq_getElem hi]
        rfl
      show (w.mem.read a >>= _) = _
      rw [hr, Run.ret_bind, ih (a + 1) (by omega), Run.ret_bind, List.drop_eq_getElem_cons hi]
      rfl
  show I.writer.readMany w 0 (I.len w.state) = _
  rw [h.len, key _ 0 (by omega)]
  rfl

/-- `push_item` takes the item if there is room, and otherwise gives it back. -/
theorem C125_push {xs : List T} (hs : SetsLen I) (h : Honest I w xs) (x : T) :
    ∃ w', I.writer.pushItem w x = Run.ret (if xs.length < I.capacity w.state then none else some x, w') ∧
      Honest I w' (if xs.length < I.capacity w.state then xs ++ [x] else xs) ∧ I.capacity w'.state = I.capacity w.state := by
  have hl := h.len
  have hfit := h.fits
  have hroom := h.room
  unfold BufferWriter.pushItem
  by_cases hc : xs.length < I.capacity w.state
  · simp only [if_pos hc]
    obtain ⟨e1, e2⟩ := hs w.state (xs.length + 1) hc
    refine ⟨⟨I.setLen w.state (xs.length + 1), { w.mem with cells := fun j => if j = xs.length then some x else w.mem.cells j }⟩,
      ?_, ⟨?_, ?_, ?_, fun j hj => ?_⟩, e2⟩
    · show (if I.len w.state = I.capacity w.state then _ else _) = _
      rw [if_neg (by omega)]
      show ((w.mem.write (I.len w.state) x >>= _) >>= _) = _
      rw [write_ret (by omega), hl]
      rfl
    · simp [e1]
    · rw [e2]; simp; omega
    · rw [e2]; exact hroom
    · show (if j = xs.length then some x else w.mem.cells j) = _
      simp only [List.length_append, List.length_cons, List.length_nil] at hj
      split
      · rename_i e; subst e; simp
      · rw [h.items j (by omega), List.getElem?_append_left (by omega)]
  · simp only [if_neg hc]
    refine ⟨w, ?_, h, rfl⟩
    show (if I.len w.state = I.capacity w.state then _ else _) = _
    rw [if_pos (by omega)]
    rfl

/-- One operation on an honest writer. -/
theorem honest_step {xs : List T} (hs : SetsLen I) (h : Honest I w xs) (op : SafeOp T) :
    match effectOf (I.capacity w.state) xs op with
    | some ys => ∃ w', op.run b I w = Run.ret w' ∧ Honest I w' ys ∧ I.capacity w'.state = I.capacity w.state
    | none => ∃ f, f ≠ .ub ∧ op.run b I w = Run.fault f := by
  have hl := h.len
  have hfit := h.fits
  have hroom := h.room
  cases op with
  | view => exact ⟨w, by unfold SafeOp.run; rw [C125_view h]; rfl, h, rfl⟩
  | assign i x =>
    by_cases hi : i < xs.length
    · simp only [effectOf, if_pos hi]
      obtain ⟨mem, h1, h2, h3⟩ := any_setItem (I := I) (w := w) (i := i) (x := x) (honest_there h (by omega)) (by omega)
      refine ⟨{ w with mem }, by unfold SafeOp.run; rw [C125_view h]; simp only [Run.ret_bind]; exact h1, ⟨?_, ?_, ?_, fun j hj => ?_⟩, rfl⟩
      · simp [hl]
      · simp [hfit]
      · show I.capacity w.state ≤ mem.cap
        omega
      · show mem.cells j = _
        rw [List.length_set] at hj
        rw [h3, List.getElem?_set]
        by_cases hji : j = i
        · subst hji
          simp [hj]
        · rw [if_neg hji, if_neg (Ne.symm hji), h.items j hj]
    · simp only [effectOf, if_neg hi]
      refine ⟨.bounds, by simp, ?_⟩
      unfold SafeOp.run
      rw [C125_view h]
      simp only [Run.ret_bind]
      show (if i < I.len w.state then _ else _) = _
      rw [if_neg (by omega)]
  | prepare ys =>
    have hrun : (SafeOp.prepare ys).run b I w =
        if ys.length ≤ I.capacity w.state - I.len w.state then I.writer.writeMany w (I.len w.state) ys else Run.fault .bounds := by
      unfold SafeOp.run BufferWriter.spareCapacity
      show ((usizeSub _ _ _ >>= _) >>= _) = _
      rw [usizeSub_ret _ (by omega), Run.ret_bind]
      show (((if _ then pure () else Run.fault .ub) >>= _) >>= _) = _
      rw [if_pos (by omega)]
      rfl
    rw [hrun]
    by_cases hy : xs.length + ys.length ≤ I.capacity w.state
    · simp only [effectOf, if_pos hy]
      rw [if_pos (by omega)]
      obtain ⟨mem, h1, h2, h3⟩ := any_writeMany (I := I) ys w (I.len w.state) (by omega)
      refine ⟨_, h1, ⟨hl, hfit, ?_, fun j hj => ?_⟩, rfl⟩
      · show I.capacity w.state ≤ mem.cap
        omega
      · show mem.cells j = _
        rw [h3 j (by omega), h.items j hj]
    · simp only [effectOf, if_neg hy]
      exact ⟨.bounds, by simp, by rw [if_neg (by omega)]⟩
  | push x =>
    obtain ⟨w', h1, h2, h3⟩ := C125_push hs h x
    refine ⟨w', ?_, h2, h3⟩
    show (I.writer.pushItem w x >>= _) = _
    rw [h1]
    rfl
  | shrink n =>
    unfold SafeOp.run BufferWriter.shrinkTo
    by_cases hn : n ≤ xs.length
    · simp only [effectOf, if_pos hn]
      by_cases he : n = xs.length
      · refine ⟨w, ?_, ?_, rfl⟩
        · show (if ¬ n ≤ I.len w.state then _ else _) = _
          rw [if_neg (by omega)]
          show (if n = I.len w.state then _ else _) = _
          rw [if_pos (by omega)]
          rfl
        · rw [List.take_of_length_le (by omega)]
          exact h
      · obtain ⟨e1, e2⟩ := hs w.state n (by omega)
        obtain ⟨mem, h1, h2, h3⟩ := any_dropMany (I := I) (I.len w.state - n) w n fun i _ hi => honest_there h (by omega)
        refine ⟨{ state := I.setLen w.state n, mem }, ?_, ⟨?_, ?_, ?_, fun j hj => ?_⟩, e2⟩
        · show (if ¬ n ≤ I.len w.state then _ else _) = _
          rw [if_neg (by omega)]
          show (if n = I.len w.state then _ else _) = _
          rw [if_neg (by omega)]
          show (I.writer.dropMany w n (I.len w.state - n) >>= _) = _
          rw [h1]
          rfl
        · rw [e1, List.length_take]; omega
        · rw [e2, List.length_take]; omega
        · rw [e2]; show _ ≤ mem.cap; omega
        · rw [List.length_take] at hj
          show mem.cells j = _
          rw [h3 j (by omega), h.items j (by omega), List.getElem?_take_of_lt (by omega)]
    · simp only [effectOf, if_neg hn]
      refine ⟨.assertion, by simp, ?_⟩
      show (if ¬ n ≤ I.len w.state then _ else _) = _
      rw [if_pos (by omega)]
      rfl

/-- The part that holds: with an implementation that says the truth and keeps to it, nothing is undefined, whatever safe code does,
and the items written are those of a list of bounded length. -/
theorem C125_partial (hs : SetsLen I) : ∀ (ops : List (SafeOp T)) {w : AnyWriter σ T} {xs : List T}, Honest I w xs →
    ∃ w', SafeOp.runAll b I w ops = Run.ret w' ∧ Honest I w' (effects (I.capacity w.state) xs ops) ∧
      I.writer.asSlice w' = Run.ret (effects (I.capacity w.state) xs ops)
  | [], w, _, h => ⟨w, rfl, h, C125_view h⟩
  | op :: ops, w, xs, h => by
    have hstep := honest_step (b := b) hs h op
    unfold effects SafeOp.runAll
    split at hstep
    · rename_i ys hy
      obtain ⟨w', h1, h2, h3⟩ := hstep
      rw [h1, hy, ← h3]
      exact C125_partial hs ops h2
    · rename_i hy
      obtain ⟨f, h1, h2⟩ := hstep
      rw [h2, hy]
      cases f <;> first | exact absurd rfl h1 | exact C125_partial hs ops h

/-! Implementations that say the truth, and what becomes of them. -/

/-- The capacity and the length, as they are. -/
def keeper : Impl (Nat × Nat) := { capacity := fun s => s.1, len := fun s => s.2, setLen := fun s n => (s.1, n) }

example : SetsLen keeper := fun _ _ _ => ⟨rfl, rfl⟩

example : Honest keeper ({ state := (2, 0), mem := .empty 2 } : AnyWriter (Nat × Nat) Nat) [] :=
  ⟨rfl, by decide, by decide, fun i h => absurd h (Nat.not_lt_zero i)⟩

example : effects 2 [] [SafeOp.push 1, .prepare [9], .assign 0 3, .push 2, .push 4, .shrink 3, .view, .shrink 1] = [3] := rfl

example : (SafeOp.push 7).run .checked { capacity := fun _ => 1, len := fun _ => 0, setLen := fun _ _ => () }
    ({ state := (), mem := .empty 0 } : AnyWriter Unit Nat) = Run.fault .ub := rfl

example : (SafeOp.prepare []).run .checked { capacity := fun _ => 0, len := fun _ => 1, setLen := fun _ _ => () }
    ({ state := (), mem := .empty 0 } : AnyWriter Unit Nat) = Run.fault .overflow := rfl

end Parcom
