import Verif.Spec.Writing
/-!
# Vectors and writers
-/
namespace Parcom
open Spec
variable {T : Type}

theorem usizeSub_ret (b : Build) {x y : Nat} (h : y ≤ x) : usizeSub b x y = Run.ret (x - y) := if_pos h

theorem usizeSub_checked {x y : Nat} (h : x < y) : usizeSub .checked x y = Run.fault .overflow := if_neg (by omega)

theorem usizeSub_wrapping {x y : Nat} (h : x < y) : usizeSub .wrapping x y = Run.ret (x + (usizeMax + 1) - y) := if_neg (by omega)

theorem holds_empty (c : Nat) : Holds (.empty c : RawVec T) [] := ⟨rfl, Nat.zero_le _, fun _ => rfl⟩

theorem Spec.Holds.read {v : RawVec T} {xs : List T} (h : Holds v xs) {i : Nat} (hi : i < xs.length) : v.read i = Run.ret xs[i] := by
  unfold RawVec.read
  rw [if_pos (Nat.lt_of_lt_of_le hi h.fits), h.cells i, List.getElem?_eq_getElem hi]
  rfl

theorem Spec.Holds.readMany {v : RawVec T} {xs : List T} (h : Holds v xs) {a n : Nat} (han : a + n ≤ xs.length) :
    v.readMany a n = Run.ret ((xs.drop a).take n) := by
  induction n generalizing a with
  | zero => rw [List.take_zero]; rfl
  | succ n ih =>
    have ha : a < xs.length := by omega
    simp only [RawVec.readMany, h.read ha, Run.ret_bind, ih (a := a + 1) (by omega)]
    rw [List.drop_eq_getElem_cons ha, List.take_succ_cons]
    rfl

/-- What is in a vector is determined. -/
theorem Spec.Holds.unique {v : RawVec T} {xs ys : List T} (h : Holds v xs) (h' : Holds v ys) : xs = ys := by
  apply List.ext_getElem?
  intro i
  rw [← h.cells i, ← h'.cells i]

/-- Cells agree with a list from some place on. -/
def CellsAre (v : RawVec T) (a : Nat) (xs : List T) : Prop := ∀ i : Nat, i < xs.length → v.cells (a + i) = xs[i]?

theorem write_ret {v : RawVec T} {i : Nat} {x : T} (h : i < v.cap) :
    v.write i x = Run.ret { v with cells := fun j => if j = i then some x else v.cells j } := if_pos h

theorem write_ub {v : RawVec T} {i : Nat} {x : T} (h : ¬ i < v.cap) : v.write i x = Run.fault .ub := if_neg h

theorem setLen_ret {v : RawVec T} {n : Nat} (h : n ≤ v.cap) (hc : ∀ i, i < n → (v.cells i).isSome) :
    v.setLen n = Run.ret { v with len := n } := by
  refine if_pos ⟨h, ?_⟩
  rw [List.all_eq_true]
  intro i hi
  exact hc i (List.mem_range.mp hi)

/-- The memory a request gives access to: the pending items `pre` come before it. -/
structure RequestView (toAppend : RawVec T) (pre : List T) (r : Request T) (xs : List T) (room : Nat) : Prop where
  toAppend : r.toAppend = toAppend
  offset : r.offset = pre.length
  holds : Holds r.buf (pre ++ xs)
  room : r.buf.cap = pre.length + room

section
variable {E : Type} {env : Env} {toAppend : RawVec T} {pre : List T}

theorem request_writeMany (env : Env) (r : Request T) (a : Nat) (ys : List T) (h : r.offset + a + ys.length ≤ r.buf.cap) :
    ∃ r', (requestBufferWriter env (E := E)).writeMany r a ys = Run.ret r' ∧ r'.toAppend = r.toAppend ∧ r'.offset = r.offset ∧
      r'.buf.cap = r.buf.cap ∧ r'.buf.len = r.buf.len ∧
      (∀ i, i < r.offset + a ∨ r.offset + a + ys.length ≤ i → r'.buf.cells i = r.buf.cells i) ∧ CellsAre r'.buf (r.offset + a) ys := by
  induction ys generalizing r a with
  | nil => exact ⟨r, rfl, rfl, rfl, rfl, rfl, fun _ _ => rfl, fun i hi => absurd hi (Nat.not_lt_zero i)⟩
  | cons y ys ih =>
    simp only [List.length_cons] at h
    let r₁ : Request T := { r with buf := { r.buf with cells := fun j => if j = r.offset + a then some y else r.buf.cells j } }
    have hw : (requestBufferWriter env (E := E)).write r a y = Run.ret r₁ := by
      show (r.buf.write (r.offset + a) y >>= _) = _
      rw [write_ret (by omega)]
      rfl
    obtain ⟨r', e, h1, h2, h3, h4, h5, h6⟩ := ih r₁ (a + 1) (by show r.offset + (a + 1) + ys.length ≤ r.buf.cap; omega)
    refine ⟨r', ?_, h1, h2, h3, h4, ?_, ?_⟩
    · simp only [BufferWriter.writeMany, hw, Run.ret_bind]
      exact e
    · intro i hi
      simp only [List.length_cons] at hi
      rw [h5 i (by show i < r.offset + (a + 1) ∨ r.offset + (a + 1) + ys.length ≤ i; omega)]
      show (if i = r.offset + a then some y else r.buf.cells i) = _
      rw [if_neg (by omega)]
    · intro i hi
      cases i with
      | zero =>
        rw [Nat.add_zero, h5 _ (by show r.offset + a < r.offset + (a + 1) ∨ _; omega)]
        show (if r.offset + a = r.offset + a then some y else _) = _
        rw [if_pos rfl]
        rfl
      | succ i =>
        have := h6 i (by simpa using hi)
        rw [show r₁.offset + (a + 1) + i = r.offset + a + (i + 1) by show r.offset + (a + 1) + i = _; omega] at this
        rw [this]
        rfl

theorem request_overrun (env : Env) (r : Request T) (a : Nat) (ys : List T) (h : r.offset + a ≤ r.buf.cap)
    (h' : r.buf.cap < r.offset + a + ys.length) :
    (requestBufferWriter env (E := E)).writeMany r a ys = Run.fault .ub := by
  induction ys generalizing r a with
  | nil => simp only [List.length_nil] at h'; omega
  | cons y ys ih =>
    simp only [List.length_cons] at h'
    by_cases hlt : r.offset + a < r.buf.cap
    · let r₁ : Request T := { r with buf := { r.buf with cells := fun j => if j = r.offset + a then some y else r.buf.cells j } }
      have hw : (requestBufferWriter env (E := E)).write r a y = Run.ret r₁ := by
        show (r.buf.write (r.offset + a) y >>= _) = _
        rw [write_ret hlt]
        rfl
      simp only [BufferWriter.writeMany, hw, Run.ret_bind]
      exact ih r₁ (a + 1) (by show r.offset + (a + 1) ≤ r.buf.cap; omega) (by show r.buf.cap < r.offset + (a + 1) + ys.length; omega)
    · have hw : (requestBufferWriter env (E := E)).write r a y = Run.fault .ub := by
        show (r.buf.write (r.offset + a) y >>= _) = _
        rw [write_ub hlt]
        rfl
      simp only [BufferWriter.writeMany, hw, Run.fault_bind]

theorem request_dropMany (env : Env) (r : Request T) (a n : Nat) (h : r.offset + a + n ≤ r.buf.cap)
    (hc : ∀ i, i < r.offset + a + n → (r.buf.cells i).isSome) :
    ∃ r', (requestBufferWriter env (E := E)).dropMany r a n = Run.ret r' ∧ r'.toAppend = r.toAppend ∧ r'.offset = r.offset ∧
      r'.buf.cap = r.buf.cap ∧
      (∀ i, r'.buf.cells i = if r.offset + a ≤ i ∧ i < r.offset + a + n then none else r.buf.cells i) := by
  have key : ∀ (m a' : Nat) (s : Request T), s.offset + a' + m ≤ s.buf.cap →
      (∀ i, s.offset + a' ≤ i → i < s.offset + a' + m → (s.buf.cells i).isSome) →
      ∃ s', (requestBufferWriter env (E := E)).dropMany s a' m = Run.ret s' ∧ s'.toAppend = s.toAppend ∧ s'.offset = s.offset ∧
        s'.buf.cap = s.buf.cap ∧
        (∀ i, s'.buf.cells i = if s.offset + a' ≤ i ∧ i < s.offset + a' + m then none else s.buf.cells i) := by
    intro m
    induction m with
    | zero => intro a' s _ _; exact ⟨s, rfl, rfl, rfl, rfl, fun i => (if_neg (by omega)).symm⟩
    | succ m ihm =>
      intro a' s hle hs
      let s₁ : Request T := { s with buf := { s.buf with cells := fun j => if j = s.offset + a' then none else s.buf.cells j } }
      have hsome := hs (s.offset + a') (by omega) (by omega)
      have hd : (requestBufferWriter env (E := E)).dropAt s a' = Run.ret s₁ := by
        show (s.buf.dropAt (s.offset + a') >>= _) = _
        unfold RawVec.dropAt RawVec.read
        rw [if_pos (by omega)]
        cases hx : s.buf.cells (s.offset + a') with
        | none => rw [hx] at hsome; simp at hsome
        | some x => rfl
      obtain ⟨s', e, h1, h2, h3, h4⟩ := ihm (a' + 1) s₁ (by show s.offset + (a' + 1) + m ≤ s.buf.cap; omega) (by
        intro i hi hi'
        have hi : s.offset + (a' + 1) ≤ i := hi
        have hi' : i < s.offset + (a' + 1) + m := hi'
        show (if i = s.offset + a' then none else s.buf.cells i).isSome = true
        rw [if_neg (by omega)]
        exact hs i (by omega) (by omega))
      refine ⟨s', ?_, h1, h2, h3, ?_⟩
      · simp only [BufferWriter.dropMany, hd, Run.ret_bind]
        exact e
      · intro i
        rw [h4 i]
        show (if s.offset + (a' + 1) ≤ i ∧ i < s.offset + (a' + 1) + m then none else
          if i = s.offset + a' then none else s.buf.cells i) = _
        by_cases hi : i = s.offset + a'
        · rw [if_neg (by omega), if_pos hi, if_pos (by omega)]
        · rw [if_neg hi]
          by_cases hi' : s.offset + (a' + 1) ≤ i ∧ i < s.offset + (a' + 1) + m
          · rw [if_pos hi', if_pos (by omega)]
          · rw [if_neg hi', if_neg (by omega)]
  exact key n a r h fun i _ hi => hc i hi

/-- The loader's writer behaves as a buffer (but for `capacity`). -/
theorem request_lawful (env : Env) (toAppend : RawVec T) (pre : List T) :
    Lawful (requestBufferWriter env (T := T) (E := E)) (RequestView toAppend pre) where
  fits := by
    intro w xs room h
    have := h.holds.fits
    rw [h.room, List.length_append] at this
    omega
  len := by
    intro w xs room h
    show usizeSub _ _ _ = _
    rw [h.holds.len, h.offset, List.length_append, usizeSub_ret _ (by omega)]
    congr 1; omega
  read := by
    intro w xs room h i hi
    show w.buf.read (w.offset + i) = _
    rw [h.holds.read (by rw [h.offset, List.length_append]; omega)]
    simp only [h.offset]
    rw [List.getElem_append_right (by omega)]
    congr 2; omega
  fill := by
    intro w xs room ys h hle
    have hcap := h.room
    obtain ⟨r', e, h1, h2, h3, h4, h5, h6⟩ := request_writeMany (E := E) env w xs.length ys (by rw [h.offset]; omega)
    have hcells : ∀ i : Nat, r'.buf.cells i = (pre ++ (xs ++ ys))[i]? := by
      intro i
      rw [← List.append_assoc]
      by_cases hlt : i < w.offset + xs.length
      · have hlt' : i < (pre ++ xs).length := by rw [List.length_append, ← h.offset]; exact hlt
        rw [h5 i (.inl hlt), h.holds.cells i, List.getElem?_append_left (l₁ := pre ++ xs) hlt']
      by_cases hge : w.offset + xs.length + ys.length ≤ i
      · rw [h5 i (.inr hge), h.holds.cells i, List.getElem?_eq_none (by rw [List.length_append, ← h.offset]; omega),
          List.getElem?_eq_none (by simp only [List.length_append]; rw [← h.offset]; omega)]
      · have := h6 (i - (w.offset + xs.length)) (by omega)
        rw [show w.offset + xs.length + (i - (w.offset + xs.length)) = i by omega] at this
        rw [this, List.getElem?_append_right (by rw [List.length_append, ← h.offset]; omega)]
        rw [List.length_append, ← h.offset]
    refine ⟨{ r' with buf := { r'.buf with len := xs.length + ys.length + r'.offset } }, ?_, ?_⟩
    · rw [e]
      show (r'.buf.setLen (xs.length + ys.length + r'.offset) >>= _) = _
      rw [setLen_ret (by rw [h3, h2, h.offset]; omega)]
      · rfl
      · intro i hi
        rw [h2, h.offset] at hi
        have hi : i < (pre ++ (xs ++ ys)).length := by simp only [List.length_append]; omega
        rw [hcells i, List.getElem?_eq_getElem hi]
        rfl
    · refine ⟨h1.trans h.toAppend, h2.trans h.offset, ⟨?_, ?_, hcells⟩, h3.trans h.room⟩
      · show xs.length + ys.length + r'.offset = _
        rw [h2, h.offset]; simp only [List.length_append]; omega
      · show _ ≤ r'.buf.cap
        rw [h3]; simp only [List.length_append]; omega
  overrun := by
    intro w xs room ys h hlt
    have hf := h.holds.fits
    rw [List.length_append] at hf
    exact request_overrun env w xs.length ys (by rw [h.offset]; omega) (by rw [h.offset, h.room]; omega)
  replace := by
    intro w xs room i x h hi
    have hf := h.holds.fits
    rw [List.length_append] at hf
    have hcell : w.buf.cells (w.offset + i) = some xs[i] := by
      rw [h.offset, h.holds.cells _, List.getElem?_append_right (by omega),
        Nat.add_sub_cancel_left, List.getElem?_eq_getElem hi]
    have hd : (requestBufferWriter env (E := E)).dropAt w i =
        Run.ret { w with buf := { w.buf with cells := fun j => if j = w.offset + i then none else w.buf.cells j } } := by
      show (w.buf.dropAt (w.offset + i) >>= _) = _
      unfold RawVec.dropAt RawVec.read
      rw [if_pos (by rw [h.offset]; omega), hcell]
      rfl
    rw [hd, Run.ret_bind]
    refine ⟨{ w with buf := { w.buf with cells := fun j => if j = w.offset + i then some x else
      if j = w.offset + i then none else w.buf.cells j } }, ?_, h.toAppend, h.offset, ⟨?_, ?_, ?_⟩, h.room⟩
    · show (RawVec.write _ (w.offset + i) x >>= _) = _
      rw [write_ret (by show w.offset + i < w.buf.cap; rw [h.offset]; omega)]
      rfl
    · show w.buf.len = _
      rw [h.holds.len]; simp only [List.length_append, List.length_set]
    · show _ ≤ w.buf.cap
      simp only [List.length_append, List.length_set]; omega
    · intro j
      show (if j = w.offset + i then some x else if j = w.offset + i then none else w.buf.cells j) = _
      by_cases hji : j = w.offset + i
      · rw [if_pos hji, hji, h.offset, List.getElem?_append_right (by omega), Nat.add_sub_cancel_left,
          List.getElem?_set_self hi]
      · rw [if_neg hji, if_neg hji, h.holds.cells j]
        by_cases hp : j < pre.length
        · rw [List.getElem?_append_left hp, List.getElem?_append_left hp]
        · rw [List.getElem?_append_right (by omega), List.getElem?_append_right (by omega),
            List.getElem?_set_ne (by rw [h.offset] at hji; omega)]
  cut := by
    intro w xs room n h hn
    have hf := h.holds.fits
    rw [List.length_append] at hf
    obtain ⟨r', e, h1, h2, h3, h4⟩ := request_dropMany (E := E) env w n (xs.length - n) (by rw [h.offset]; omega) (by
      intro i hi
      rw [h.offset] at hi
      have hi : i < (pre ++ xs).length := by rw [List.length_append]; omega
      rw [h.holds.cells i, List.getElem?_eq_getElem hi]
      rfl)
    have hlen : (pre ++ xs.take n).length = pre.length + n := by rw [List.length_append, List.length_take]; omega
    have hcells : ∀ i : Nat, r'.buf.cells i = (pre ++ xs.take n)[i]? := by
      intro i
      rw [h4 i, h.holds.cells i, h.offset]
      by_cases hge : pre.length + n ≤ i
      · rw [List.getElem?_eq_none (l := pre ++ xs.take n) (by omega)]
        by_cases hlt : i < pre.length + n + (xs.length - n)
        · rw [if_pos ⟨hge, hlt⟩]
        · rw [if_neg (by omega), List.getElem?_eq_none (by rw [List.length_append]; omega)]
      rw [if_neg (by omega)]
      by_cases hp : i < pre.length
      · rw [List.getElem?_append_left hp, List.getElem?_append_left hp]
      · rw [List.getElem?_append_right (by omega), List.getElem?_append_right (by omega), List.getElem?_take_of_lt (by omega)]
    refine ⟨{ r' with buf := { r'.buf with len := n + r'.offset } }, ?_, ?_⟩
    · rw [e]
      show (r'.buf.setLen (n + r'.offset) >>= _) = _
      rw [setLen_ret (by rw [h3, h2, h.offset]; omega)]
      · rfl
      · intro i hi
        rw [h2, h.offset] at hi
        have hi : i < (pre ++ xs.take n).length := by rw [hlen]; omega
        rw [hcells i, List.getElem?_eq_getElem hi]
        rfl
    · refine ⟨h1.trans h.toAppend, h2.trans h.offset, ⟨?_, ?_, hcells⟩, h3.trans h.room⟩
      · show n + r'.offset = _
        rw [h2, h.offset, hlen]; omega
      · show _ ≤ r'.buf.cap
        rw [h3, hlen]; omega

/-- What `capacity` returns: the room that is left. -/
theorem request_capacity (env : Env) {w : Request T} {xs : List T} {room : Nat} (h : RequestView toAppend pre w xs room) :
    (requestBufferWriter env (E := E)).capacity w = Run.ret (room - xs.length) := by
  show usizeSub _ _ _ = _
  have hf := h.holds.fits
  rw [h.room, List.length_append] at hf
  rw [h.room, h.holds.len, List.length_append, usizeSub_ret _ (by omega)]
  congr 1; omega

end

/-! ## Lawful writers -/

section
variable {W R E : Type} {B : BufferWriter W T R E} {View : W → List T → Nat → Prop}

theorem Spec.Lawful.asSlice (L : Lawful B View) {w : W} {xs : List T} {room : Nat} (h : View w xs room) :
    B.asSlice w = Run.ret xs := by
  have key : ∀ n a, a + n = xs.length → B.readMany w a n = Run.ret (xs.drop a) := by
    intro n
    induction n with
    | zero => intro a ha; rw [List.drop_eq_nil_of_le (by omega)]; rfl
    | succ n ih =>
      intro a ha
      simp only [BufferWriter.readMany, L.read h a (by omega), Run.ret_bind, ih (a + 1) (by omega)]
      rw [List.drop_eq_getElem_cons (by omega : a < xs.length)]
      rfl
  unfold BufferWriter.asSlice
  rw [L.len h, Run.ret_bind, key xs.length 0 (by omega), List.drop_zero]

theorem Spec.Lawful.write (L : Lawful B View) {w : W} {xs : List T} {room : Nat} (h : View w xs room) (x : T) :
    (xs.length < room → ∃ w', (B.write w xs.length x >>= fun w => B.setLen w (xs.length + 1)) = Run.ret w' ∧
      View w' (xs ++ [x]) room) ∧
    (¬ xs.length < room → B.write w xs.length x = Run.fault .ub) := by
  have hm : B.writeMany w xs.length [x] = B.write w xs.length x := by
    simp only [BufferWriter.writeMany]
    exact Run.bind_pure' _
  constructor
  · intro hlt
    have := L.fill [x] h (by simp only [List.length_cons, List.length_nil]; omega)
    rw [hm] at this
    exact this
  · intro hge
    have := L.overrun [x] h (by simp only [List.length_cons, List.length_nil]; omega)
    rw [hm] at this
    exact this

/-- One push. -/
theorem Spec.Lawful.pushItem (L : Lawful B View) {w : W} {xs : List T} {room c : Nat} (h : View w xs room)
    (hc : B.capacity w = Run.ret c) (x : T) :
    (xs.length = c → B.pushItem w x = Run.ret (some x, w)) ∧
    (xs.length ≠ c → xs.length < room → ∃ w', B.pushItem w x = Run.ret (none, w') ∧ View w' (xs ++ [x]) room) ∧
    (xs.length ≠ c → ¬ xs.length < room → B.pushItem w x = Run.fault .ub) := by
  unfold BufferWriter.pushItem
  rw [L.len h, Run.ret_bind, hc, Run.ret_bind]
  refine ⟨fun he => ?_, fun he hlt => ?_, fun he hge => ?_⟩
  · rw [if_pos he]; rfl
  · obtain ⟨w', e, hv⟩ := (L.write h x).1 hlt
    refine ⟨w', ?_, hv⟩
    rw [if_neg he, ← Run.bind_assoc', e]
    rfl
  · rw [if_neg he, (L.write h x).2 hge]
    rfl

theorem Spec.Lawful.shrinkTo (L : Lawful B View) {w : W} {xs : List T} {room n : Nat} (h : View w xs room)
    (hn : n ≤ xs.length) : ∃ w', B.shrinkTo w n = Run.ret w' ∧ View w' (xs.take n) room := by
  unfold BufferWriter.shrinkTo
  rw [L.len h, Run.ret_bind, if_neg (by simpa using hn)]
  by_cases he : n = xs.length
  · exact ⟨w, by rw [if_pos he]; rfl, by rw [he, List.take_length]; exact h⟩
  · obtain ⟨w', e, hv⟩ := L.cut h hn
    exact ⟨w', by rw [if_neg he]; exact e, hv⟩

/-- What the writer holds is what it told. -/
theorem Spec.Lawful.runOp (L : Lawful B View) {b : Build} {w w' : W} {told told' : List T} {room : Nat} (h : View w told room)
    {op : WriterOp T} (he : op.run b B w told = Run.ret (w', told')) : View w' told' room := by
  cases op with
  | push x =>
    simp only [WriterOp.run] at he
    obtain ⟨⟨r, w₁⟩, hp, he⟩ := Run.bind_eq_ret.mp he
    have hp0 := hp
    unfold BufferWriter.pushItem at hp
    rw [L.len h, Run.ret_bind] at hp
    obtain ⟨c, hc, -⟩ := Run.bind_eq_ret.mp hp
    obtain ⟨l1, l2, l3⟩ := L.pushItem h hc x
    by_cases hx : told.length = c
    · rw [l1 hx] at hp0
      simp only [Run.ret_inj, Prod.mk.injEq] at hp0
      obtain ⟨rfl, rfl⟩ := hp0
      simp at he
      obtain ⟨rfl, rfl⟩ := he
      exact h
    · by_cases hr : told.length < room
      · obtain ⟨w₂, e, hv⟩ := l2 hx hr
        rw [e] at hp0
        simp only [Run.ret_inj, Prod.mk.injEq] at hp0
        obtain ⟨rfl, rfl⟩ := hp0
        simp at he
        obtain ⟨rfl, rfl⟩ := he
        exact hv
      · rw [l3 hx hr] at hp0
        simp at hp0
  | fill ys =>
    simp only [WriterOp.run] at he
    obtain ⟨⟨start, len⟩, hs, he⟩ := Run.bind_eq_ret.mp he
    have hstart : start = told.length := by
      unfold BufferWriter.spareCapacity at hs
      rw [L.len h, Run.ret_bind] at hs
      obtain ⟨c, -, hs⟩ := Run.bind_eq_ret.mp hs
      obtain ⟨d, -, hs⟩ := Run.bind_eq_ret.mp hs
      obtain ⟨d, -, hs⟩ := Run.bind_eq_ret.mp hs
      simp at hs
      exact hs.1.symm
    subst hstart
    simp only at he
    split at he
    · by_cases hr : told.length + ys.length ≤ room
      · obtain ⟨w₂, e, hv⟩ := L.fill ys h hr
        rw [← Run.bind_assoc', e] at he
        simp at he
        obtain ⟨rfl, rfl⟩ := he
        exact hv
      · rw [L.overrun ys h (by omega)] at he
        simp at he
    · simp at he
      obtain ⟨rfl, rfl⟩ := he
      exact h
  | shrink n =>
    simp only [WriterOp.run] at he
    obtain ⟨w₁, hs, he⟩ := Run.bind_eq_ret.mp he
    simp at he
    obtain ⟨rfl, rfl⟩ := he
    by_cases hn : n ≤ told.length
    · obtain ⟨w₂, e, hv⟩ := L.shrinkTo h hn
      rw [e] at hs
      simp at hs
      subst hs
      exact hv
    · unfold BufferWriter.shrinkTo at hs
      rw [L.len h, Run.ret_bind, if_pos (by simpa using hn)] at hs
      simp at hs
  | set i x =>
    simp only [WriterOp.run] at he
    obtain ⟨w₁, hs, he⟩ := Run.bind_eq_ret.mp he
    simp at he
    obtain ⟨rfl, rfl⟩ := he
    unfold BufferWriter.setItem at hs
    rw [L.len h, Run.ret_bind] at hs
    by_cases hi : i < told.length
    · obtain ⟨w₂, e, hv⟩ := L.replace x h hi
      rw [if_pos hi, e] at hs
      simp at hs
      subst hs
      exact hv
    · rw [if_neg hi] at hs
      simp at hs
  | raw ys =>
    simp only [WriterOp.run] at he
    rw [L.len h, Run.ret_bind] at he
    by_cases hr : told.length + ys.length ≤ room
    · obtain ⟨w₂, e, hv⟩ := L.fill ys h hr
      rw [← Run.bind_assoc', e] at he
      simp at he
      obtain ⟨rfl, rfl⟩ := he
      exact hv
    · rw [L.overrun ys h (by omega)] at he
      simp at he

theorem Spec.Lawful.runOps (L : Lawful B View) {b : Build} {w w' : W} {told told' : List T} {room : Nat} (h : View w told room)
    {ops : List (WriterOp T)} (he : Parcom.runOps b B w told ops = Run.ret (w', told')) : View w' told' room := by
  induction ops generalizing w told with
  | nil =>
    simp [Parcom.runOps] at he
    obtain ⟨rfl, rfl⟩ := he
    exact h
  | cons op ops ih =>
    simp only [Parcom.runOps] at he
    obtain ⟨⟨w₁, told₁⟩, h1, h2⟩ := Run.bind_eq_ret.mp he
    exact ih (L.runOp h h1) h2

end

end Parcom
