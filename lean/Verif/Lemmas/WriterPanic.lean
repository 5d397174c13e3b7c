import Verif.Spec.WriterPanic
import Verif.Lemmas.Writer
/-!
# Writers of items whose destructors panic
-/
namespace Parcom
open Spec
variable {T : Type} {panics : T → Bool} {env : Env}

/-- Where the relaxed `set_len` agrees. -/
theorem setLenTo_of_setLen {v v' : RawVec T} {n : Nat} (h : v.setLen n = Run.ret v') : v.setLenTo n = Run.ret v' := by
  unfold RawVec.setLen at h
  unfold RawVec.setLenTo
  split at h
  · rename_i hc
    have hall : (List.range n).all (fun i => i < v.len || (v.cells i).isSome) = true := by
      have hc := hc.2
      rw [List.all_eq_true] at hc ⊢
      intro i hi
      simp [hc i hi]
    rw [if_pos ⟨hc.1, hall⟩]
    exact h
  · simp at h

theorem panicWriter_writeMany (env : Env) (r : Request T) (a : Nat) (xs : List T) :
    (panicWriter env).writeMany r a xs = (requestBufferWriter env (E := Unit)).writeMany r a xs := by
  induction xs generalizing r a with
  | nil => rfl
  | cons x xs ih =>
    simp only [BufferWriter.writeMany]
    congr 1
    funext w
    exact ih w (a + 1)

theorem panicWriter_dropMany (env : Env) (r : Request T) (a n : Nat) :
    (panicWriter env).dropMany r a n = (requestBufferWriter env (E := Unit)).dropMany r a n := by
  induction n generalizing r a with
  | zero => rfl
  | succ n ih =>
    simp only [BufferWriter.dropMany]
    congr 1
    funext w
    exact ih w (a + 1)

theorem panicWriter_setLen {r r' : Request T} {n : Nat} (h : (requestBufferWriter env (E := Unit)).setLen r n = Run.ret r') :
    (panicWriter env).setLen r n = Run.ret r' := by
  have h : (r.buf.setLen (n + r.offset) >>= fun buf => pure { r with buf }) = Run.ret r' := h
  show (r.buf.setLenTo (n + r.offset) >>= fun buf => pure { r with buf }) = Run.ret r'
  obtain ⟨buf, h1, h2⟩ := Run.bind_eq_ret.mp h
  rw [setLenTo_of_setLen h1]
  exact h2

/-- The writer behaves as a buffer. -/
theorem panicWriter_lawful (env : Env) (toAppend : RawVec T) (pre : List T) :
    Lawful (panicWriter env (T := T)) (RequestView toAppend pre) := by
  have L := request_lawful (E := Unit) env toAppend pre
  exact {
    fits := L.fits
    len := L.len
    read := L.read
    fill := by
      intro w xs room ys h hle
      obtain ⟨w', e, hv⟩ := L.fill ys h hle
      obtain ⟨w₁, e1, e2⟩ := Run.bind_eq_ret.mp e
      refine ⟨w', ?_, hv⟩
      rw [panicWriter_writeMany, e1]
      exact panicWriter_setLen e2
    overrun := by
      intro w xs room ys h hlt
      rw [panicWriter_writeMany]
      exact L.overrun ys h hlt
    replace := L.replace
    cut := by
      intro w xs room n h hn
      obtain ⟨w', e, hv⟩ := L.cut h hn
      obtain ⟨w₁, e1, e2⟩ := Run.bind_eq_ret.mp e
      refine ⟨w', ?_, hv⟩
      rw [panicWriter_dropMany, e1]
      exact panicWriter_setLen e2 }

/-! ## Dropping a stretch of items -/

theorem dropAt_some {v : RawVec T} {i : Nat} {x : T} (hi : i < v.cap) (hx : v.cells i = some x) :
    v.read i = Run.ret x ∧ v.dropAt i = Run.ret { v with cells := fun j => if j = i then none else v.cells j } := by
  have hr : v.read i = Run.ret x := by unfold RawVec.read; rw [if_pos hi, hx]; rfl
  exact ⟨hr, by unfold RawVec.dropAt; rw [hr, Run.ret_bind]; rfl⟩

/-- Dropping items that are there: at most one destructor may panic. -/
theorem dropItems_all {ys : List T} : ∀ {v : RawVec T} {u : Bool} {i : Nat}, i + ys.length ≤ v.cap → CellsAre v i ys →
    ((ys.filter panics).length + u.toNat ≤ 1 → v.dropItems panics u i ys.length =
      Run.ret (u || ys.any panics, { v with cells := fun j => if i ≤ j ∧ j < i + ys.length then none else v.cells j }, ys)) ∧
    (2 ≤ (ys.filter panics).length + u.toNat → u.toNat ≤ 1 → 1 ≤ (ys.filter panics).length →
      v.dropItems panics u i ys.length = Run.fault .abort) := by
  induction ys with
  | nil =>
    intro v u i _ _
    refine ⟨fun _ => ?_, fun _ _ h => absurd h (by simp)⟩
    simp only [List.length_nil, RawVec.dropItems, List.any_nil, Bool.or_false]
    have : (fun j => if i ≤ j ∧ j < i + 0 then none else v.cells j) = v.cells := by
      funext j; rw [if_neg (by omega)]
    rw [this]
    rfl
  | cons y ys ih =>
    intro v u i hc ha
    simp only [List.length_cons] at hc
    have hy : v.cells i = some y := by have := ha 0 (by simp); simpa using this
    obtain ⟨hr, hd⟩ := dropAt_some (by omega) hy
    have ha' : CellsAre ({ v with cells := fun j => if j = i then none else v.cells j } : RawVec T) (i + 1) ys := by
      intro j hj
      show (if i + 1 + j = i then none else v.cells (i + 1 + j)) = _
      rw [if_neg (by omega)]
      have := ha (j + 1) (by simpa using hj)
      rw [show i + (j + 1) = i + 1 + j by omega] at this
      simpa using this
    have hih := ih (v := { v with cells := fun j => if j = i then none else v.cells j }) (u := u || panics y) (i := i + 1)
      (by show i + 1 + ys.length ≤ v.cap; omega) ha'
    simp only [List.length_cons, RawVec.dropItems, hr, hd, Run.ret_bind, List.filter_cons, List.any_cons]
    have hcells : (fun j => if i + 1 ≤ j ∧ j < i + 1 + ys.length then none else if j = i then none else v.cells j) =
        fun j => if i ≤ j ∧ j < i + (ys.length + 1) then none else v.cells j := by
      funext j
      by_cases h1 : i + 1 ≤ j ∧ j < i + 1 + ys.length
      · rw [if_pos h1, if_pos (by omega)]
      · rw [if_neg h1]
        by_cases h2 : j = i
        · rw [if_pos h2, if_pos (by omega)]
        · rw [if_neg h2, if_neg (by omega)]
    constructor
    · intro hn
      have hnot : ¬ (panics y = true ∧ u = true) := by
        rintro ⟨h1, h2⟩
        simp [h1, h2] at hn
      rw [if_neg hnot, hih.1 ?_, Run.ret_bind]
      · simp only [hcells, Bool.or_assoc]
        rfl
      · cases h1 : panics y <;> cases u <;> simp_all
    · intro hn hu hone
      by_cases h : panics y = true ∧ u = true
      · rw [if_pos h]; rfl
      · rw [if_neg h, hih.2 ?_ ?_ ?_]
        · rfl
        · cases h1 : panics y <;> cases u <;> simp_all <;> omega
        · cases panics y <;> cases u <;> simp
        · cases h1 : panics y <;> cases u <;> simp_all <;> omega

/-- Dropping items of which one is gone. -/
theorem dropItems_gone : ∀ {k : Nat} {v : RawVec T} {u : Bool} {i j : Nat}, i ≤ j → j < i + k → v.cells j = none →
    v.dropItems panics u i k = Run.fault .ub ∨ v.dropItems panics u i k = Run.fault .abort := by
  intro k
  induction k with
  | zero => intro v u i j h1 h2; omega
  | succ k ih =>
    intro v u i j h1 h2 hj
    simp only [RawVec.dropItems]
    by_cases hi : i < v.cap
    · cases hx : v.cells i with
      | none =>
        left
        unfold RawVec.read
        rw [if_pos hi, hx]
        rfl
      | some x =>
        obtain ⟨hr, hd⟩ := dropAt_some hi hx
        rw [hr, Run.ret_bind, hd, Run.ret_bind]
        split
        · right; rfl
        · have hne : i ≠ j := by rintro rfl; rw [hx] at hj; simp at hj
          have := ih (v := { v with cells := fun j => if j = i then none else v.cells j }) (u := u || panics x) (i := i + 1) (j := j)
            (by omega) (by omega) (by show (if j = i then none else v.cells j) = none; split <;> simp [hj])
          rcases this with e | e <;> rw [e]
          · left; rfl
          · right; rfl
    · left
      unfold RawVec.read
      rw [if_neg hi]
      rfl

/-- What `dropItems` changes. -/
theorem dropItems_ret : ∀ {k : Nat} {v v' : RawVec T} {u p : Bool} {i : Nat} {xs : List T},
    v.dropItems panics u i k = Run.ret (p, v', xs) →
    v'.len = v.len ∧ v'.cap = v.cap ∧ (∀ j, j < i → v'.cells j = v.cells j) ∧ (∀ j, i ≤ j → j < i + k → v.cells j ≠ none) ∧
      (∀ j, i ≤ j → j < i + k → v'.cells j = none) ∧ xs.length = k := by
  intro k
  induction k with
  | zero =>
    intro v v' u p i xs h
    simp [RawVec.dropItems] at h
    obtain ⟨-, rfl, rfl⟩ := h
    exact ⟨rfl, rfl, fun _ _ => rfl, fun j h1 h2 => by omega, fun j h1 h2 => by omega, rfl⟩
  | succ k ih =>
    intro v v' u p i xs h
    simp only [RawVec.dropItems] at h
    obtain ⟨x, hr, h⟩ := Run.bind_eq_ret.mp h
    have hx : i < v.cap ∧ v.cells i = some x := by
      unfold RawVec.read at hr
      split at hr
      · rename_i hi
        split at hr
        · rename_i y hy; simp at hr; subst hr; exact ⟨hi, hy⟩
        · simp at hr
      · simp at hr
    rw [(dropAt_some hx.1 hx.2).2, Run.ret_bind] at h
    split at h
    · simp at h
    · obtain ⟨⟨p', v₁, xs'⟩, h1, h2⟩ := Run.bind_eq_ret.mp h
      simp at h2
      obtain ⟨rfl, rfl, rfl⟩ := h2
      obtain ⟨e1, e2, e3, e4, e5, e6⟩ := ih h1
      refine ⟨e1, e2, ?_, ?_, ?_, by simp [e6]⟩
      · intro j hj
        rw [e3 j (by omega)]
        show (if j = i then none else v.cells j) = _
        rw [if_neg (by omega)]
      · intro j hj1 hj2
        by_cases hji : j = i
        · rw [hji, hx.2]; simp
        · have := e4 j (by omega) (by omega)
          simp only [if_neg hji] at this
          exact this
      · intro j hj1 hj2
        by_cases hji : j = i
        · rw [e3 j (by omega), hji]
          show (if i = i then none else v.cells i) = _
          rw [if_pos rfl]
        · exact e5 j (by omega) (by omega)

theorem filter_none_any {xs : List T} (h : (xs.filter panics).length = 0) : xs.any panics = false := by
  have := List.length_eq_zero_iff.mp h
  rw [List.filter_eq_nil_iff] at this
  rw [List.any_eq_false]
  exact this

theorem filter_some_any {xs : List T} (h : (xs.filter panics).length ≠ 0) : xs.any panics = true := by
  cases ha : xs.any panics with
  | true => rfl
  | false =>
    rw [List.any_eq_false] at ha
    exact absurd (by rw [List.filter_eq_nil_iff.mpr ha]; rfl) h

theorem RequestView.behind {toAppend : RawVec T} {pre xs : List T} {r : Request T} {room n : Nat}
    (h : RequestView toAppend pre r xs room) (hn : n ≤ xs.length) : CellsAre r.buf (r.offset + n) (xs.drop n) := by
  intro i hi
  rw [List.length_drop] at hi
  rw [h.holds.cells _, h.offset, List.getElem?_append_right (by omega), List.getElem?_drop]
  congr 1
  omega

/-- What `shrink_to` does. -/
theorem shrinkTo_cases {toAppend : RawVec T} {pre xs : List T} {r : Request T} {room : Nat}
    (h : RequestView toAppend pre r xs room) (n : Nat) :
    (xs.length < n → r.shrinkTo panics env n = Run.ret ⟨true, r, [], []⟩) ∧
    (n ≤ xs.length → ((xs.drop n).filter panics).length = 0 → ∃ r', r.shrinkTo panics env n = Run.ret ⟨false, r', xs.drop n, []⟩ ∧
      RequestView toAppend pre r' (xs.take n) room) ∧
    (n ≤ xs.length → ((xs.drop n).filter panics).length = 1 → ∃ buf, r.shrinkTo panics env n =
      Run.ret ⟨true, { r with buf }, xs.drop n, []⟩ ∧ buf.len = r.buf.len ∧ buf.cap = r.buf.cap ∧
      (∀ j, j < pre.length + n → buf.cells j = r.buf.cells j) ∧
      ∀ j, pre.length + n ≤ j → j < pre.length + xs.length → buf.cells j = none) ∧
    (n ≤ xs.length → 2 ≤ ((xs.drop n).filter panics).length → r.shrinkTo panics env n = Run.fault .abort) := by
  have L := panicWriter_lawful env toAppend pre
  unfold Request.shrinkTo
  rw [L.len h, Run.ret_bind]
  have hf := h.holds.fits
  rw [List.length_append] at hf
  refine ⟨fun hn => ?_, fun hn hp => ?_, fun hn hp => ?_, fun hn hp => ?_⟩
  · rw [if_pos (by omega)]; rfl
  · rw [if_neg (by omega)]
    by_cases he : n = xs.length
    · refine ⟨r, ?_, by rw [he, List.take_length]; exact h⟩
      rw [if_pos he, he, List.drop_length]
      rfl
    · rw [if_neg he]
      have hd := (dropItems_all (panics := panics) (u := false) (by rw [List.length_drop, h.offset]; omega) (h.behind hn)).1
        (by simp [hp])
      rw [List.length_drop] at hd
      rw [hd, Run.ret_bind]
      simp only [filter_none_any hp, Bool.or_self, Bool.false_eq_true, if_false]
      have hlen : (pre ++ xs.take n).length = pre.length + n := by rw [List.length_append, List.length_take]; omega
      have hcells : ∀ i : Nat,
          (if r.offset + n ≤ i ∧ i < r.offset + n + (xs.length - n) then none else r.buf.cells i) = (pre ++ xs.take n)[i]? := by
        intro i
        rw [h.holds.cells i, h.offset]
        by_cases hge : pre.length + n ≤ i
        · rw [List.getElem?_eq_none (l := pre ++ xs.take n) (by omega)]
          by_cases hlt : i < pre.length + n + (xs.length - n)
          · rw [if_pos ⟨hge, hlt⟩]
          · rw [if_neg (by omega), List.getElem?_eq_none (by rw [List.length_append]; omega)]
        rw [if_neg (by omega)]
        by_cases hp : i < pre.length
        · rw [List.getElem?_append_left hp, List.getElem?_append_left hp]
        · rw [List.getElem?_append_right (by omega), List.getElem?_append_right (by omega), List.getElem?_take_of_lt (by omega)]
      refine ⟨{ r with buf := { r.buf with
          cells := fun j => if r.offset + n ≤ j ∧ j < r.offset + n + (xs.length - n) then none else r.buf.cells j
          len := n + r.offset } }, ?_, ⟨h.toAppend, h.offset, ⟨?_, ?_, hcells⟩, h.room⟩⟩
      · have hs : (panicWriter env).setLen { r with buf := { r.buf with
            cells := fun j => if r.offset + n ≤ j ∧ j < r.offset + n + (xs.length - n) then none else r.buf.cells j } } n =
            Run.ret { r with buf := { r.buf with
              cells := fun j => if r.offset + n ≤ j ∧ j < r.offset + n + (xs.length - n) then none else r.buf.cells j
              len := n + r.offset } } := by
          apply panicWriter_setLen
          show (RawVec.setLen _ (n + r.offset) >>= _) = _
          rw [setLen_ret]
          · rfl
          · show n + r.offset ≤ r.buf.cap
            rw [h.offset]; omega
          · intro i hi
            have hi : i < (pre ++ xs.take n).length := by rw [hlen, ← h.offset]; omega
            show (if r.offset + n ≤ i ∧ i < r.offset + n + (xs.length - n) then none else r.buf.cells i).isSome = true
            rw [hcells i, List.getElem?_eq_getElem hi]
            rfl
        rw [hs]
        rfl
      · show n + r.offset = _
        rw [hlen, h.offset]; omega
      · show _ ≤ r.buf.cap
        rw [hlen]; omega
  · have he : n ≠ xs.length := by rintro rfl; simp at hp
    rw [if_neg (by omega), if_neg he]
    have hd := (dropItems_all (panics := panics) (u := false) (by rw [List.length_drop, h.offset]; omega) (h.behind hn)).1
      (by simp [hp])
    rw [List.length_drop] at hd
    rw [hd, Run.ret_bind]
    simp only [filter_some_any (xs := xs.drop n) (panics := panics) (by omega), Bool.or_true, if_true]
    refine ⟨_, rfl, rfl, rfl, ?_, ?_⟩
    · intro j hj
      show (if _ then none else r.buf.cells j) = _
      rw [if_neg (by rw [h.offset]; omega)]
    · intro j hj1 hj2
      show (if _ then none else r.buf.cells j) = _
      rw [if_pos (by rw [h.offset]; omega)]
  · have he : n ≠ xs.length := by rintro rfl; simp at hp
    rw [if_neg (by omega), if_neg he]
    have hd := (dropItems_all (panics := panics) (u := false) (by rw [List.length_drop, h.offset]; omega) (h.behind hn)).2
      (by omega) (by simp) (by omega)
    rw [List.length_drop] at hd
    rw [hd]
    rfl

end Parcom
