import Verif.Lemmas.WriterPanic
import Verif.Props.Loader
/-!
# C113: writers of items whose destructors panic
-/
namespace Parcom
open Spec
variable {T : Type} {panics : T → Bool} {env : Env} {start r : Request T} {hist : List (WriterOp T × Settled T)}
  {toAppend : RawVec T} {pre xs : List T} {room : Nat}

theorem suppliedOf_append (l l' : List (WriterOp T × Settled T)) : suppliedOf (l ++ l') = suppliedOf l ++ suppliedOf l' := by
  induction l with
  | nil => rfl
  | cons p l ih => simp [suppliedOf, ih]

theorem droppedOf_append (l l' : List (WriterOp T × Settled T)) : droppedOf (l ++ l') = droppedOf l ++ droppedOf l' := by
  induction l with
  | nil => rfl
  | cons p l ih => simp [droppedOf, ih]

theorem backOf_append (l l' : List (WriterOp T × Settled T)) : backOf (l ++ l') = backOf l ++ backOf l' := by
  induction l with
  | nil => rfl
  | cons p l ih => simp [backOf, ih]

theorem torn_append {l : List (WriterOp T × Settled T)} {op : WriterOp T} {s : Settled T} :
    Torn (l ++ [(op, s)]) ↔ Torn l ∨ ∃ n, op = .shrink n ∧ s.panicked = true ∧ s.dropped ≠ [] := by
  constructor
  · rintro ⟨n, t, ht, h1, h2⟩
    rcases List.mem_append.mp ht with ht | ht
    · exact .inl ⟨n, t, ht, h1, h2⟩
    · simp only [List.mem_singleton, Prod.mk.injEq] at ht
      obtain ⟨rfl, rfl⟩ := ht
      exact .inr ⟨n, rfl, h1, h2⟩
  · rintro (⟨n, t, ht, h⟩ | ⟨n, rfl, h⟩)
    · exact ⟨n, t, List.mem_append_left _ ht, h⟩
    · exact ⟨n, s, List.mem_append_right _ (List.mem_singleton.mpr rfl), h⟩

theorem perm_swap_middle (D b d zs : List T) : (D ++ (b ++ (d ++ zs))).Perm (b ++ (D ++ d ++ zs)) := by
  rw [← List.append_assoc, ← List.append_assoc, List.append_assoc D d zs, ← List.append_assoc b, List.append_assoc (D ++ b)]
  exact List.perm_append_comm.append_right _

theorem perm_set {xs : List T} {i : Nat} (hi : i < xs.length) (x : T) : (xs ++ [x]).Perm (xs[i] :: xs.set i x) := by
  induction xs generalizing i with
  | nil => simp at hi
  | cons y ys ih =>
    cases i with
    | zero => exact List.Perm.cons y List.perm_append_comm
    | succ i => exact ((ih (by simpa using hi)).cons y).trans (List.Perm.swap _ _ _)

/-- One operation on a sound writer: it stays sound and no item is lost or doubled, or a destructor panicked in `shrink_to` and
an item behind the length is gone. -/
theorem settled_step (h : RequestView toAppend pre r xs room) {op : WriterOp T} {s : Settled T}
    (hs : op.runPanicking panics env r = Run.ret s) :
    ((∃ ys, RequestView toAppend pre s.writer ys room ∧ (xs ++ suppliedTo op).Perm (s.back ++ (s.dropped ++ ys))) ∧
      ¬ ∃ n, op = .shrink n ∧ s.panicked = true ∧ s.dropped ≠ []) ∨
    ((∃ n, op = .shrink n ∧ s.panicked = true ∧ s.dropped ≠ []) ∧
      s.writer.offset = pre.length ∧ ∃ j, s.writer.offset ≤ j ∧ j < s.writer.buf.len ∧ s.writer.buf.cells j = none) := by
  have L := panicWriter_lawful env toAppend pre
  cases op with
  | push x =>
    left
    simp only [WriterOp.runPanicking] at hs
    obtain ⟨⟨o, w⟩, hp, he⟩ := Run.bind_eq_ret.mp hs
    simp at he
    subst he
    refine ⟨?_, by simp⟩
    have hc : (panicWriter env).capacity r = Run.ret (room - xs.length) := request_capacity (E := Unit) env h
    obtain ⟨l1, l2, l3⟩ := L.pushItem h hc x
    by_cases hx : xs.length = room - xs.length
    · rw [l1 hx] at hp
      simp only [Run.ret_inj, Prod.mk.injEq] at hp
      obtain ⟨rfl, rfl⟩ := hp
      exact ⟨xs, h, by simp [suppliedTo]⟩
    · by_cases hr : xs.length < room
      · obtain ⟨w₂, e, hv⟩ := l2 hx hr
        rw [e] at hp
        simp only [Run.ret_inj, Prod.mk.injEq] at hp
        obtain ⟨rfl, rfl⟩ := hp
        exact ⟨xs ++ [x], hv, by simp [suppliedTo]⟩
      · rw [l3 hx hr] at hp
        simp at hp
  | fill ys =>
    left
    simp only [WriterOp.runPanicking] at hs
    obtain ⟨⟨a, len⟩, hsp, he⟩ := Run.bind_eq_ret.mp hs
    have ha : a = xs.length := by
      unfold BufferWriter.spareCapacity at hsp
      rw [L.len h, Run.ret_bind] at hsp
      obtain ⟨c, -, hsp⟩ := Run.bind_eq_ret.mp hsp
      obtain ⟨d, -, hsp⟩ := Run.bind_eq_ret.mp hsp
      obtain ⟨d, -, hsp⟩ := Run.bind_eq_ret.mp hsp
      simp at hsp
      exact hsp.1.symm
    subst ha
    simp only at he
    split at he
    · by_cases hr : xs.length + ys.length ≤ room
      · obtain ⟨w₂, e, hv⟩ := L.fill ys h hr
        rw [← Run.bind_assoc', e] at he
        simp at he
        subst he
        exact ⟨⟨xs ++ ys, hv, by simp [suppliedTo]⟩, by simp⟩
      · rw [L.overrun ys h (by omega)] at he
        simp at he
    · simp at he
      subst he
      exact ⟨⟨xs, h, by simpa [suppliedTo] using List.perm_append_comm⟩, by simp⟩
  | raw ys =>
    left
    simp only [WriterOp.runPanicking] at hs
    rw [L.len h, Run.ret_bind] at hs
    by_cases hr : xs.length + ys.length ≤ room
    · obtain ⟨w₂, e, hv⟩ := L.fill ys h hr
      rw [← Run.bind_assoc', e] at hs
      simp at hs
      subst hs
      exact ⟨⟨xs ++ ys, hv, by simp [suppliedTo]⟩, by simp⟩
    · rw [L.overrun ys h (by omega)] at hs
      simp at hs
  | set i x =>
    left
    simp only [WriterOp.runPanicking, Request.setItem] at hs
    rw [L.len h, Run.ret_bind] at hs
    by_cases hi : i < xs.length
    · obtain ⟨w₂, e, hv⟩ := L.replace x h hi
      rw [if_pos hi, L.read h i hi, Run.ret_bind, ← Run.bind_assoc', e] at hs
      simp at hs
      subst hs
      refine ⟨⟨_, hv, ?_⟩, by simp⟩
      simp only [suppliedTo, List.nil_append]
      exact perm_set hi x
    · rw [if_neg hi] at hs
      split at hs
      · simp at hs
      · simp at hs
        subst hs
        exact ⟨⟨xs, h, by simp [suppliedTo]⟩, by simp⟩
  | shrink n =>
    simp only [WriterOp.runPanicking] at hs
    obtain ⟨c1, c2, c3, c4⟩ := shrinkTo_cases (panics := panics) (env := env) h n
    by_cases hn : n ≤ xs.length
    · by_cases h0 : ((xs.drop n).filter panics).length = 0
      · obtain ⟨r', e, hv⟩ := c2 hn h0
        rw [e] at hs
        simp at hs
        subst hs
        left
        refine ⟨⟨_, hv, ?_⟩, by simp⟩
        simp only [suppliedTo, List.append_nil, List.nil_append]
        have : (xs.take n ++ xs.drop n).Perm (xs.drop n ++ xs.take n) := List.perm_append_comm
        rwa [List.take_append_drop] at this
      · by_cases h1 : ((xs.drop n).filter panics).length = 1
        · obtain ⟨buf, e, b1, b2, b3, b4⟩ := c3 hn h1
          rw [e] at hs
          simp at hs
          subst hs
          have hne : xs.drop n ≠ [] := by intro hnil; rw [hnil] at h1; simp at h1
          have hlt : n < xs.length := by
            apply Classical.byContradiction
            intro hge
            exact hne (List.drop_eq_nil_of_le (by omega))
          right
          refine ⟨⟨n, rfl, rfl, hne⟩, h.offset, pre.length + n, ?_, ?_, b4 _ (by omega) (by omega)⟩
          · show r.offset ≤ _
            rw [h.offset]; omega
          · show _ < buf.len
            rw [b1, h.holds.len, List.length_append]; omega
        · rw [c4 hn (by omega)] at hs
          simp at hs
    · rw [c1 (by omega)] at hs
      simp at hs
      subst hs
      exact .inl ⟨⟨xs, h, by simp [suppliedTo]⟩, by simp⟩

/-- Writing behind the length. -/
theorem writeMany_ret {ys : List T} : ∀ {r r' : Request T} {a : Nat}, (panicWriter env).writeMany r a ys = Run.ret r' →
    r'.offset = r.offset ∧ r'.buf.len = r.buf.len ∧ ∀ j, j < r.offset + a → r'.buf.cells j = r.buf.cells j := by
  induction ys with
  | nil =>
    intro r r' a h
    simp [BufferWriter.writeMany] at h
    subst h
    exact ⟨rfl, rfl, fun _ _ => rfl⟩
  | cons y ys ih =>
    intro r r' a h
    simp only [BufferWriter.writeMany] at h
    obtain ⟨r₁, h1, h2⟩ := Run.bind_eq_ret.mp h
    have h1 : (r.buf.write (r.offset + a) y >>= fun buf => pure { r with buf }) = Run.ret r₁ := h1
    obtain ⟨buf, h1, h3⟩ := Run.bind_eq_ret.mp h1
    simp at h3
    subst h3
    unfold RawVec.write at h1
    split at h1
    · simp at h1
      subst h1
      obtain ⟨e1, e2, e3⟩ := ih h2
      refine ⟨e1, e2, fun j hj => ?_⟩
      rw [e3 j (by show j < r.offset + (a + 1); omega)]
      show (if j = r.offset + a then some y else r.buf.cells j) = _
      rw [if_neg (by omega)]
    · simp at h1

theorem setLen_to {r r' : Request T} {n : Nat} (h : (panicWriter env).setLen r n = Run.ret r') :
    r'.offset = r.offset ∧ r'.buf.len = n + r.offset ∧ r'.buf.cells = r.buf.cells := by
  have h : (r.buf.setLenTo (n + r.offset) >>= fun buf => pure { r with buf }) = Run.ret r' := h
  obtain ⟨buf, h1, h2⟩ := Run.bind_eq_ret.mp h
  simp at h2
  subst h2
  unfold RawVec.setLenTo at h1
  split at h1
  · simp at h1
    subst h1
    exact ⟨rfl, rfl, rfl⟩
  · simp at h1

/-- An item of the vector that is gone stays gone. -/
theorem gone_step {op : WriterOp T} {s : Settled T} (hs : op.runPanicking panics env r = Run.ret s) {j : Nat} (h1 : r.offset ≤ j)
    (h2 : j < r.buf.len) (h3 : r.buf.cells j = none) :
    s.writer.offset = r.offset ∧ j < s.writer.buf.len ∧ s.writer.buf.cells j = none := by
  have hlen : (panicWriter env).len r = Run.ret (r.buf.len - r.offset) := by
    show usizeSub _ _ _ = _
    rw [usizeSub_ret _ (by omega)]
  have writes : ∀ (ys : List T) (r' r'' : Request T), (panicWriter env).writeMany r (r.buf.len - r.offset) ys = Run.ret r' →
      (panicWriter env).setLen r' (r.buf.len - r.offset + ys.length) = Run.ret r'' →
      r''.offset = r.offset ∧ j < r''.buf.len ∧ r''.buf.cells j = none := by
    intro ys r' r'' e1 e2
    obtain ⟨a1, a2, a3⟩ := writeMany_ret e1
    obtain ⟨b1, b2, b3⟩ := setLen_to e2
    refine ⟨b1.trans a1, by rw [b2, a1]; omega, ?_⟩
    rw [b3, a3 j (by omega), h3]
  cases op with
  | push x =>
    simp only [WriterOp.runPanicking] at hs
    obtain ⟨⟨o, w⟩, hp, he⟩ := Run.bind_eq_ret.mp hs
    simp at he
    subst he
    unfold BufferWriter.pushItem at hp
    rw [hlen, Run.ret_bind] at hp
    obtain ⟨c, -, hp⟩ := Run.bind_eq_ret.mp hp
    split at hp
    · simp at hp
      obtain ⟨-, rfl⟩ := hp
      exact ⟨rfl, h2, h3⟩
    · obtain ⟨w₁, e1, hp⟩ := Run.bind_eq_ret.mp hp
      obtain ⟨w₂, e2, hp⟩ := Run.bind_eq_ret.mp hp
      simp at hp
      obtain ⟨-, rfl⟩ := hp
      refine writes [x] w₁ w₂ ?_ e2
      simp only [BufferWriter.writeMany, e1, Run.ret_bind]
      rfl
  | fill ys =>
    simp only [WriterOp.runPanicking] at hs
    obtain ⟨⟨a, len⟩, hsp, he⟩ := Run.bind_eq_ret.mp hs
    have ha : a = r.buf.len - r.offset := by
      unfold BufferWriter.spareCapacity at hsp
      rw [hlen, Run.ret_bind] at hsp
      obtain ⟨c, -, hsp⟩ := Run.bind_eq_ret.mp hsp
      obtain ⟨d, -, hsp⟩ := Run.bind_eq_ret.mp hsp
      obtain ⟨d, -, hsp⟩ := Run.bind_eq_ret.mp hsp
      simp at hsp
      exact hsp.1.symm
    subst ha
    simp only at he
    split at he
    · obtain ⟨w₁, e1, he⟩ := Run.bind_eq_ret.mp he
      obtain ⟨w₂, e2, he⟩ := Run.bind_eq_ret.mp he
      simp at he
      subst he
      exact writes ys w₁ w₂ e1 e2
    · simp at he
      subst he
      exact ⟨rfl, h2, h3⟩
  | raw ys =>
    simp only [WriterOp.runPanicking] at hs
    rw [hlen, Run.ret_bind] at hs
    obtain ⟨w₁, e1, hs⟩ := Run.bind_eq_ret.mp hs
    obtain ⟨w₂, e2, hs⟩ := Run.bind_eq_ret.mp hs
    simp at hs
    subst hs
    exact writes ys w₁ w₂ e1 e2
  | set i x =>
    simp only [WriterOp.runPanicking, Request.setItem] at hs
    rw [hlen, Run.ret_bind] at hs
    split at hs
    · obtain ⟨old, hr, hs⟩ := Run.bind_eq_ret.mp hs
      have hr : r.buf.read (r.offset + i) = Run.ret old := hr
      have hx : r.offset + i < r.buf.cap ∧ r.buf.cells (r.offset + i) = some old := by
        unfold RawVec.read at hr
        split at hr
        · rename_i hi
          split at hr
          · rename_i y hy; simp at hr; subst hr; exact ⟨hi, hy⟩
          · simp at hr
        · simp at hr
      obtain ⟨w₁, e1, hs⟩ := Run.bind_eq_ret.mp hs
      have e1 : (r.buf.dropAt (r.offset + i) >>= fun buf => pure { r with buf }) = Run.ret w₁ := e1
      rw [(dropAt_some hx.1 hx.2).2, Run.ret_bind] at e1
      simp at e1
      subst e1
      obtain ⟨w₂, e2, hs⟩ := Run.bind_eq_ret.mp hs
      simp at hs
      subst hs
      have e2 : (RawVec.write _ (r.offset + i) x >>= fun buf => pure { r with buf }) = Run.ret w₂ := e2
      rw [write_ret (by exact hx.1), Run.ret_bind] at e2
      simp at e2
      subst e2
      refine ⟨rfl, h2, ?_⟩
      have hne : j ≠ r.offset + i := by rintro rfl; rw [hx.2] at h3; simp at h3
      show (if j = r.offset + i then some x else if j = r.offset + i then none else r.buf.cells j) = none
      rw [if_neg hne, if_neg hne, h3]
    · split at hs
      · simp at hs
      · simp at hs
        subst hs
        exact ⟨rfl, h2, h3⟩
  | shrink n =>
    simp only [WriterOp.runPanicking, Request.shrinkTo] at hs
    rw [hlen, Run.ret_bind] at hs
    split at hs
    · simp at hs
      subst hs
      exact ⟨rfl, h2, h3⟩
    · rename_i hn
      split at hs
      · simp at hs
        subst hs
        exact ⟨rfl, h2, h3⟩
      · obtain ⟨⟨p, buf, ds⟩, hd, hs⟩ := Run.bind_eq_ret.mp hs
        obtain ⟨d1, d2, d3, d4, d5, d6⟩ := dropItems_ret hd
        have hj : j < r.offset + n := by
          apply Classical.byContradiction
          intro hge
          exact d4 j (by omega) (by omega) h3
        simp only at hs
        split at hs
        · simp at hs
          subst hs
          exact ⟨rfl, by rw [d1]; exact h2, by rw [d3 j hj, h3]⟩
        · obtain ⟨w₂, e2, hs⟩ := Run.bind_eq_ret.mp hs
          simp at hs
          subst hs
          obtain ⟨b1, b2, b3⟩ := setLen_to e2
          refine ⟨b1, by rw [b2]; show j < n + r.offset; omega, ?_⟩
          rw [b3]
          show buf.cells j = none
          rw [d3 j hj, h3]

/-- C113, exactly: unless a `shrink_to` panicked after it had begun to drop items, the writer is sound, and the items that were
there or went in are those handed back, those dropped and those still there. If one did, some item that counts as written is gone
already. -/
theorem C113_exact (h : RequestView toAppend pre start xs room) (hh : Handled panics env start hist r) :
    (¬ Torn hist ∧ ∃ ys, RequestView toAppend pre r ys room ∧
      (xs ++ suppliedOf hist).Perm (backOf hist ++ (droppedOf hist ++ ys))) ∨
    (Torn hist ∧ r.offset = pre.length ∧ ∃ j, pre.length ≤ j ∧ j < r.buf.len ∧ r.buf.cells j = none) := by
  induction hh with
  | start => exact .inl ⟨(fun ⟨_, _, hm, _⟩ => nomatch hm), xs, h, by simp [suppliedOf, backOf, droppedOf]⟩
  | @step hist r op s _ hs ih =>
    rcases ih with ⟨ht, ys, hv, hp⟩ | ⟨ht, ho, j, h1, h2, h3⟩
    · rcases settled_step hv hs with ⟨⟨zs, hv', hp'⟩, hn⟩ | ⟨hn, ho, j, h1, h2, h3⟩
      · refine .inl ⟨fun h => (torn_append.mp h).elim ht hn, zs, hv', ?_⟩
        rw [suppliedOf_append, backOf_append, droppedOf_append]
        simp only [suppliedOf, backOf, droppedOf, List.append_nil]
        rw [← List.append_assoc]
        refine (hp.append_right _).trans ?_
        rw [List.append_assoc, List.append_assoc (backOf hist), List.append_assoc (droppedOf hist)]
        refine List.Perm.append_left _ ?_
        refine (hp'.append_left _).trans ?_
        exact perm_swap_middle _ _ _ _
      · exact .inr ⟨torn_append.mpr (.inr hn), ho, j, by rw [← ho]; exact h1, h2, h3⟩
    · obtain ⟨e1, e2, e3⟩ := gone_step hs (by rw [ho]; exact h1) h2 h3
      exact .inr ⟨torn_append.mpr (.inl ht), e1.trans ho, j, h1, e2, e3⟩

/-! ## From a request on -/

variable {buf : RawVec T} {pend : List T} {n : Nat}

/-- The memory of a request. -/
theorem request_view (hb : Holds buf pend) (hreq : Control.requestWriter env { buf := buf } n = Run.ret start) :
    ∃ app pre room, RequestView start.toAppend pre start [] room ∧ Holds start.toAppend app ∧ app ++ pre = pend := by
  rcases requestWriter_cases hb hreq with ⟨-, hv⟩ | ⟨-, c, got, -, -, hv⟩
  · refine ⟨[], pend, buf.cap - pend.length, ?_, ?_, rfl⟩
    · rw [hv.toAppend]; exact hv
    · rw [hv.toAppend]; exact holds_empty _
  · refine ⟨pend, [], got, ?_, ?_, List.append_nil _⟩
    · rw [hv.toAppend]; exact hv
    · rw [hv.toAppend]; exact hb

/-- Dropping a vector that is sound. -/
theorem dropVec_holds {v : RawVec T} {zs : List T} (h : Holds v zs) :
    ((zs.filter panics).length ≤ 1 → v.dropVec panics = Run.ret (zs.any panics, zs)) ∧
    (2 ≤ (zs.filter panics).length → v.dropVec panics = Run.fault .abort) := by
  have hc : CellsAre v 0 zs := by
    intro i _
    rw [Nat.zero_add]
    exact h.cells i
  have hd := dropItems_all (panics := panics) (u := false) (v := v) (i := 0) (ys := zs) (by rw [Nat.zero_add]; exact h.fits) hc
  unfold RawVec.dropVec
  rw [h.len]
  refine ⟨fun hp => ?_, fun hp => ?_⟩
  · rw [hd.1 (by simpa using hp), Run.ret_bind]
    simp only [Bool.false_or]
    rfl
  · rw [hd.2 (by simpa using hp) (by simp) (by omega)]
    rfl

/-- Cancelling. -/
theorem cancelled_view (h : RequestView toAppend pre r xs room) :
    ((xs.filter panics).length ≤ 1 → ∃ v, r.cancelled panics = Run.ret (xs.any panics, v, xs) ∧ Holds v pre) ∧
    (2 ≤ (xs.filter panics).length → r.cancelled panics = Run.fault .abort) := by
  have hf := h.holds.fits
  rw [List.length_append] at hf
  have hc : CellsAre ({ r.buf with len := r.offset } : RawVec T) r.offset xs := by
    have := h.behind (n := 0) (by omega)
    rw [Nat.add_zero, List.drop_zero] at this
    exact this
  have hd := dropItems_all (panics := panics) (u := false) (v := { r.buf with len := r.offset }) (i := r.offset) (ys := xs)
    (by show _ ≤ r.buf.cap; rw [h.offset]; omega) hc
  have hl : r.buf.len - r.offset = xs.length := by rw [h.holds.len, h.offset, List.length_append]; omega
  unfold Request.cancelled
  rw [if_pos (by rw [h.holds.len, h.offset, List.length_append]; omega), hl]
  refine ⟨fun hp => ?_, fun hp => ?_⟩
  · rw [hd.1 (by simpa using hp), Bool.false_or]
    refine ⟨_, rfl, ⟨h.offset, by show _ ≤ r.buf.cap; omega, fun i => ?_⟩⟩
    show (if r.offset ≤ i ∧ i < r.offset + xs.length then none else r.buf.cells i) = _
    rw [h.offset, h.holds.cells i]
    by_cases hi : i < pre.length
    · rw [if_neg (by omega), List.getElem?_append_left hi]
    · rw [List.getElem?_eq_none (l := pre) (by omega)]
      by_cases hi' : i < pre.length + xs.length
      · rw [if_pos (by omega)]
      · rw [if_neg (by omega), List.getElem?_eq_none (by rw [List.length_append]; omega)]
  · exact hd.2 (by simpa using hp) (by simp) (by omega)

/-- C113: what `shrink_to(k)` does to a writer with `xs` written, by the number of items behind `k` whose destructors panic. With
none, it drops these items and the writer keeps the others. With one, it panics; all of them are dropped, yet they still count as
written. With more, the process is aborted. -/
theorem C113_shrink (h : RequestView toAppend pre r xs room) {k : Nat} (hk : k ≤ xs.length) :
    (((xs.drop k).filter panics).length = 0 → ∃ r', r.shrinkTo panics env k = Run.ret ⟨false, r', xs.drop k, []⟩ ∧
      RequestView toAppend pre r' (xs.take k) room) ∧
    (((xs.drop k).filter panics).length = 1 → ∃ buf, r.shrinkTo panics env k = Run.ret ⟨true, { r with buf }, xs.drop k, []⟩ ∧
      buf.len = pre.length + xs.length ∧ ∀ j, pre.length + k ≤ j → j < buf.len → buf.cells j = none) ∧
    (2 ≤ ((xs.drop k).filter panics).length → r.shrinkTo panics env k = Run.fault .abort) := by
  obtain ⟨-, c2, c3, c4⟩ := shrinkTo_cases (panics := panics) (env := env) h k
  refine ⟨c2 hk, fun h1 => ?_, c4 hk⟩
  obtain ⟨buf, e, b1, -, -, b4⟩ := c3 hk h1
  have hl : buf.len = pre.length + xs.length := by rw [b1, h.holds.len, List.length_append]
  exact ⟨buf, e, hl, fun j h1 h2 => b4 j h1 (by rw [← hl]; exact h2)⟩

/-- C113 in full: whatever the destructors do, no item is dropped twice: neither by a further operation, nor when the load is
cancelled, nor when the buffer is dropped. -/
def C113Statement : Prop :=
  ∀ (T : Type) (panics : T → Bool) (env : Env) (buf : RawVec T) (pend : List T) (n : Nat) (start r : Request T)
    (hist : List (WriterOp T × Settled T)), Holds buf pend → Control.requestWriter env { buf := buf } n = Run.ret start →
    Handled panics env start hist r →
    (∀ k, r.shrinkTo panics env k ≠ Run.fault .ub) ∧ (∀ i x, r.setItem panics env i x ≠ Run.fault .ub) ∧
    r.cancelled panics ≠ Run.fault .ub ∧ r.buf.dropVec panics ≠ Run.fault .ub

/-- C113, what is true: no `shrink_to` panicked after it had begun to drop items. Missing: histories in which one did. -/
theorem C113_partial (hb : Holds buf pend) (hreq : Control.requestWriter env { buf := buf } n = Run.ret start)
    (hh : Handled panics env start hist r) (ht : ¬ Torn hist) :
    (∀ k, r.shrinkTo panics env k ≠ Run.fault .ub) ∧ (∀ i x, r.setItem panics env i x ≠ Run.fault .ub) ∧
    r.cancelled panics ≠ Run.fault .ub ∧ r.buf.dropVec panics ≠ Run.fault .ub := by
  obtain ⟨app, pre, room, hv, -, -⟩ := request_view hb hreq
  rcases C113_exact hv hh with ⟨-, ys, hv, -⟩ | ⟨h, -⟩
  · refine ⟨fun k => ?_, fun i x => ?_, ?_, ?_⟩
    · obtain ⟨c1, c2, c3, c4⟩ := shrinkTo_cases (panics := panics) (env := env) hv k
      by_cases hk : k ≤ ys.length
      · by_cases h0 : ((ys.drop k).filter panics).length = 0
        · obtain ⟨r', e, -⟩ := c2 hk h0; rw [e]; simp
        · by_cases h1 : ((ys.drop k).filter panics).length = 1
          · obtain ⟨r', e, -⟩ := c3 hk h1; rw [e]; simp
          · rw [c4 hk (by omega)]; simp
      · rw [c1 (by omega)]; simp
    · have L := panicWriter_lawful env start.toAppend pre
      unfold Request.setItem
      rw [L.len hv, Run.ret_bind]
      by_cases hi : i < ys.length
      · obtain ⟨w₂, e, -⟩ := L.replace x hv hi
        rw [if_pos hi, L.read hv i hi, Run.ret_bind, ← Run.bind_assoc', e]
        simp
      · rw [if_neg hi]
        split <;> simp
    · obtain ⟨hc1, hc2⟩ := cancelled_view (panics := panics) hv
      by_cases hp : (ys.filter panics).length ≤ 1
      · obtain ⟨b, e, -⟩ := hc1 hp; rw [e]; simp
      · rw [hc2 (by omega)]; simp
    · obtain ⟨d1, d2⟩ := dropVec_holds (panics := panics) hv.holds
      by_cases hp : ((pre ++ ys).filter panics).length ≤ 1
      · rw [d1 hp]; simp
      · rw [d2 (by omega)]; simp
  · exact absurd h ht

/-- C113: while no `shrink_to` panicked that way, and once the memory is dropped too, the items there were and those that went in
are exactly those handed back and those dropped. -/
theorem C113_conservation (hb : Holds buf pend) (hreq : Control.requestWriter env { buf := buf } n = Run.ret start)
    (hh : Handled panics env start hist r) (ht : ¬ Torn hist) {p q : Bool} {ds es : List T}
    (hd : r.toAppend.dropVec panics = Run.ret (p, ds)) (he : r.buf.dropVec panics = Run.ret (q, es)) :
    (pend ++ suppliedOf hist).Perm (backOf hist ++ (droppedOf hist ++ (ds ++ es))) := by
  obtain ⟨app, pre, room, hv, ha, rfl⟩ := request_view hb hreq
  rcases C113_exact hv hh with ⟨-, ys, hv, hp⟩ | ⟨h, -⟩
  · have drop : ∀ {v : RawVec T} {zs ds : List T} {p : Bool}, Holds v zs → v.dropVec panics = Run.ret (p, ds) → ds = zs := by
      intro v zs ds p hv hd
      obtain ⟨d1, d2⟩ := dropVec_holds (panics := panics) hv
      by_cases hp : (zs.filter panics).length ≤ 1
      · rw [d1 hp] at hd; simp at hd; exact hd.2.symm
      · rw [d2 (by omega)] at hd; simp at hd
    rw [hv.toAppend] at hd
    rw [drop ha hd, drop hv.holds he]
    rw [List.nil_append] at hp
    refine (hp.append_left _).trans ?_
    refine (perm_swap_middle _ _ _ _).trans (List.Perm.append_left _ ?_)
    rw [← List.append_assoc app, ← List.append_assoc (droppedOf hist)]
    exact List.perm_append_comm.append_right _
  · exact absurd h ht

/-- C113: a cancelled load drops the items of its writer, each once, and leaves the pending ones, also if one destructor panics. -/
theorem C113_cancel (hb : Holds buf pend) (hreq : Control.requestWriter env { buf := buf } n = Run.ret start)
    (hh : Handled panics env start hist r) (ht : ¬ Torn hist) {p : Bool} {v : RawVec T} {ds : List T}
    (hc : r.cancelled panics = Run.ret (p, v, ds)) :
    (suppliedOf hist).Perm (backOf hist ++ (droppedOf hist ++ ds)) ∧ ∃ app pre, Holds r.toAppend app ∧ Holds v pre ∧ app ++ pre = pend := by
  obtain ⟨app, pre, room, hv, ha, hap⟩ := request_view hb hreq
  rcases C113_exact hv hh with ⟨-, ys, hv, hp⟩ | ⟨h, -⟩
  · obtain ⟨hc1, hc2⟩ := cancelled_view (panics := panics) hv
    by_cases hpan : (ys.filter panics).length ≤ 1
    · obtain ⟨b, e, hb⟩ := hc1 hpan
      rw [e] at hc
      simp at hc
      obtain ⟨-, rfl, rfl⟩ := hc
      rw [List.nil_append] at hp
      exact ⟨hp, app, pre, by rw [hv.toAppend]; exact ha, hb, hap⟩
    · rw [hc2 (by omega)] at hc
      simp at hc
  · exact absurd h ht

/-- C113: after such a panic, cancelling the load or dropping the buffer drops some item again, unless other destructors that panic
have the process aborted before. -/
theorem C113_torn (hb : Holds buf pend) (hreq : Control.requestWriter env { buf := buf } n = Run.ret start)
    (hh : Handled panics env start hist r) (ht : Torn hist) :
    (r.cancelled panics = Run.fault .ub ∨ r.cancelled panics = Run.fault .abort) ∧
    (r.buf.dropVec panics = Run.fault .ub ∨ r.buf.dropVec panics = Run.fault .abort) := by
  obtain ⟨app, pre, room, hv, ha, hap⟩ := request_view hb hreq
  rcases C113_exact hv hh with ⟨h, -⟩ | ⟨-, ho, j, h1, h2, h3⟩
  · exact absurd ht h
  · constructor
    · unfold Request.cancelled
      rw [if_pos (by omega)]
      exact dropItems_gone (j := j) (by omega) (by omega) h3
    · unfold RawVec.dropVec
      rcases dropItems_gone (panics := panics) (v := r.buf) (u := false) (i := 0) (k := r.buf.len) (j := j) (by omega) (by omega) h3 with
        e | e <;> rw [e]
      · exact .inl rfl
      · exact .inr rfl

/-- A source pushes 7 and 8, and shortens that to the first. Dropping 8 panics. -/
theorem torn_case : ∃ (start r : Request Nat) (hist : List (WriterOp Nat × Settled Nat)),
    Control.requestWriter plainEnv ({ buf := .empty 0 } : Control Nat) 8 = Run.ret start ∧ Handled (· == 8) plainEnv start hist r ∧
    Torn hist ∧ droppedOf hist = [8] ∧ r.buf.dropVec (· == 8) = Run.fault .ub := by
  refine ⟨_, _, _, rfl, .step (.step (.step .start (op := .push 7) rfl) (op := .push 8) rfl) (op := .shrink 1) rfl, ?_, rfl, rfl⟩
  exact ⟨1, _, List.mem_append_right _ (List.mem_singleton.mpr rfl), rfl, List.cons_ne_nil _ _⟩

/-- C113 is false. -/
theorem C113_false : ¬ C113Statement := by
  intro h
  obtain ⟨start, r, hist, hreq, hh, -, -, hub⟩ := torn_case
  exact (h Nat _ _ _ [] 8 start r hist (holds_empty 0) hreq hh).2.2.2 hub

/-- With destructors that do not panic the same source is fine. -/
example : ∃ (start r : Request Nat) (hist : List (WriterOp Nat × Settled Nat)),
    Control.requestWriter plainEnv ({ buf := .empty 0 } : Control Nat) 8 = Run.ret start ∧ Handled (· == 9) plainEnv start hist r ∧
    ¬ Torn hist ∧ droppedOf hist = [8] ∧ r.buf.dropVec (· == 9) = Run.ret (false, [7]) := by
  refine ⟨_, _, _, rfl, .step (.step (.step .start (op := .push 7) rfl) (op := .push 8) rfl) (op := .shrink 1) rfl, ?_, rfl, rfl⟩
  rintro ⟨n, s, hm, hp, -⟩
  simp only [List.nil_append, List.cons_append, List.mem_cons, Prod.mk.injEq, List.not_mem_nil, or_false] at hm
  rcases hm with ⟨hm, -⟩ | ⟨hm, -⟩ | ⟨-, rfl⟩
  · simp at hm
  · simp at hm
  · exact absurd hp (by decide)

end Parcom
