import Verif.Model.BinExprPanic
import Verif.Lemmas.BinExprSteps
/-!
# Dropping values that panic
-/
namespace Parcom
open Spec

variable {S T Op EOp ETerm Expr : Type} {b : Build} {ty : Ty} {mk : Expr → Op → Expr → Expr} {ofTerm : T → Expr}
  {panics : BinVal T Op Expr → Bool}

theorem dropValues_append (u : Bool) (xs ys : List (BinVal T Op Expr)) :
    dropValues panics u (xs ++ ys) = dropValues panics u xs >>= fun u => dropValues panics u ys := by
  induction xs generalizing u with
  | nil => simp [dropValues]
  | cons x xs ih =>
    simp only [List.cons_append, dropValues]
    split
    · split
      · simp
      · exact ih true
    · exact ih u

theorem dropValues_none (u : Bool) {xs : List (BinVal T Op Expr)} (h : xs.filter panics = []) :
    dropValues panics u xs = pure u := by
  induction xs with
  | nil => rfl
  | cons x xs ih =>
    by_cases hx : panics x = true
    · simp [hx] at h
    · rw [dropValues, if_neg hx]
      refine ih ?_
      simpa [List.filter_cons, hx] using h

theorem dropValues_one {xs : List (BinVal T Op Expr)} (h : (xs.filter panics).length = 1) :
    dropValues panics false xs = pure true := by
  induction xs with
  | nil => simp at h
  | cons x xs ih =>
    by_cases hx : panics x = true
    · rw [dropValues, if_pos hx, if_neg (by simp)]
      refine dropValues_none true (List.length_eq_zero_iff.mp ?_)
      simpa [List.filter_cons, hx] using h
    · rw [dropValues, if_neg hx]
      refine ih ?_
      simpa [List.filter_cons, hx] using h

theorem dropValues_more {xs : List (BinVal T Op Expr)} {u : Bool} (h : 2 ≤ u.toNat + (xs.filter panics).length) :
    dropValues panics u xs = Run.fault .abort := by
  induction xs generalizing u with
  | nil => cases u <;> simp at h
  | cons x xs ih =>
    by_cases hx : panics x = true
    · rw [dropValues, if_pos hx]
      cases u with
      | true => rfl
      | false =>
        refine ih ?_
        simp only [List.filter_cons, hx, if_true, List.length_cons, Bool.toNat_false, Bool.toNat_true] at h ⊢
        omega
    · rw [dropValues, if_neg hx]
      refine ih ?_
      simpa [List.filter_cons, hx] using h

/-- At most one panic. -/
theorem dropValues_ok {xs : List (BinVal T Op Expr)} {u : Bool} (h : u.toNat + (xs.filter panics).length ≤ 1) :
    dropValues panics u xs = pure (u || !(xs.filter panics).isEmpty) := by
  rcases Nat.lt_or_ge (xs.filter panics).length 1 with h1 | h1
  · have h2 : xs.filter panics = [] := List.length_eq_zero_iff.mp (by omega)
    rw [dropValues_none u h2, h2]
    simp
  · have hu : u = false := by cases u with
      | false => rfl
      | true => simp at h; omega
    subst hu
    rw [dropValues_one (by simp at h; omega)]
    have : xs.filter panics ≠ [] := fun h => by simp [h] at h1
    simp [this]

theorem ownedPairs_cons (p : Expr × Op) (l : List (Expr × Op)) :
    (ownedPairs (p :: l) : List (BinVal T Op Expr)) = ownedPairs [p] ++ ownedPairs l := by simp [ownedPairs]

theorem dropPairs_eq {w : World (Expr × Op)} {l : List (Expr × Op)} (h : VecRel ty w.mem w.vec l) {p : Ptr}
    (hp : asPtr w = (.ok p, w)) (u : Bool) (k i : Nat) (hk : i + k = l.length) (log : List (Expr × Op)) :
    dropPairs panics ty p u i k { w with mem := { w.mem with dropped := log } } =
      dropValues panics u (ownedPairs (l.drop i)) >>= fun u =>
        pure (u, { w with mem := { w.mem with dropped := log ++ l.drop i } }) := by
  induction k generalizing i log u with
  | zero =>
    rw [dropPairs, List.drop_eq_nil_of_le (by omega), List.append_nil]
    simp [ownedPairs, dropValues]
  | succ k ih =>
    have hi : l[i]? = some l[i] := List.getElem?_eq_getElem (by omega)
    have h' : VecRel ty ({ w.mem with dropped := log } : Mem (Expr × Op)) w.vec l := h.frame fun _ _ => rfl
    have hp' : Parcom.asPtr ({ w with mem := { w.mem with dropped := log } } : World (Expr × Op)) =
        (.ok p, { w with mem := { w.mem with dropped := log } }) := by
      have hp := hp
      unfold Parcom.asPtr at hp ⊢
      revert hp
      dsimp only
      split <;> split <;> simp
    have hr : World.exec { w with mem := { w.mem with dropped := log } } (p.read ty i) =
        pure (l[i], { w with mem := { w.mem with dropped := log } }) := by
      rw [World.exec, read_ok' (w := { w with mem := { w.mem with dropped := log } }) h' hp' hi]
    have hd : l.drop i = l[i] :: l.drop (i + 1) := List.drop_eq_getElem_cons (by omega)
    rw [dropPairs, hr, hd, ownedPairs_cons, dropValues_append]
    simp only [Run.pure_bind', Run.bind_assoc']
    congr 1
    funext u'
    have hw : World.drop l[i] { w with mem := { w.mem with dropped := log } } =
      ({ w with mem := { w.mem with dropped := log ++ [l[i]] } } : World (Expr × Op)) := rfl
    have ha : log ++ l[i] :: l.drop (i + 1) = (log ++ [l[i]]) ++ l.drop (i + 1) := by simp
    rw [hw, ha]
    exact ih u' (i + 1) (by omega) (log ++ [l[i]])

/-- Dropping the stack drops its values; the block is given back if none of them panics. -/
theorem dropStack_eq {w : World (Expr × Op)} {l : List (Expr × Op)} (h : VecRel ty w.mem w.vec l) :
    ∃ w' : World (Expr × Op), (∀ u, dropStack panics ty u w = dropValues panics u (ownedPairs l) >>= fun u => pure (u, w')) ∧
      w'.mem.dropped = w.mem.dropped ++ l ∧
      (((ownedPairs l).filter panics = [] → w.exec (dropVec ty) = pure ((), w') ∧ (∀ q, w.vec.block ≠ some q → w'.mem.blocks q = w.mem.blocks q) ∧
          ∀ q, w.vec.block = some q → w'.mem.blocks q = none) ∧
        ((ownedPairs l).filter panics ≠ [] → w'.mem.blocks = w.mem.blocks)) := by
  obtain ⟨p, hp⟩ := h.asPtr
  have h0 := fun u => dropPairs_eq (panics := panics) h hp u w.vec.len 0 (by rw [h.len]; omega) w.mem.dropped
  simp only [List.drop_zero] at h0
  have hx : w.exec asPtr = pure (p, w) := by rw [World.exec, hp]
  have hdr := dropRange_ok h hp w.vec.len 0 (by rw [h.len]; omega) w.mem.dropped
  rw [List.drop_zero] at hdr
  have hdr : dropRange ty p 0 w.vec.len w = _ := hdr
  by_cases hc : (ownedPairs l).filter panics = []
  · simp only [dropValues_none _ hc] at h0 ⊢
    rcases asPtr_ok h with ⟨hh, -, -, cells, hd, -⟩ | ⟨hh, -, -, -, h4, q, blk, hp', hd, hb, hbytes, -⟩
    · refine ⟨{ w with mem := { w.mem with dropped := w.mem.dropped ++ l } }, ?_, rfl,
        fun _ => ⟨?_, fun _ _ => rfl, fun q hq => by simp [SVec.block, hd] at hq⟩, fun h => absurd hc h⟩
      rotate_left
      · rw [World.exec, dropVec]
        simp only [Act.get_bind_run]
        rw [Act.bind_ok hp, Act.bind_ok hdr, if_neg (by simp [hh])]
        rfl
      intro u
      unfold dropStack
      rw [hx, Run.pure_bind']
      simp only [h0, Run.pure_bind']
      rw [if_neg (by simp), if_neg (by simp [hh])]
    · rw [hp] at hp'
      simp at hp'
      subst hp'
      refine ⟨{ w with mem := { w.mem with dropped := w.mem.dropped ++ l }.set q none }, ?_, rfl, fun _ => ⟨?_, ?_, ?_⟩, fun h => absurd hc h⟩
      rotate_left
      · have hl : ∀ w' : World (Expr × Op), layoutArray ty w.vec.cap w' = (.ok (ty.size * w.vec.cap), w') := by
          intro w'; simp [layoutArray, h4]
        rw [World.exec, dropVec]
        simp only [Act.get_bind_run]
        rw [Act.bind_ok hp, Act.bind_ok hdr, if_pos hh, Act.bind_ok (hl _)]
        simp [onMem, Mem.dealloc, hb, hbytes]
      rotate_right
      · have hl : ∀ w' : World (Expr × Op), w'.exec (layoutArray ty w.vec.cap) = pure (ty.size * w.vec.cap, w') := by
          intro w'; simp [World.exec, layoutArray, h4]
        intro u
        unfold dropStack
        rw [hx, Run.pure_bind']
        simp only [h0, Run.pure_bind']
        rw [if_neg (by simp), if_pos hh, hl, Run.pure_bind']
        simp [World.exec, onMem, Mem.dealloc, hb, hbytes]
      · intro r hr
        rw [SVec.block, hd] at hr
        exact if_neg fun (h : r = q) => hr (congrArg some h.symm)
      · intro r hr
        rw [SVec.block, hd] at hr
        exact if_pos (Option.some.inj hr).symm
  · refine ⟨{ w with mem := { w.mem with dropped := w.mem.dropped ++ l } }, ?_, rfl, fun h => absurd h hc, fun _ => rfl⟩
    intro u
    unfold dropStack
    rw [hx, Run.pure_bind']
    simp only [h0, Run.bind_assoc', Run.pure_bind']
    have h1 : 1 ≤ ((ownedPairs l).filter panics).length := by
      rcases Nat.eq_zero_or_pos ((ownedPairs l).filter panics).length with h | h
      · exact absurd (List.length_eq_zero_iff.mp h) hc
      · exact h
    rcases Nat.lt_or_ge (u.toNat + ((ownedPairs l).filter panics).length) 2 with h2 | h2
    · rw [dropValues_ok (by omega)]
      have hu : u = false := by cases u with
        | false => rfl
        | true => simp at h2; omega
      subst hu
      simp [hc]
    · rw [dropValues_more h2]
      simp

/-- The block of the stack is new, and everything else in memory is as before. -/
theorem Keeps.blocks {mem : Mem (Expr × Op)} (hf : Fresh mem) {w : World (Expr × Op)} {l : List (Expr × Op)}
    (h : (BinStore.stack w).Keeps ty mem l) :
    (∀ q, w.vec.block ≠ some q → w.mem.blocks q = mem.blocks q) ∧
      (∀ q, w.vec.block = some q → mem.blocks q = none ∧ w.mem.blocks q ≠ none) ∧
      (w.vec.isHeap = true ↔ ∃ q, w.vec.block = some q) := by
  obtain ⟨h1, w₀, rfl, hb, -, fr⟩ := h
  refine ⟨fun q hq => ?_, fun q hq => ⟨?_, ?_⟩, ?_⟩
  · by_cases hlt : q < w₀.mem.next
    · exact fr.others q (by simp [hb]) hlt
    · rw [hf q (by omega)]
      refine Classical.byContradiction fun hne => ?_
      rcases fr.live q hne with h8 | ⟨-, h8⟩
      · exact hq h8
      · exact h8 (hf q (by omega))
  · rcases fr.owns with h8 | ⟨r, h8, h9⟩
    · rw [h8, hb] at hq; simp at hq
    · rw [h8] at hq; simp at hq; subst hq
      exact hf _ h9
  · rcases h1.place with ⟨-, cells, hd, -⟩ | ⟨-, -, -, -, p, blk, hd, hm, -⟩
    · simp [SVec.block, hd] at hq
    · simp [SVec.block, hd] at hq
      subst hq
      simp [hm]
  · rcases h1.place with ⟨hc, cells, hd, -⟩ | ⟨hc, -, -, -, p, blk, hd, -⟩
    · simp [SVec.block, hd, SVec.isHeap, hc]
    · simp [SVec.block, hd, SVec.isHeap, hc]

/-- Dropping what is alive, with a stack. -/
theorem dropPanicking_stack {mem : Mem (Expr × Op)} (hf : Fresh mem) {w : World (Expr × Op)} {l : List (Expr × Op)}
    (h : (BinStore.stack w).Keeps ty mem l) (u : Bool) (handed later earlier : List (BinVal T Op Expr)) :
    ∃ m : Mem (Expr × Op), (BinCut.dropPanicking panics ty u { handed, later, stack := some w, earlier } =
        dropValues panics u (handed ++ later ++ ownedPairs l ++ earlier) >>= fun u =>
          pure (u, some m, handed ++ later ++ ownedPairs l ++ earlier)) ∧
      m.dropped = w.mem.dropped ++ l ∧
      ((ownedPairs l).filter panics = [] → (∃ w', w.exec (dropVec ty) = pure ((), w') ∧ w'.mem = m) ∧
        ∀ q, m.blocks q = mem.blocks q) ∧
      ((ownedPairs l).filter panics ≠ [] → m.blocks = w.mem.blocks) := by
  obtain ⟨hb1, hb2, -⟩ := Keeps.blocks hf h
  obtain ⟨w', hw, h2, h3, h4⟩ := dropStack_eq (panics := panics) h.1
  refine ⟨w'.mem, ?_, h2, fun hc => ?_, h4⟩
  · rw [dropValues_append, dropValues_append]
    unfold BinCut.dropPanicking
    simp only [Run.bind_assoc', hw, Run.pure_bind', h2, List.drop_left]
  · obtain ⟨h5, h6, h7⟩ := h3 hc
    refine ⟨⟨w', h5, rfl⟩, fun q => ?_⟩
    by_cases hq : w.vec.block = some q
    · rw [h7 q hq, (hb2 q hq).1]
    · rw [h6 q hq, hb1 q hq]

section
variable [RewindSequence S]

/-- What is alive where `parse_impl` can be cut off. -/
theorem cut_alive {mem : Mem (Expr × Op)} (hz : 0 < ty.size) {st : BinState S T Op EOp ETerm Expr} {l : List (Expr × Op)}
    (h1 : st.store.Keeps ty mem l) {c : BinCut T Op Expr} (hc : st.cut b ty = some c) :
    (c.stack = none ∧ l = [] ∧ (c.handed ++ c.later ++ c.earlier).Perm st.alive) ∨
      ∃ w, c.stack = some w ∧ (BinStore.stack w).Keeps ty mem l ∧ (c.handed ++ c.later ++ c.earlier).Perm st.alive := by
  cases st
  case first => simp [BinState.cut] at hc; subst hc; exact .inl ⟨rfl, h1.2, by simp [BinState.alive]⟩
  case convert => simp [BinState.cut] at hc; subst hc; exact .inl ⟨rfl, h1.2, by simp [BinState.alive]⟩
  case inner => simp [BinState.cut] at hc
  case last => simp [BinState.cut] at hc
  case ret => simp [BinState.cut] at hc
  case pushBack =>
    obtain ⟨h3, h4, h5, w', h6, h7⟩ := Keeps.cutPush hz h1 _ hc
    refine .inr ⟨w', h6, h7, ?_⟩
    rw [h3, h4, h5]
    refine perm_counts fun a => ?_
    simp only [BinState.alive, List.count_append, List.count_cons, List.count_nil]
    omega
  case push =>
    obtain ⟨h3, h4, h5, w', h6, h7⟩ := Keeps.cutPush hz h1 _ hc
    refine .inr ⟨w', h6, h7, ?_⟩
    rw [h3, h4, h5]
    refine perm_counts fun a => ?_
    simp only [BinState.alive, List.count_append, List.count_cons, List.count_nil]
    omega
  all_goals
    simp only [BinState.cut, Option.some.injEq] at hc
    subst hc
    refine .inr ⟨_, rfl, h1, perm_counts fun a => ?_⟩
    simp only [BinState.alive, List.count_append, List.count_cons, List.count_nil]
    omega

end
end Parcom
