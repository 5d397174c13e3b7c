import Verif.Lemmas.ShortVec
/-!
# Programs using any number of vectors
-/
namespace Parcom
open Spec

variable {α : Type}

/-- A vector and a list, or nothing on both sides. -/
inductive SlotRel (ty : Ty) (mem : Mem α) : Option (Option (SVec α)) → Option (Option (List α)) → Prop where
  | absent : SlotRel ty mem none none
  | gone : SlotRel ty mem (some none) (some none)
  | alive {v : SVec α} {l : List α} : VecRel ty mem v l → SlotRel ty mem (some (some v)) (some (some l))

/-- All vectors hold their lists, in blocks of their own, and the other blocks are those listed. -/
structure SysRel (ty : Ty) (leaked : List Nat) (sys : Sys α) (ls : Stacks α) : Prop where
  slots : ∀ k : Nat, SlotRel ty sys.mem sys.vecs[k]? ls[k]?
  disjoint : ∀ (i j : Nat) v v' q, i ≠ j → sys.vecs[i]? = some (some v) → sys.vecs[j]? = some (some v') →
    v.block = some q → v'.block ≠ some q
  owned : ∀ q, sys.mem.blocks q ≠ none → (∃ (k : Nat) (v : SVec α), sys.vecs[k]? = some (some v) ∧ v.block = some q) ∨ q ∈ leaked
  leaks : ∀ q ∈ leaked, sys.mem.blocks q ≠ none ∧ ∀ (k : Nat) v, sys.vecs[k]? = some (some v) → v.block ≠ some q
  fresh : Fresh sys.mem

variable {ty : Ty} {b : Build} {leaked : List Nat}

theorem SysRel.initial {sys : Sys α} (h : Sys.Initial sys) : SysRel ty [] sys [] := by
  obtain ⟨h1, h2, -, -⟩ := h
  refine ⟨fun k => ?_, ?_, ?_, fun _ h => absurd h (by simp), fun q _ => h2 q⟩
  · rw [h1]; simp; exact .absent
  · intro i j v v' q _ hi; simp [h1] at hi
  · intro q hq; exact absurd (h2 q) hq

theorem SysRel.at {sys : Sys α} {ls : Stacks α} (h : SysRel ty leaked sys ls) {k : Nat} {v : SVec α}
    (hk : sys.vecs[k]? = some (some v)) : ∃ l, ls[k]? = some (some l) ∧ VecRel ty sys.mem v l := by
  have hs := h.slots k
  rw [hk] at hs
  generalize ls[k]? = o at hs ⊢
  cases hs with
  | alive hv => exact ⟨_, rfl, hv⟩

theorem set_get {β : Type} {l : List β} {k : Nat} {x y : β} (hk : l[k]? = some y) (j : Nat) :
    (l.set k x)[j]? = if j = k then some x else l[j]? := by
  rw [List.getElem?_set]
  by_cases h : j = k
  · subst h
    rw [if_pos rfl, if_pos rfl, if_pos]
    apply Nat.lt_of_not_le
    intro hle
    rw [List.getElem?_eq_none_iff.mpr hle] at hk
    simp at hk
  · rw [if_neg (Ne.symm h), if_neg h]

/-- A method that keeps the invariant of its own vector keeps that of the system. -/
theorem SysRel.call {sys : Sys α} {ls : Stacks α} (h : SysRel ty leaked sys ls) {k : Nat} {v : SVec α}
    (hk : sys.vecs[k]? = some (some v)) {l l' : List α} (hl : ls[k]? = some (some l)) {w' : World α}
    (hr : VecRel ty w'.mem w'.vec l') (hfr : Frame { vec := v, mem := sys.mem } w') :
    SysRel ty leaked { vecs := sys.vecs.set k (some w'.vec), mem := w'.mem } (ls.set k (some l')) := by
  have own : ∀ (j : Nat) v', sys.vecs[j]? = some (some v') → ∀ q, v'.block = some q → q < sys.mem.next := by
    intro j v' hj q hq
    obtain ⟨_, -, hv⟩ := h.at hj
    exact hv.own_lt h.fresh q hq
  refine ⟨?_, ?_, ?_, ?_, hfr.fresh⟩
  · intro j
    show SlotRel ty w'.mem (sys.vecs.set k (some w'.vec))[j]? _
    rw [set_get hk, set_get hl]
    by_cases hj : j = k
    · rw [if_pos hj, if_pos hj]; exact .alive hr
    · rw [if_neg hj, if_neg hj]
      have hs := h.slots j
      generalize hx : sys.vecs[j]? = x at hs ⊢
      generalize ls[j]? = y at hs ⊢
      cases hs with
      | absent => exact .absent
      | gone => exact .gone
      | alive hv =>
        refine .alive (hv.frame fun q hq => hfr.others q ?_ (own j _ hx q hq))
        exact h.disjoint j k _ _ q hj hx hk hq
  · intro i j v₁ v₂ q hij hi hj hq
    dsimp only at hi hj
    rw [set_get hk] at hi hj
    by_cases hik : i = k
    · rw [if_pos hik] at hi
      rw [if_neg (by omega)] at hj
      simp at hi
      subst hi
      rcases hfr.owns with ho | ⟨r, ho, hle⟩
      · rw [ho] at hq
        exact h.disjoint k j _ _ q (by omega) hk hj hq
      · rw [ho] at hq
        simp at hq
        subst hq
        intro hq'
        have := own j _ hj r hq'
        dsimp only at hle
        omega
    · rw [if_neg hik] at hi
      by_cases hjk : j = k
      · rw [if_pos hjk] at hj
        simp at hj
        subst hj
        rcases hfr.owns with ho | ⟨r, ho, hle⟩
        · rw [ho]
          exact h.disjoint i k _ _ q (by omega) hi hk hq
        · rw [ho]
          have := own i _ hi q hq
          dsimp only at hle
          simp; omega
      · rw [if_neg hjk] at hj
        exact h.disjoint i j _ _ q hij hi hj hq
  · intro q hq
    rcases hfr.live q hq with ho | ⟨hne, hb⟩
    · exact .inl ⟨k, w'.vec, by dsimp only; rw [set_get hk, if_pos rfl], ho⟩
    · rcases h.owned q hb with ⟨j, v', hj, hjq⟩ | hq'
      case inr => exact .inr hq'
      refine .inl ⟨j, v', ?_, hjq⟩
      dsimp only
      rw [set_get hk, if_neg]
      · exact hj
      · intro hjk
        subst hjk
        rw [hk] at hj
        simp at hj
        subst hj
        exact hne hjq
  · intro q hq
    obtain ⟨h1, h2⟩ := h.leaks q hq
    have hlt : q < sys.mem.next := by
      apply Nat.lt_of_not_le
      intro hle
      exact h1 (h.fresh q hle)
    refine ⟨?_, ?_⟩
    · dsimp only
      rw [hfr.others q (h2 k v hk) hlt]
      exact h1
    · intro j v' hj
      dsimp only at hj
      rw [set_get hk] at hj
      by_cases hjk : j = k
      · rw [if_pos hjk] at hj
        simp at hj
        subst hj
        rcases hfr.owns with ho | ⟨r, ho, hle⟩
        · rw [ho]
          exact h2 k v hk
        · rw [ho]
          dsimp only at hle
          simp; omega
      · rw [if_neg hjk] at hj
        exact h2 j v' hj

/-- Dropping a vector. -/
theorem SysRel.dropped {sys : Sys α} {ls : Stacks α} (h : SysRel ty leaked sys ls) {k : Nat} {v v' : SVec α}
    (hk : sys.vecs[k]? = some (some v)) {l : List α} (hl : ls[k]? = some (some l)) {mem : Mem α}
    (hn : mem.next = sys.mem.next) (ho : ∀ q, v.block ≠ some q → mem.blocks q = sys.mem.blocks q)
    (hfree : ∀ q, v.block = some q → mem.blocks q = none) :
    SysRel ty leaked { vecs := (sys.vecs.set k (some v')).set k none, mem } (ls.set k none) := by
  rw [List.set_set]
  refine ⟨?_, ?_, ?_, ?_, ?_⟩
  · intro j
    dsimp only
    rw [set_get hk, set_get hl]
    by_cases hj : j = k
    · rw [if_pos hj, if_pos hj]; exact .gone
    · rw [if_neg hj, if_neg hj]
      have hs := h.slots j
      generalize hx : sys.vecs[j]? = x at hs ⊢
      generalize ls[j]? = y at hs ⊢
      cases hs with
      | absent => exact .absent
      | gone => exact .gone
      | alive hv => exact .alive (hv.frame fun q hq => ho q (h.disjoint j k _ _ q hj hx hk hq))
  · intro i j v₁ v₂ q hij hi hj hq
    dsimp only at hi hj
    rw [set_get hk] at hi hj
    by_cases hik : i = k
    · rw [if_pos hik] at hi; simp at hi
    · by_cases hjk : j = k
      · rw [if_pos hjk] at hj; simp at hj
      · rw [if_neg hik] at hi
        rw [if_neg hjk] at hj
        exact h.disjoint i j _ _ q hij hi hj hq
  · intro q hq
    by_cases hv : v.block = some q
    · exact absurd (hfree q hv) hq
    · dsimp only at hq
      rw [ho q hv] at hq
      rcases h.owned q hq with ⟨j, v', hj, hjq⟩ | hq'
      case inr => exact .inr hq'
      refine .inl ⟨j, v', ?_, hjq⟩
      dsimp only
      rw [set_get hk, if_neg]
      · exact hj
      · intro hjk
        subst hjk
        rw [hk] at hj
        simp at hj
        subst hj
        exact hv hjq
  · intro q hq
    obtain ⟨h1, h2⟩ := h.leaks q hq
    refine ⟨?_, ?_⟩
    · dsimp only
      rw [ho q (h2 k v hk)]
      exact h1
    · intro j v' hj
      dsimp only at hj
      rw [set_get hk] at hj
      by_cases hjk : j = k
      · rw [if_pos hjk] at hj; simp at hj
      · rw [if_neg hjk] at hj
        exact h2 j v' hj
  · intro q hq
    dsimp only at hq ⊢
    by_cases hv : v.block = some q
    · exact hfree q hv
    · rw [ho q hv]; exact h.fresh q (by omega)

/-- Dropping a vector without freeing its block. -/
theorem SysRel.leak {sys : Sys α} {ls : Stacks α} (h : SysRel ty leaked sys ls) {k : Nat} {v v' : SVec α}
    (hk : sys.vecs[k]? = some (some v)) {l : List α} (hl : ls[k]? = some (some l)) {mem : Mem α}
    (hn : mem.next = sys.mem.next) (ho : mem.blocks = sys.mem.blocks) :
    SysRel ty (v.block.toList ++ leaked) { vecs := (sys.vecs.set k (some v')).set k none, mem } (ls.set k none) := by
  rw [List.set_set]
  obtain ⟨_, -, hrel⟩ := h.at hk
  refine ⟨?_, ?_, ?_, ?_, ?_⟩
  · intro j
    dsimp only
    rw [set_get hk, set_get hl]
    by_cases hj : j = k
    · rw [if_pos hj, if_pos hj]; exact .gone
    · rw [if_neg hj, if_neg hj]
      have hs := h.slots j
      generalize hx : sys.vecs[j]? = x at hs ⊢
      generalize ls[j]? = y at hs ⊢
      cases hs with
      | absent => exact .absent
      | gone => exact .gone
      | alive hv => exact .alive (hv.frame fun q hq => by rw [ho])
  · intro i j v₁ v₂ q hij hi hj hq
    dsimp only at hi hj
    rw [set_get hk] at hi hj
    by_cases hik : i = k
    · rw [if_pos hik] at hi; simp at hi
    · by_cases hjk : j = k
      · rw [if_pos hjk] at hj; simp at hj
      · rw [if_neg hik] at hi
        rw [if_neg hjk] at hj
        exact h.disjoint i j _ _ q hij hi hj hq
  · intro q hq
    by_cases hv : v.block = some q
    · exact .inr (by simp [hv])
    · dsimp only at hq
      rw [ho] at hq
      rcases h.owned q hq with ⟨j, v', hj, hjq⟩ | hq'
      case inr => exact .inr (by simp [hq'])
      refine .inl ⟨j, v', ?_, hjq⟩
      dsimp only
      rw [set_get hk, if_neg]
      · exact hj
      · intro hjk
        subst hjk
        rw [hk] at hj
        simp at hj
        subst hj
        exact hv hjq
  · intro q hq
    have key : sys.mem.blocks q ≠ none ∧ ∀ (j : Nat) v', j ≠ k → sys.vecs[j]? = some (some v') → v'.block ≠ some q := by
      rcases List.mem_append.mp hq with hq | hq
      · have hq : v.block = some q := by simpa using hq
        refine ⟨?_, fun j v' hjk hj hb => h.disjoint j k _ _ q hjk hj hk hb hq⟩
        rcases hrel.place with ⟨-, cells, hd, -⟩ | ⟨-, -, -, -, p, blk, hd, hb, -⟩
        · simp [SVec.block, hd] at hq
        · simp [SVec.block, hd] at hq
          subst hq
          simp [hb]
      · obtain ⟨h1, h2⟩ := h.leaks q hq
        exact ⟨h1, fun j v' _ => h2 j v'⟩
    refine ⟨by dsimp only; rw [ho]; exact key.1, ?_⟩
    intro j v' hj
    dsimp only at hj
    rw [set_get hk] at hj
    by_cases hjk : j = k
    · rw [if_pos hjk] at hj; simp at hj
    · rw [if_neg hjk] at hj
      exact key.2 j v' hjk hj
  · intro q hq
    dsimp only at hq ⊢
    rw [ho]; exact h.fresh q (by omega)

theorem SlotRel.length {sys : Sys α} {ls : Stacks α} (h : ∀ k : Nat, SlotRel ty sys.mem sys.vecs[k]? ls[k]?) :
    sys.vecs.length = ls.length := by
  have side : ∀ k : Nat, sys.vecs[k]? = none ↔ ls[k]? = none := by
    intro k
    have := h k
    generalize sys.vecs[k]? = x at this
    generalize ls[k]? = y at this
    cases this <;> simp
  have h1 := side sys.vecs.length
  have h2 := side ls.length
  rw [List.getElem?_eq_none_iff, List.getElem?_eq_none_iff] at h1 h2
  have := h1.mp (Nat.le_refl _)
  have := h2.mpr (Nat.le_refl _)
  omega

/-- Creating a vector. -/
theorem SysRel.created {sys : Sys α} {ls : Stacks α} (h : SysRel ty leaked sys ls) {v : SVec α} {mem : Mem α}
    (hr : VecRel ty mem v []) (hf : Fresh mem)
    (hown : v.block = none ∨ ∃ q, v.block = some q ∧ sys.mem.next ≤ q)
    (ho : ∀ q, q < sys.mem.next → mem.blocks q = sys.mem.blocks q)
    (hlive : ∀ q, mem.blocks q ≠ none → v.block = some q ∨ sys.mem.blocks q ≠ none) :
    SysRel ty leaked { vecs := sys.vecs ++ [some v], mem } (ls ++ [some []]) := by
  have hlen := SlotRel.length h.slots
  have own : ∀ (j : Nat) v', sys.vecs[j]? = some (some v') → ∀ q, v'.block = some q → q < sys.mem.next := by
    intro j v' hj q hq
    obtain ⟨_, -, hv⟩ := h.at hj
    exact hv.own_lt h.fresh q hq
  have split : ∀ (j : Nat) v', (sys.vecs ++ [some v])[j]? = some (some v') →
      (j < sys.vecs.length ∧ sys.vecs[j]? = some (some v')) ∨ (j = sys.vecs.length ∧ v' = v) := by
    intro j v' hj
    by_cases hlt : j < sys.vecs.length
    · rw [List.getElem?_append_left hlt] at hj; exact .inl ⟨hlt, hj⟩
    · rw [List.getElem?_append_right (by omega)] at hj
      have hb : j < (sys.vecs ++ [some v]).length := by
        apply Nat.lt_of_not_le
        intro hle
        rw [List.getElem?_eq_none_iff.mpr (by simp at hle ⊢; omega)] at hj
        simp at hj
      simp at hb
      have : j = sys.vecs.length := by omega
      subst this
      simp at hj
      exact .inr ⟨rfl, hj.symm⟩
  refine ⟨?_, ?_, ?_, ?_, hf⟩
  · intro j
    dsimp only
    by_cases hlt : j < sys.vecs.length
    · rw [List.getElem?_append_left hlt, List.getElem?_append_left (by omega)]
      have hs := h.slots j
      generalize hx : sys.vecs[j]? = x at hs ⊢
      generalize ls[j]? = y at hs ⊢
      cases hs with
      | absent => exact .absent
      | gone => exact .gone
      | alive hv => exact .alive (hv.frame fun q hq => ho q (own j _ hx q hq))
    · rw [List.getElem?_append_right (by omega), List.getElem?_append_right (by omega), hlen]
      cases hd : j - ls.length with
      | zero => exact .alive hr
      | succ n => simp; exact .absent
  · intro i j v₁ v₂ q hij hi hj hq hq'
    dsimp only at hi hj
    rcases split i _ hi with ⟨_, hi'⟩ | ⟨hi', hv1⟩
    · rcases split j _ hj with ⟨_, hj'⟩ | ⟨hj', hv2⟩
      · exact h.disjoint i j _ _ q hij hi' hj' hq hq'
      · subst hv2
        have := own i _ hi' q hq
        rcases hown with h1 | ⟨r, h1, h2⟩
        · rw [h1] at hq'; simp at hq'
        · rw [h1] at hq'; simp at hq'; omega
    · subst hv1
      rcases split j _ hj with ⟨_, hj'⟩ | ⟨hj', -⟩
      · have := own j _ hj' q hq'
        rcases hown with h1 | ⟨r, h1, h2⟩
        · rw [h1] at hq; simp at hq
        · rw [h1] at hq; simp at hq; omega
      · omega
  · intro q hq
    rcases hlive q hq with h1 | h1
    · exact .inl ⟨sys.vecs.length, v, by simp, h1⟩
    · rcases h.owned q h1 with ⟨k, v', hk, hb⟩ | hq'
      case inr => exact .inr hq'
      refine .inl ⟨k, v', ?_, hb⟩
      dsimp only
      rw [List.getElem?_append_left]
      · exact hk
      · apply Nat.lt_of_not_le
        intro hle
        rw [List.getElem?_eq_none_iff.mpr hle] at hk
        simp at hk
  · intro q hq
    obtain ⟨h1, h2⟩ := h.leaks q hq
    have hlt : q < sys.mem.next := by
      apply Nat.lt_of_not_le
      intro hle
      exact h1 (h.fresh q hle)
    refine ⟨by dsimp only; rw [ho q hlt]; exact h1, ?_⟩
    intro j v' hj
    rcases split j _ hj with ⟨-, hj'⟩ | ⟨-, rfl⟩
    · exact h2 j v' hj'
    · rcases hown with h1 | ⟨r, h1, h2⟩ <;> rw [h1] <;> simp
      omega

/-- Changing the memory's log alone. -/
theorem SysRel.sameBlocks {sys : Sys α} {ls : Stacks α} (h : SysRel ty leaked sys ls) {mem : Mem α}
    (hb : mem.blocks = sys.mem.blocks) (hn : mem.next = sys.mem.next) : SysRel ty leaked { sys with mem } ls := by
  refine ⟨fun k => ?_, h.disjoint, fun q hq => h.owned q (by rw [← hb]; exact hq),
    fun q hq => ⟨by dsimp only; rw [hb]; exact (h.leaks q hq).1, (h.leaks q hq).2⟩, fun q hq => ?_⟩
  · have hs := h.slots k
    dsimp only
    generalize sys.vecs[k]? = x at hs ⊢
    generalize ls[k]? = y at hs ⊢
    cases hs with
    | absent => exact .absent
    | gone => exact .gone
    | alive hv => exact .alive (hv.frame fun q _ => by rw [hb])
  · dsimp only at hq ⊢; rw [hb]; exact h.fresh q (by omega)

theorem held_set {ls : Stacks α} {k : Nat} {l : List α} (hl : ls[k]? = some (some l)) :
    ∃ rest, (held ls).Perm (l ++ rest) ∧ ∀ o : Option (List α), (held (ls.set k o)).Perm (o.getD [] ++ rest) := by
  induction ls generalizing k with
  | nil => simp at hl
  | cons x ls ih =>
    cases k with
    | zero =>
      simp at hl
      subst hl
      exact ⟨held ls, by simp [held], fun o => by simp [held]⟩
    | succ k =>
      simp at hl
      obtain ⟨rest, h1, h2⟩ := ih hl
      refine ⟨x.getD [] ++ rest, ?_, fun o => ?_⟩
      · have : held (x :: ls) = x.getD [] ++ held ls := by simp [held]
        rw [this]
        exact (h1.append_left _).trans (by simpa [List.append_assoc] using List.perm_append_comm_assoc _ _ _)
      · have : held ((x :: ls).set (k + 1) o) = x.getD [] ++ held (ls.set k o) := by simp [held]
        rw [this]
        exact ((h2 o).append_left _).trans (by simpa [List.append_assoc] using List.perm_append_comm_assoc _ _ _)

theorem set_same {β : Type} {l : List β} {k : Nat} {x : β} (hk : l[k]? = some x) : l.set k x = l := by
  apply List.ext_getElem?
  intro j
  rw [set_get hk]
  by_cases h : j = k
  · rw [if_pos h, h, hk]
  · rw [if_neg h]

/-- What one operation may do. -/
def Steps (ty : Ty) (leaked : List Nat) (sys sys' : Sys α) (ls : Stacks α) (op : VecOp α) (res : Except Fault (VecOut α)) : Prop :=
  (res = .error .abort ∧ VecOp.mayAllocate op = true ∧ sys.mem.grants sys.mem.requests = false ∧ ¬ VecOp.inline sys op) ∨
  ∃ ls', (ls.run op = some (res, ls') ∨
      (VecOp.mayAllocate op = true ∧ res = .error .assertion ∧ ls' = ls ∧ ¬ VecOp.fits ty sys op)) ∧
    SysRel ty leaked sys' ls' ∧
    (given [(op, res)] ++ (sys.mem.dropped ++ held ls)).Perm
      (handedOut [(op, res)] ++ (sys'.mem.dropped ++ held ls')) ∧
    (VecOp.inline sys op → sys'.mem.requests = sys.mem.requests)

theorem call_some {β : Type} {sys sys' : Sys α} {k : Nat} {x : Act (World α) β} {out : β → VecOut α}
    {res : Except Fault (VecOut α)} (h : sys.call k x out = some (res, sys')) :
    ∃ v, sys.vecs[k]? = some (some v) ∧ ∃ r w, x { vec := v, mem := sys.mem } = (r, w) ∧ res = r.map out ∧
      sys' = { vecs := sys.vecs.set k (some w.vec), mem := w.mem } := by
  unfold Sys.call at h
  split at h
  · rename_i v hv
    refine ⟨v, hv, _, _, rfl, ?_⟩
    simp at h
    exact ⟨h.1.symm, h.2.symm⟩
  · simp at h

theorem step_rel {sys sys' : Sys α} {ls : Stacks α} {op : VecOp α} {res : Except Fault (VecOut α)}
    (h : SysRel ty leaked sys ls) (ht : VecOp.typed ty op) (hz : 0 < ty.size ∨ VecOp.inline sys op)
    (hrun : sys.run b ty op = some (res, sys')) : Steps ty leaked sys sys' ls op res := by
  cases op with
  | new n cap =>
    have htyped : n ≤ usizeMax ∧ (0 < ty.size → n ≤ isizeMax) :=
      ⟨ht.1, fun hs => Nat.le_trans (Nat.le_mul_of_pos_left n hs) ht.2⟩
    simp only [Sys.run] at hrun
    rcases withCapacity_rel (ty := ty) h.fresh n cap htyped hz with
      ⟨v, mem', h1, h2, h3, h4, h5, h6, h7, h8, h9, h10⟩ | ⟨h1, h2⟩ | ⟨mem', h1, h2, h3⟩
    · rw [h1] at hrun
      simp at hrun
      obtain ⟨rfl, rfl⟩ := hrun
      refine .inr ⟨_, .inl rfl, h.created h2 h4 h7 h8 h9, ?_, h10⟩
      simp [given, handedOut, held, h6]
    · rw [h1] at hrun
      simp at hrun
      obtain ⟨rfl, rfl⟩ := hrun
      refine .inr ⟨_, .inr ⟨rfl, rfl, rfl, ?_⟩, h, by simp [given, handedOut], fun _ => rfl⟩
      intro hfit
      simp only [VecOp.fits, allocatable] at hfit
      rcases h2 with h2 | ⟨h2, h3⟩ <;> omega
    · rw [h1] at hrun
      simp at hrun
      obtain ⟨rfl, rfl⟩ := hrun
      exact .inl ⟨rfl, rfl, h3, fun hi => by simp only [VecOp.inline] at hi; omega⟩
  | push k item =>
    simp only [Sys.run] at hrun
    obtain ⟨v, hv, r, w', hx, rfl, rfl⟩ := call_some hrun
    obtain ⟨l, hl, hrel⟩ := h.at hv
    have hn := hrel.n_le
    have hlen := hrel.len
    obtain ⟨rest, hp1, hp2⟩ := held_set hl
    obtain ⟨hcases, hfit⟩ := push_rel (w := { vec := v, mem := sys.mem }) (b := b) hrel h.fresh item
      (hz.imp id fun hi => by have := hi v hv; show l.length < v.cap; omega)
    rcases hcases with ⟨w, h1, h2, h3, h4, h5⟩ | ⟨h1, h2⟩ | ⟨w, h1, h2, h3⟩
    · rw [h1] at hx
      simp at hx
      obtain ⟨rfl, rfl⟩ := hx
      refine .inr ⟨_, .inl (by simp only [Stacks.run, hl]; rfl), h.call hv hl h2 h3, ?_, fun hi => (h5 ?_).1⟩
      · have e1 : given [(VecOp.push k item, Except.map (fun _ => VecOut.unit) (Except.ok ()))] = [item] := rfl
        have e2 : handedOut [(VecOp.push k item, Except.map (fun _ => VecOut.unit) (Except.ok ()))] = [] := rfl
        rw [e1, e2, h4]
        simp only [List.nil_append]
        refine List.Perm.trans ?_ ((hp2 (some (l ++ [item]))).symm.append_left _)
        refine List.Perm.trans ((hp1.append_left _).append_left _) ?_
        show (item :: (sys.mem.dropped ++ (l ++ rest))).Perm _
        have := List.perm_middle (a := item) (l₁ := sys.mem.dropped ++ l) (l₂ := rest)
        simpa [List.append_assoc] using this.symm
      · have := hi v hv; show l.length < v.cap; omega
    · rw [h1] at hx
      simp at hx
      obtain ⟨rfl, rfl⟩ := hx
      dsimp only at h2
      refine .inr ⟨ls.set k (some l), .inr ⟨rfl, rfl, set_same hl, ?_⟩, h.call hv hl ?_ ?_, ?_, fun _ => rfl⟩
      · intro hf
        rcases hf v hv with hf | ⟨hf1, hf2⟩
        · omega
        · rw [hlen] at hf1 hf2
          exact hfit hf1 hf2 _ h1
      · exact hrel.frame fun _ _ => rfl
      · exact Frame.inPlace h.fresh rfl rfl rfl rfl (fun _ _ => rfl) (hrel.own_lt h.fresh)
      · rw [set_same hl]
        show (item :: (sys.mem.dropped ++ held ls)).Perm (sys.mem.dropped ++ [item] ++ held ls)
        rw [List.append_assoc]
        exact List.perm_middle.symm
    · rw [h1] at hx
      simp at hx
      obtain ⟨rfl, rfl⟩ := hx
      dsimp only at h3
      exact .inl ⟨rfl, rfl, h2, fun hi => by have := hi v hv; omega⟩
  | pop k =>
    simp only [Sys.run] at hrun
    obtain ⟨v, hv, r, w', hx, rfl, rfl⟩ := call_some hrun
    obtain ⟨l, hl, hrel⟩ := h.at hv
    obtain ⟨rest, hp1, hp2⟩ := held_set hl
    obtain ⟨w, h1, h2, h3, h4⟩ := pop_rel (w := { vec := v, mem := sys.mem }) hrel h.fresh
    rw [h1] at hx
    simp at hx
    obtain ⟨rfl, rfl⟩ := hx
    refine .inr ⟨_, .inl (by simp only [Stacks.run, hl]; rfl), h.call hv hl h2 h3, ?_, fun _ => by rw [h4]⟩
    have e1 : given [(VecOp.pop k, Except.map VecOut.item (Except.ok l.getLast?))] = [] := rfl
    have e2 : handedOut [(VecOp.pop k, Except.map VecOut.item (Except.ok l.getLast?))] = l.getLast?.toList := by
      cases l.getLast? <;> rfl
    rw [e1, e2, h4, List.nil_append]
    refine List.Perm.trans (hp1.append_left _) (List.Perm.trans ?_ (((hp2 (some l.dropLast)).symm.append_left _).append_left _))
    dsimp only
    have hsplit : l = l.dropLast ++ l.getLast?.toList := by
      rcases List.eq_nil_or_concat l with rfl | ⟨m, a, rfl⟩ <;> simp
    have : (l ++ rest).Perm (l.getLast?.toList ++ (l.dropLast ++ rest)) := by
      have := List.perm_append_comm (l₁ := l.dropLast) (l₂ := l.getLast?.toList)
      rw [← hsplit] at this
      simpa [List.append_assoc] using this.append_right rest
    refine List.Perm.trans (this.append_left _) ?_
    simpa [List.append_assoc] using List.perm_append_comm_assoc _ _ _
  | reserve k cap =>
    simp only [Sys.run] at hrun
    obtain ⟨v, hv, r, w', hx, rfl, rfl⟩ := call_some hrun
    obtain ⟨l, hl, hrel⟩ := h.at hv
    have hn := hrel.n_le
    obtain ⟨hcases, hfit, hno⟩ := reserve_rel (w := { vec := v, mem := sys.mem }) (b := b) hrel h.fresh cap
      (hz.imp id fun hi => by have := hi v hv; show cap ≤ v.cap; omega)
    rcases hcases with ⟨w, h1, h2, h3, h4, h5, h6, h7⟩ | h1 | ⟨w, h1, h2, h3⟩
    · rw [h1] at hx
      simp at hx
      obtain ⟨rfl, rfl⟩ := hx
      refine .inr ⟨ls.set k (some l), .inl ?_, h.call hv hl h2 h3, ?_, fun hi => ?_⟩
      · simp only [Stacks.run, hl, set_same hl]; rfl
      · rw [set_same hl]; simp [given, handedOut, h6, Except.map]
      · rw [h7 (by have := hi v hv; show cap ≤ v.cap; omega)]
    · rw [h1] at hx
      simp at hx
      obtain ⟨rfl, rfl⟩ := hx
      refine .inr ⟨ls.set k (some l), .inr ⟨rfl, rfl, set_same hl, ?_⟩, h.call hv hl hrel (Frame.refl h.fresh), ?_, fun _ => rfl⟩
      · intro hf
        rcases hf v hv with hf | ⟨hf1, hf2⟩
        · have := hno hf; rw [h1] at this; simp at this
        · exact hfit hf1 hf2 _ h1
      · rw [set_same hl]; simp [given, handedOut, Except.map]
    · rw [h1] at hx
      simp at hx
      obtain ⟨rfl, rfl⟩ := hx
      dsimp only at h3
      exact .inl ⟨rfl, rfl, h2, fun hi => by have := hi v hv; omega⟩
  | reserveExact k cap =>
    simp only [Sys.run] at hrun
    obtain ⟨v, hv, r, w', hx, rfl, rfl⟩ := call_some hrun
    obtain ⟨l, hl, hrel⟩ := h.at hv
    have hn := hrel.n_le
    obtain ⟨hcases, hfit⟩ := reserveExact_rel (w := { vec := v, mem := sys.mem }) hrel h.fresh cap
      (hz.imp id fun hi => by have := hi v hv; show cap ≤ v.cap; omega)
    rcases hcases with ⟨w, h1, h2, h3, h4, h5, h6, h7⟩ | h1 | ⟨w, h1, h2, h3⟩
    · rw [h1] at hx
      simp at hx
      obtain ⟨rfl, rfl⟩ := hx
      refine .inr ⟨ls.set k (some l), .inl ?_, h.call hv hl h2 h3, ?_, fun hi => ?_⟩
      · simp only [Stacks.run, hl, set_same hl]; rfl
      · rw [set_same hl]; simp [given, handedOut, h6, Except.map]
      · rw [h7 (by have := hi v hv; show cap ≤ v.cap; omega)]
    · rw [h1] at hx
      simp at hx
      obtain ⟨rfl, rfl⟩ := hx
      refine .inr ⟨ls.set k (some l), .inr ⟨rfl, rfl, set_same hl, ?_⟩, h.call hv hl hrel (Frame.refl h.fresh), ?_, fun _ => rfl⟩
      · intro hf
        exact hfit hf.1 hf.2 _ h1
      · rw [set_same hl]; simp [given, handedOut, Except.map]
    · rw [h1] at hx
      simp at hx
      obtain ⟨rfl, rfl⟩ := hx
      dsimp only at h3
      exact .inl ⟨rfl, rfl, h2, fun hi => by have := hi v hv; omega⟩
  | slice k =>
    simp only [Sys.run] at hrun
    obtain ⟨v, hv, r, w', hx, rfl, rfl⟩ := call_some hrun
    obtain ⟨l, hl, hrel⟩ := h.at hv
    rw [asSlice_rel (w := { vec := v, mem := sys.mem }) hrel] at hx
    simp at hx
    obtain ⟨rfl, rfl⟩ := hx
    refine .inr ⟨ls.set k (some l), .inl ?_, h.call hv hl hrel (Frame.refl h.fresh), ?_, fun _ => rfl⟩
    · simp only [Stacks.run, hl, set_same hl]; rfl
    · rw [set_same hl]; simp [given, handedOut, Except.map]
  | replace k i item =>
    simp only [Sys.run] at hrun
    obtain ⟨v, hv, r, w', hx, rfl, rfl⟩ := call_some hrun
    obtain ⟨l, hl, hrel⟩ := h.at hv
    obtain ⟨rest, hp1, hp2⟩ := held_set hl
    obtain ⟨hin, hout⟩ := replaceAt_rel (w := { vec := v, mem := sys.mem }) hrel h.fresh i item
    cases ho : l[i]? with
    | some old =>
      obtain ⟨w, h1, h2, h3, h4, h5⟩ := hin old ho
      rw [h1] at hx
      simp at hx
      obtain ⟨rfl, rfl⟩ := hx
      refine .inr ⟨_, .inl (by simp only [Stacks.run, hl, ho]; rfl), h.call hv hl h2 h3, ?_, fun _ => h5⟩
      show ([item] ++ (sys.mem.dropped ++ held ls)).Perm ([old] ++ (w.mem.dropped ++ _))
      rw [h4]
      refine List.Perm.trans ((hp1.append_left _).append_left _)
        (List.Perm.trans ?_ (((hp2 (some (l.set i item))).symm.append_left _).append_left _))
      have hi : i < l.length := by
        apply Nat.lt_of_not_le; intro hle; rw [List.getElem?_eq_none_iff.mpr hle] at ho; simp at ho
      have hold : l[i] = old := by rw [List.getElem?_eq_getElem hi] at ho; simpa using ho
      have hperm : (item :: l).Perm (old :: l.set i item) := by
        have e1 : l = l.take i ++ old :: l.drop (i + 1) := by rw [← hold]; simp
        have e2 : l.set i item = l.take i ++ item :: l.drop (i + 1) := List.set_eq_take_append_cons_drop.trans (if_pos hi)
        rw [e2]
        refine List.Perm.trans ?_ (List.Perm.cons _ List.perm_middle.symm)
        refine List.Perm.trans ?_ (List.Perm.swap _ _ _)
        refine List.Perm.cons _ ?_
        refine List.Perm.trans (List.Perm.of_eq e1) List.perm_middle
      have := (hperm.append_right rest).append_left sys.mem.dropped
      dsimp only [Option.getD_some]
      have r1 : ∀ (x : α) (a c d : List α), ([x] ++ (a ++ (c ++ d))).Perm (a ++ (x :: c ++ d)) := by
        intro x a c d; simp only [List.cons_append, List.nil_append]; exact List.perm_middle.symm
      exact (r1 _ _ _ _).trans (this.trans (r1 _ _ _ _).symm)
    | none =>
      rw [hout ho] at hx
      simp at hx
      obtain ⟨rfl, rfl⟩ := hx
      refine .inr ⟨ls.set k (some l), .inl ?_, h.call hv hl ?_ ?_, ?_, fun _ => rfl⟩
      · simp only [Stacks.run, hl, ho, set_same hl]; rfl
      · exact hrel.frame fun _ _ => rfl
      · exact Frame.inPlace h.fresh rfl rfl rfl rfl (fun _ _ => rfl) (hrel.own_lt h.fresh)
      · rw [set_same hl]
        show (item :: (sys.mem.dropped ++ held ls)).Perm (sys.mem.dropped ++ [item] ++ held ls)
        rw [List.append_assoc]
        exact List.perm_middle.symm
  | drop k =>
    simp only [Sys.run] at hrun
    cases hc : sys.call k (dropVec ty) fun _ => VecOut.unit with
    | none => rw [hc] at hrun; simp at hrun
    | some p =>
      obtain ⟨r', sys₁⟩ := p
      rw [hc] at hrun
      simp at hrun
      obtain ⟨rfl, rfl⟩ := hrun
      obtain ⟨v, hv, r, w', hx, rfl, rfl⟩ := call_some hc
      obtain ⟨l, hl, hrel⟩ := h.at hv
      obtain ⟨rest, hp1, hp2⟩ := held_set hl
      obtain ⟨w, h1, h2, h3, h4, -, h5, h6⟩ := dropVec_rel (w := { vec := v, mem := sys.mem }) hrel
      rw [h1] at hx
      simp at hx
      obtain ⟨rfl, rfl⟩ := hx
      refine .inr ⟨_, .inl (by simp only [Stacks.run, hl]; rfl), h.dropped hv hl h4 h5 h6, ?_, fun _ => h3⟩
      show (sys.mem.dropped ++ held ls).Perm (w.mem.dropped ++ _)
      rw [h2]
      refine List.Perm.trans (hp1.append_left _) (List.Perm.trans ?_ ((hp2 none).symm.append_left _))
      simp

end Parcom
