import Verif.Model.Aliasing
/-!
# Stacks of borrows
-/
namespace Parcom.Aliasing

/-- A stack that reading makes of another: some `&mut`s have ended. -/
inductive Dimmed : Stack → Stack → Prop where
  | nil : Dimmed [] []
  | keep (i : Item) {s s' : Stack} : Dimmed s s' → Dimmed (i :: s) (i :: s')
  | dim (i : Item) {s s' : Stack} : i.perm = .unique → Dimmed s s' → Dimmed (i :: s) ({ i with perm := .disabled } :: s')

theorem Dimmed.refl : ∀ s : Stack, Dimmed s s
  | [] => .nil
  | i :: s => .keep i (Dimmed.refl s)

theorem Dimmed.tags {s s' : Stack} (h : Dimmed s s') : s'.map Item.tag = s.map Item.tag := by
  induction h with
  | nil => rfl
  | keep i h ih => simp [ih]
  | dim i hp h ih => simp [ih]

theorem Dimmed.back {s s' : Stack} (h : Dimmed s s') {j : Item} (hj : j ∈ s') :
    ∃ i ∈ s, i.tag = j.tag ∧ i.prot = j.prot ∧ (j.perm = .unique → i.perm = .unique) := by
  induction h with
  | nil => simp at hj
  | keep i h ih =>
    rcases List.mem_cons.mp hj with rfl | hj
    · exact ⟨j, by simp, rfl, rfl, id⟩
    · obtain ⟨x, hx, g⟩ := ih hj; exact ⟨x, by simp [hx], g⟩
  | dim i hp h ih =>
    rcases List.mem_cons.mp hj with rfl | hj
    · exact ⟨i, by simp, rfl, rfl, by simp⟩
    · obtain ⟨x, hx, g⟩ := ih hj; exact ⟨x, by simp [hx], g⟩

theorem Dimmed.forth {s s' : Stack} (h : Dimmed s s') {i : Item} (hi : i ∈ s) (hp : i.perm ≠ .unique) : i ∈ s' := by
  induction h with
  | nil => exact hi
  | keep j h ih =>
    rcases List.mem_cons.mp hi with rfl | hi
    · simp
    · simp [ih hi]
  | dim j hj h ih =>
    rcases List.mem_cons.mp hi with rfl | hi
    · exact absurd hj hp
    · simp [ih hi]

/-- Reading by a tag of `ys`, or by the one below. -/
theorem readStack_spec {calls : List Nat} {t : Nat} {core : Stack} : ∀ {ys : Stack},
    (∀ i ∈ ys, i.perm = .unique → i.guarded calls = false) →
    ((∃ i ∈ ys, i.tag = t ∧ i.perm ≠ .disabled) ∨ ∃ i rest, core = i :: rest ∧ i.tag = t ∧ i.perm ≠ .disabled) →
    ∃ ys', Dimmed ys ys' ∧ readStack calls t (ys ++ core) = some (ys' ++ core)
  | [], _, h => by
    rcases h with ⟨i, hi, -⟩ | ⟨i, rest, rfl, ht, hp⟩
    · simp at hi
    · refine ⟨[], .nil, ?_⟩
      have : i.grants .read t = true := by
        cases hq : i.perm <;> simp_all [Item.grants]
      simp [readStack, this]
  | j :: ys, hq, h => by
    by_cases hj : j.grants .read t = true
    · exact ⟨j :: ys, Dimmed.refl _, by simp [readStack, hj]⟩
    · have h' : (∃ i ∈ ys, i.tag = t ∧ i.perm ≠ .disabled) ∨ ∃ i rest, core = i :: rest ∧ i.tag = t ∧ i.perm ≠ .disabled := by
        rcases h with ⟨i, hi, ht, hp⟩ | h
        · rcases List.mem_cons.mp hi with rfl | hi
          · exfalso
            apply hj
            cases hq : i.perm <;> simp_all [Item.grants]
          · exact .inl ⟨i, hi, ht, hp⟩
        · exact .inr h
      obtain ⟨ys', hd, hr⟩ := readStack_spec (fun i hi => hq i (by simp [hi])) h'
      by_cases hu : j.perm = .unique
      · refine ⟨_, .dim j hu hd, ?_⟩
        simp [readStack, hj, hr, hu, hq j (by simp) hu]
      · exact ⟨_, .keep j hd, by simp [readStack, hj, hr, hu]⟩

theorem grants_write {i : Item} {t : Nat} : i.grants .write t = true ↔ i.tag = t ∧ (i.perm = .unique ∨ i.perm = .srw) := by
  simp only [Item.grants, Bool.and_eq_true, beq_iff_eq]
  cases i.perm <;> simp

/-- Writing by the tag below `ys`. -/
theorem writeStack_head {calls : List Nat} {i : Item} {rest : Stack} (hu : i.perm = .unique) : ∀ {ys : Stack},
    (∀ j ∈ ys, j.guarded calls = false) → (∀ j ∈ ys, j.tag ≠ i.tag) →
    writeStack calls i.tag (ys ++ i :: rest) = some (i :: rest)
  | [], _, _ => by
    have : i.grants .write i.tag = true := grants_write.mpr ⟨rfl, .inl hu⟩
    simp [writeStack, this]
  | j :: ys, hg, ht => by
    have hj : i.grants .write i.tag = true := grants_write.mpr ⟨rfl, .inl hu⟩
    have hn : ¬ j.grants .write i.tag = true := fun h => ht j (by simp) (grants_write.mp h).1
    have ih := writeStack_head (rest := rest) hu (ys := ys) (fun j hj => hg j (by simp [hj])) (fun j hj => ht j (by simp [hj]))
    have hk : ¬ (j.perm = .srw ∧ i :: rest = ys ++ i :: rest ∧ (ys ++ i :: rest).head?.map Item.perm = some .srw) := by
      rintro ⟨-, h, hh⟩
      rw [← h] at hh
      simp [hu] at hh
    simp only [List.cons_append, writeStack, hn, if_false, ih, Bool.false_eq_true]
    rw [if_neg hk, if_neg (by simp [hg j (by simp)])]

/-- Writing by a raw pointer of `ys`. -/
theorem writeStack_raw {calls : List Nat} {t : Nat} {core : Stack} : ∀ {ys : Stack}, (∀ j ∈ ys, j.guarded calls = false) →
    (∃ i ∈ ys, i.tag = t ∧ i.perm = .srw) →
    ∃ ys', ys'.Sublist ys ∧ writeStack calls t (ys ++ core) = some (ys' ++ core)
  | [], _, h => by simp at h
  | j :: ys, hg, h => by
    by_cases hj : j.grants .write t = true
    · exact ⟨j :: ys, List.Sublist.refl _, by simp [writeStack, hj]⟩
    · have h' : ∃ i ∈ ys, i.tag = t ∧ i.perm = .srw := by
        obtain ⟨i, hi, ht, hp⟩ := h
        rcases List.mem_cons.mp hi with rfl | hi
        · exact absurd (grants_write.mpr ⟨ht, .inr hp⟩) hj
        · exact ⟨i, hi, ht, hp⟩
      obtain ⟨ys', hs, hw⟩ := writeStack_raw (core := core) (fun j hj => hg j (by simp [hj])) h'
      simp only [List.cons_append, writeStack, hj, if_false, hw, Bool.false_eq_true]
      split
      · exact ⟨j :: ys, List.Sublist.refl _, rfl⟩
      · exact ⟨ys', hs.cons j, by simp [hg j (by simp)]⟩

/-- Writing by a tag that may only read. -/
theorem writeStack_none {calls : List Nat} {t : Nat} : ∀ {s : Stack}, (∀ i ∈ s, i.tag = t → i.perm = .sro) →
    writeStack calls t s = none
  | [], _ => rfl
  | j :: s, h => by
    have hj : ¬ j.grants .write t = true := by
      intro hg
      obtain ⟨ht, hp⟩ := grants_write.mp hg
      have := h j (by simp) ht
      rcases hp with hp | hp <;> rw [this] at hp <;> cases hp
    simp [writeStack, hj, writeStack_none (s := s) fun i hi => h i (by simp [hi])]

/-- A raw pointer made from a raw pointer of `ys`, or from the `&mut` below. -/
theorem insertStack_spec {new : Item} {t : Nat} {core : Stack} : ∀ {ys : Stack},
    ((∃ i ∈ ys, i.tag = t ∧ i.perm = .srw) ∨ ∃ i rest, core = i :: rest ∧ i.tag = t ∧ i.perm = .unique) →
    ∃ ys₁ ys₂, ys = ys₁ ++ ys₂ ∧ insertStack new t (ys ++ core) = some (ys₁ ++ new :: ys₂ ++ core)
  | [], h => by
    rcases h with ⟨i, hi, -⟩ | ⟨i, rest, rfl, ht, hp⟩
    · simp at hi
    · exact ⟨[], [], rfl, by simp [insertStack, grants_write.mpr ⟨ht, .inl hp⟩]⟩
  | j :: ys, h => by
    by_cases hj : j.grants .write t = true
    · exact ⟨[], j :: ys, rfl, by simp [insertStack, hj]⟩
    · have h' : (∃ i ∈ ys, i.tag = t ∧ i.perm = .srw) ∨ ∃ i rest, core = i :: rest ∧ i.tag = t ∧ i.perm = .unique := by
        rcases h with ⟨i, hi, ht, hp⟩ | h
        · rcases List.mem_cons.mp hi with rfl | hi
          · exact absurd (grants_write.mpr ⟨ht, .inr hp⟩) hj
          · exact .inl ⟨i, hi, ht, hp⟩
        · exact .inr h
      obtain ⟨ys₁, ys₂, rfl, hw⟩ := insertStack_spec (core := core) (new := new) h'
      simp only [List.cons_append, insertStack, hj, if_false, hw, Bool.false_eq_true]
      split
      · exact ⟨[], j :: (ys₁ ++ ys₂), rfl, by simp⟩
      · exact ⟨j :: ys₁, ys₂, rfl, by simp⟩

/-- A stack in which `core` is at the bottom, and the tags `live` above it can be used like a `&` (`perm`). No call of `outer`
has an argument above `core`, and no call that has not returned has a `&mut` there. -/
structure Fine (perm : Perm) (core : Stack) (live : Nat → Prop) (outer calls : List Nat) (next : Nat) (s : Stack) : Prop where
  split : ∃ ys, s = ys ++ core ∧ (∀ i ∈ ys, i.perm = .unique → i.guarded calls = false) ∧
    (∀ t, live t → ∃ i ∈ ys, i.tag = t ∧ i.perm = perm) ∧ ∀ i ∈ ys, i.guarded outer = false
  old : ∀ i ∈ s, i.tag < next ∧ ∀ c, i.prot = some c → c < next
  nodup : (s.map Item.tag).Nodup

/-- The tag is the topmost of `core`. -/
def Heads (core : Stack) (t : Nat) : Prop := ∃ i rest, core = i :: rest ∧ i.tag = t ∧ i.perm = .unique

variable {perm : Perm} {core : Stack} {live : Nat → Prop} {outer calls : List Nat} {next t : Nat} {s : Stack}

theorem Fine.less (h : Fine perm core live outer calls next s) {live' : Nat → Prop} (hl : ∀ t, live' t → live t) :
    Fine perm core live' outer calls next s := by
  obtain ⟨⟨ys, h1, h2, h3, h4⟩, h5, h6⟩ := h
  exact ⟨⟨ys, h1, h2, fun t ht => h3 t (hl t ht), h4⟩, h5, h6⟩

theorem Fine.later (h : Fine perm core live outer calls next s) {next' : Nat} (hn : next ≤ next') :
    Fine perm core live outer calls next' s := by
  obtain ⟨h1, h5, h6⟩ := h
  exact ⟨h1, fun i hi => ⟨Nat.lt_of_lt_of_le (h5 i hi).1 hn, fun c hc => Nat.lt_of_lt_of_le ((h5 i hi).2 c hc) hn⟩, h6⟩

/-- A call begins. -/
theorem Fine.begin (h : Fine perm core live outer calls next s) : Fine perm core live outer (next :: calls) (next + 1) s := by
  obtain ⟨⟨ys, rfl, h2, h3, h4⟩, h5, h6⟩ := h
  refine ⟨⟨ys, rfl, fun i hi hu => ?_, h3, h4⟩, fun i hi => ⟨Nat.lt_succ_of_lt (h5 i hi).1, fun c hc => Nat.lt_succ_of_lt ((h5 i hi).2 c hc)⟩, h6⟩
  have hg := h2 i hi hu
  have ho := (h5 i (by simp [hi])).2
  cases hp : i.prot with
  | none => simp [Item.guarded, hp]
  | some c =>
    have := ho c hp
    simp only [Item.guarded, hp] at hg ⊢
    have hne : c ≠ next := by omega
    simpa [hne] using hg

/-- A call returns. -/
theorem Fine.return (h : Fine perm core live outer calls next s) (c : Nat) : Fine perm core live outer (calls.erase c) next s := by
  obtain ⟨⟨ys, rfl, h2, h3, h4⟩, h5, h6⟩ := h
  refine ⟨⟨ys, rfl, fun i hi hu => ?_, h3, h4⟩, h5, h6⟩
  have hg := h2 i hi hu
  cases hp : i.prot with
  | none => simp [Item.guarded, hp]
  | some d =>
    simp only [Item.guarded, hp, List.contains_eq_mem, decide_eq_false_iff_not] at hg ⊢
    exact fun h => hg (List.mem_of_mem_erase h)

/-- Fewer calls matter. -/
theorem Fine.outside (h : Fine perm core live outer calls next s) {outer' : List Nat} (ho : ∀ c ∈ outer', c ∈ outer) :
    Fine perm core live outer' calls next s := by
  obtain ⟨⟨ys, rfl, h2, h3, h4⟩, h5, h6⟩ := h
  refine ⟨⟨ys, rfl, h2, h3, fun i hi => ?_⟩, h5, h6⟩
  have hg := h4 i hi
  cases hp : i.prot with
  | none => simp [Item.guarded, hp]
  | some d =>
    simp only [Item.guarded, hp, List.contains_eq_mem, decide_eq_false_iff_not] at hg ⊢
    exact fun h => hg (ho d h)

/-- Reading. -/
theorem Fine.read (h : Fine perm core live outer calls next s) (hp : perm = .sro ∨ perm = .srw) (ht : live t ∨ Heads core t) :
    ∃ s', readStack calls t s = some s' ∧ Fine perm core live outer calls next s' := by
  obtain ⟨⟨ys, rfl, h2, h3, h4⟩, h5, h6⟩ := h
  have hq : (∃ i ∈ ys, i.tag = t ∧ i.perm ≠ .disabled) ∨ ∃ i rest, core = i :: rest ∧ i.tag = t ∧ i.perm ≠ .disabled := by
    rcases ht with ht | ⟨i, rest, hc, ht, hu⟩
    · obtain ⟨i, hi, g1, g2⟩ := h3 t ht
      exact .inl ⟨i, hi, g1, by rw [g2]; rcases hp with hp | hp <;> rw [hp] <;> simp⟩
    · exact .inr ⟨i, rest, hc, ht, by rw [hu]; simp⟩
  obtain ⟨ys', hd, hr⟩ := readStack_spec h2 hq
  refine ⟨_, hr, ⟨ys', rfl, fun i hi hu => ?_, fun t ht => ?_, fun i hi => ?_⟩, fun i hi => ?_, ?_⟩
  · obtain ⟨j, hj, g1, g2, g3⟩ := hd.back hi
    have := h2 j hj (g3 hu)
    simpa [Item.guarded, g2] using this
  · obtain ⟨i, hi, g1, g2⟩ := h3 t ht
    exact ⟨i, hd.forth hi (by rw [g2]; rcases hp with hp | hp <;> rw [hp] <;> simp), g1, g2⟩
  · obtain ⟨j, hj, g1, g2, g3⟩ := hd.back hi
    have := h4 j hj
    simpa [Item.guarded, g2] using this
  · rcases List.mem_append.mp hi with hi | hi
    · obtain ⟨j, hj, g1, g2, g3⟩ := hd.back hi
      have := h5 j (by simp [hj])
      rw [← g1, ← g2]; exact this
    · exact h5 i (by simp [hi])
  · simpa [hd.tags] using h6

theorem nodup_cons_tag {s : Stack} {n : Nat} (h : (s.map Item.tag).Nodup) (hn : ∀ i ∈ s, i.tag < n) : n ∉ s.map Item.tag := by
  intro hm
  obtain ⟨i, hi, ht⟩ := List.mem_map.mp hm
  have := hn i hi
  omega

/-- A `&`, or a raw pointer. -/
theorem Fine.shared (h : Fine perm core live outer calls next s) (hp : perm = .sro ∨ perm = .srw) (ht : live t ∨ Heads core t)
    {prot : Option Nat} (hpr : ∀ c, prot = some c → c ∉ outer ∧ c < next) :
    ∃ s', retagStack calls ⟨perm, next, prot⟩ t s = some s' ∧
      Fine perm core (fun u => live u ∨ u = next) outer calls (next + 1) s' := by
  have hguard : (Item.mk perm next prot).guarded outer = false := by
    cases hq : prot with
    | none => rfl
    | some c => simp [Item.guarded, (hpr c hq).1]
  have hprot : ∀ c, prot = some c → c < next + 1 := fun c hc => Nat.lt_succ_of_lt (hpr c hc).2
  rcases hp with rfl | rfl
  · obtain ⟨s', hr, ⟨ys, rfl, h2, h3, h4⟩, h5, h6⟩ := h.read (.inl rfl) ht
    refine ⟨_, by simp [retagStack, hr], ⟨⟨.sro, next, prot⟩ :: ys, rfl, ?_, ?_, ?_⟩, ?_, ?_⟩
    · intro i hi hu
      rcases List.mem_cons.mp hi with rfl | hi
      · cases hu
      · exact h2 i hi hu
    · rintro u (hu | rfl)
      · obtain ⟨i, hi, g⟩ := h3 u hu; exact ⟨i, by simp [hi], g⟩
      · exact ⟨⟨.sro, u, prot⟩, by simp, rfl, rfl⟩
    · intro i hi
      rcases List.mem_cons.mp hi with rfl | hi
      · exact hguard
      · exact h4 i hi
    · intro i hi
      rcases List.mem_cons.mp hi with rfl | hi
      · exact ⟨Nat.lt_succ_self _, hprot⟩
      · exact ⟨Nat.lt_succ_of_lt (h5 i hi).1, fun c hc => Nat.lt_succ_of_lt ((h5 i hi).2 c hc)⟩
    · rw [List.cons_append, List.map_cons, List.nodup_cons]
      exact ⟨nodup_cons_tag h6 fun i hi => (h5 i hi).1, h6⟩
  · obtain ⟨⟨ys, rfl, h2, h3, h4⟩, h5, h6⟩ := h
    have hq : (∃ i ∈ ys, i.tag = t ∧ i.perm = .srw) ∨ ∃ i rest, core = i :: rest ∧ i.tag = t ∧ i.perm = .unique := by
      rcases ht with ht | ht
      · exact .inl (h3 t ht)
      · exact .inr ht
    obtain ⟨ys₁, ys₂, rfl, hi⟩ := insertStack_spec (new := ⟨.srw, next, prot⟩) hq
    have hmem : ∀ i, i ∈ ys₁ ++ (⟨.srw, next, prot⟩ : Item) :: ys₂ → i = ⟨.srw, next, prot⟩ ∨ i ∈ ys₁ ++ ys₂ := by
      intro i; simp; grind
    refine ⟨_, by simpa [retagStack] using hi, ⟨ys₁ ++ ⟨.srw, next, prot⟩ :: ys₂, by simp, ?_, ?_, ?_⟩, ?_, ?_⟩
    · intro i hi hu
      rcases hmem i hi with rfl | hi
      · cases hu
      · exact h2 i hi hu
    · rintro u (hu | rfl)
      · obtain ⟨i, hi, g⟩ := h3 u hu; exact ⟨i, by simp at hi ⊢; grind, g⟩
      · exact ⟨⟨.srw, u, prot⟩, by simp, rfl, rfl⟩
    · intro i hi
      rcases hmem i hi with rfl | hi
      · exact hguard
      · exact h4 i hi
    · intro i hi
      have : i = ⟨.srw, next, prot⟩ ∨ i ∈ ys₁ ++ ys₂ ++ core := by simp at hi ⊢; grind
      rcases this with rfl | hi
      · exact ⟨Nat.lt_succ_self _, hprot⟩
      · exact ⟨Nat.lt_succ_of_lt (h5 i hi).1, fun c hc => Nat.lt_succ_of_lt ((h5 i hi).2 c hc)⟩
    · have hn := nodup_cons_tag h6 fun i hi => (h5 i hi).1
      have : (next :: (ys₁ ++ ys₂ ++ core).map Item.tag).Nodup := List.nodup_cons.mpr ⟨hn, h6⟩
      refine (List.Perm.nodup_iff ?_).mp this
      simp only [List.map_append, List.map_cons, List.append_assoc, List.cons_append]
      exact List.perm_middle.symm

/-- Writing by the topmost tag of `core`. -/
theorem Fine.write (h : Fine perm core live outer outer next s) (ht : Heads core t) :
    ∃ s', writeStack outer t s = some s' ∧ Fine perm core (fun _ => False) outer outer next s' := by
  obtain ⟨⟨ys, rfl, h2, h3, h4⟩, h5, h6⟩ := h
  obtain ⟨i, rest, rfl, rfl, hu⟩ := ht
  refine ⟨_, writeStack_head hu h4 fun j hj he => ?_, ⟨[], rfl, by simp, by simp, by simp⟩, fun i hi => h5 i (List.mem_append_right _ hi), ?_⟩
  · rw [List.map_append, List.nodup_append] at h6
    exact h6.2.2 j.tag (List.mem_map_of_mem hj) i.tag (by simp) he
  · rw [List.map_append, List.nodup_append] at h6
    exact h6.2.1

/-- Writing by a raw pointer. -/
theorem Fine.writeRaw (h : Fine .srw core live outer outer next s) (ht : live t) :
    ∃ s', writeStack outer t s = some s' ∧ Fine .srw core (fun _ => False) outer outer next s' := by
  obtain ⟨⟨ys, rfl, h2, h3, h4⟩, h5, h6⟩ := h
  obtain ⟨ys', hs, hw⟩ := writeStack_raw (core := core) h4 (h3 t ht)
  refine ⟨_, hw, ⟨ys', rfl, fun i hi => h2 i (hs.subset hi), by simp, fun i hi => h4 i (hs.subset hi)⟩, fun i hi => h5 i ?_, ?_⟩
  · rcases List.mem_append.mp hi with hi | hi
    · simp [hs.subset hi]
    · simp [hi]
  · exact List.Nodup.sublist ((hs.append_right core).map Item.tag) h6

/-- Writing by a `&`. -/
theorem Fine.writeShared (h : Fine .sro core live outer calls next s) (ht : live t) : writeStack calls t s = none := by
  obtain ⟨⟨ys, rfl, h2, h3, h4⟩, h5, h6⟩ := h
  obtain ⟨i, hi, rfl, hp⟩ := h3 t ht
  refine writeStack_none fun j hj he => ?_
  have : j = i := by
    have hi' : i ∈ ys ++ core := by simp [hi]
    clear h5 h2 h3 h4 ht
    generalize ys ++ core = l at *
    induction l with
    | nil => simp at hi'
    | cons x l ih =>
      rw [List.map_cons, List.nodup_cons] at h6
      rcases List.mem_cons.mp hj with hj | hj <;> rcases List.mem_cons.mp hi' with hi' | hi'
      · rw [hj, hi']
      · exact absurd (List.mem_map.mpr ⟨i, hi', by rw [← hj, he]⟩) h6.1
      · exact absurd (List.mem_map.mpr ⟨j, hj, by rw [← hi', he]⟩) h6.1
      · exact ih h6.2 hj hi'
  rw [this, hp]

/-- A `&mut`. -/
theorem Fine.exclusive (h : Fine perm core live outer outer next s) (ht : Heads core t) {prot : Option Nat}
    (hpr : ∀ c, prot = some c → c < next) :
    ∃ s', retagStack outer ⟨.unique, next, prot⟩ t s = some s' ∧
      Fine perm (⟨.unique, next, prot⟩ :: core) (fun _ => False) outer outer (next + 1) s' := by
  obtain ⟨s', hw, ⟨ys, rfl, h2, h3, h4⟩, h5, h6⟩ := h.write ht
  have hw' : writeStack outer t s = some core := by
    obtain ⟨⟨zs, rfl, -, -, g4⟩, -, g6⟩ := h
    obtain ⟨i, rest, rfl, rfl, hu⟩ := ht
    refine writeStack_head hu g4 fun j hj he => ?_
    rw [List.map_append, List.nodup_append] at g6
    exact g6.2.2 j.tag (List.mem_map_of_mem hj) i.tag (by simp) he
  rw [hw'] at hw
  have : ys = [] := by
    injection hw with hw
    exact List.length_eq_zero_iff.mp (by have := congrArg List.length hw; simp at this; exact List.length_eq_zero_iff.mpr this)
  subst this
  refine ⟨_, by simp [retagStack, hw'], ⟨[], rfl, by simp, by simp, by simp⟩, ?_, ?_⟩
  · intro i hi
    rcases List.mem_cons.mp hi with rfl | hi
    · exact ⟨Nat.lt_succ_self _, fun c hc => Nat.lt_succ_of_lt (hpr c hc)⟩
    · have := h5 i hi
      exact ⟨Nat.lt_succ_of_lt this.1, fun c hc => Nat.lt_succ_of_lt (this.2 c hc)⟩
  · rw [List.nil_append, List.map_cons, List.nodup_cons]
    exact ⟨nodup_cons_tag h6 fun i hi => (h5 i hi).1, h6⟩

/-- A `&mut` is forgotten. -/
theorem Fine.fold {i : Item} (h : Fine perm (i :: core) live outer calls next s) (h1 : i.guarded calls = false)
    (h2 : i.guarded outer = false) : Fine perm core live outer calls next s := by
  obtain ⟨⟨ys, rfl, g2, g3, g4⟩, g5, g6⟩ := h
  refine ⟨⟨ys ++ [i], by simp, ?_, ?_, ?_⟩, g5, g6⟩
  · intro j hj hu
    rcases List.mem_append.mp hj with hj | hj
    · exact g2 j hj hu
    · rw [List.mem_singleton.mp hj]; exact h1
  · intro t ht
    obtain ⟨j, hj, g⟩ := g3 t ht
    exact ⟨j, by simp [hj], g⟩
  · intro j hj
    rcases List.mem_append.mp hj with hj | hj
    · exact g4 j hj
    · rw [List.mem_singleton.mp hj]; exact h2

end Parcom.Aliasing
