import Verif.Model.Release
import Verif.Lemmas.Loader
/-!
# The generic sequence: who keeps the nodes
-/
namespace Parcom
open Spec
variable {T E : Type}

/-! ## The cells are numbered in order -/

/-- The cells are numbered in the order of the segments. -/
structure Linear (h : Cells T) (segs : List (List T)) : Prop where
  fresh : h.fresh = segs.length + 1
  node : ∀ (k : Nat) xs, segs[k]? = some xs → ∃ n, h.get k = some n ∧ n.next = k + 1 ∧ Holds n.buf xs
  unset : ∀ k : Nat, segs.length ≤ k → h.get k = none

theorem linear_init : Linear ({ get := fun _ => none, fresh := 1 } : Cells T) [] :=
  ⟨rfl, fun k xs h => by simp at h, fun _ _ => rfl⟩

theorem Linear.commit {h h' : Cells T} {segs : List (List T)} {tail' : Nat} {buf : RawVec T} {xs : List T} (hl : Linear h segs)
    (hb : Holds buf xs) (he : commitTo h segs.length buf = Run.ret (h', tail')) :
    Linear h' (segs ++ [xs]) ∧ tail' = segs.length + 1 := by
  unfold commitTo at he
  rw [hl.unset _ (Nat.le_refl _)] at he
  simp only [Run.pure_eq_ret, Prod.mk.injEq] at he
  obtain ⟨rfl, rfl⟩ := he
  refine ⟨⟨by simp [hl.fresh], fun k ys hk => ?_, fun k hk => ?_⟩, hl.fresh⟩
  · by_cases h : k = segs.length
    · subst h
      simp at hk
      subst hk
      exact ⟨_, if_pos rfl, hl.fresh, hb⟩
    · have hlt : k < segs.length := by
        apply Nat.lt_of_not_le
        intro hle
        rw [List.getElem?_append_right hle] at hk
        have : k - segs.length ≠ 0 := by omega
        simp [this] at hk
      rw [List.getElem?_append_left hlt] at hk
      obtain ⟨n, h1, h2, h3⟩ := hl.node k ys hk
      exact ⟨n, by simp only [if_neg h]; exact h1, h2, h3⟩
  · simp only [List.length_append, List.length_singleton] at hk
    show (if k = segs.length then _ else h.get k) = none
    rw [if_neg (by omega)]
    exact hl.unset k (by omega)

/-- A chain of such cells is what is left of the segments. -/
theorem Linear.chain {h : Cells T} {segs rest : List (List T)} {k t : Nat} (hl : Linear h segs) (hc : Chain h k rest t)
    (ht : t = segs.length) : rest = segs.drop k ∧ k ≤ segs.length := by
  induction hc with
  | nil hu => rw [ht, List.drop_length]; exact ⟨rfl, Nat.le_refl _⟩
  | @cons i t n xs rest hget hxs _ ih =>
    obtain ⟨h1, h2⟩ := ih ht
    have hlt : i < segs.length := by
      apply Nat.lt_of_not_le
      intro hle
      rw [hl.unset i hle] at hget
      simp at hget
    obtain ⟨n', e1, e2, e3⟩ := hl.node i segs[i] (List.getElem?_eq_getElem hlt)
    rw [hget] at e1
    injection e1 with e1
    subst e1
    rw [h1, e2, hxs.unique e3]
    exact ⟨(List.drop_eq_getElem_cons hlt).symm, Nat.le_of_lt hlt⟩

/-! ## Letting go -/

theorem take_drop_cons {β : Type} {l : List β} {a n : Nat} (h : a < l.length) :
    (l.drop a).take (n + 1) = l[a] :: (l.drop (a + 1)).take n := by
  rw [List.drop_eq_getElem_cons h, List.take_succ_cons]

/-- The first `Arc` dropped of a run of cells that nothing else keeps. -/
theorem release_run {h : Cells T} {segs : List (List T)} (hl : Linear h segs) (n : Nat) : ∀ (m : Arcs T) (a : Nat),
    m.strong a = 1 → (∀ k, a < k → k ≤ a + n → m.strong k = 1) → a + n ≤ segs.length →
    (a + n < segs.length → 2 ≤ m.strong (a + n + 1)) →
    ∃ m', m.release h a = Run.ret (m', n + 1) ∧ m'.freed = m.freed ++ (List.range' a (n + 1)).reverse ∧
      m'.dropped = m.dropped ++ ((segs.drop a).take (n + 1)).flatten ∧
      ∀ k, m'.strong k = if a ≤ k ∧ k ≤ a + n then 0 else if k = a + n + 1 ∧ a + n < segs.length then m.strong k - 1 else m.strong k := by
  induction n with
  | zero =>
    intro m a h1 h2 h3 h4
    unfold Arcs.release
    rw [h1]
    simp only [if_true]
    by_cases hlt : a < segs.length
    · obtain ⟨node, e1, e2, e3⟩ := hl.node a segs[a] (List.getElem?_eq_getElem hlt)
      have h4 := h4 hlt
      rw [e1]
      simp only [e3.len, e3.readMany (a := 0) (n := segs[a].length) (by omega), Run.ret_bind, List.drop_zero, List.take_length]
      have : Arcs.release h { m.count a 0 with dropped := m.dropped ++ segs[a] } node.next =
          Run.ret ({ m.count a 0 with dropped := m.dropped ++ segs[a] }.count (a + 1) (m.strong (a + 1) - 1), 0) := by
        unfold Arcs.release
        have hs : ({ m.count a 0 with dropped := m.dropped ++ segs[a] } : Arcs T).strong node.next = (m.strong (a + 1) - 2) + 1 + 1 := by
          rw [e2]
          show (if a + 1 = a then 0 else m.strong (a + 1)) = _
          rw [if_neg (by omega)]
          have : 2 ≤ m.strong (a + 1) := h4
          omega
        rw [hs]
        simp only [Nat.succ_ne_zero, if_false]
        rw [e2, show m.strong (a + 1) - 2 + 1 = m.strong (a + 1) - 1 by have : 2 ≤ m.strong (a + 1) := h4; omega]
        rfl
      rw [this]
      refine ⟨_, rfl, ?_, ?_, fun k => ?_⟩
      · simp [Arcs.count]
      · rw [take_drop_cons hlt]
        simp [Arcs.count]
      · simp only [Arcs.count]
        have : a + 0 + 1 = a + 1 := rfl
        grind
    · have ha : a = segs.length := by omega
      rw [hl.unset a (by omega)]
      refine ⟨_, rfl, by simp, ?_, fun k => ?_⟩
      · rw [List.drop_of_length_le (by omega)]; simp [Arcs.count]
      · simp only [Arcs.count]
        grind
  | succ n ih =>
    intro m a h1 h2 h3 h4
    have hlt : a < segs.length := by omega
    obtain ⟨node, e1, e2, e3⟩ := hl.node a segs[a] (List.getElem?_eq_getElem hlt)
    have h2' := h2 (a + 1) (by omega) (by omega)
    obtain ⟨m', i1, i2, i3, i4⟩ := ih { m.count a 0 with dropped := m.dropped ++ segs[a] } (a + 1)
      (by show (if a + 1 = a then 0 else m.strong (a + 1)) = 1; rw [if_neg (by omega), h2'])
      (fun k hk hk' => by show (if k = a then 0 else m.strong k) = 1; rw [if_neg (by omega), h2 k (by omega) (by omega)])
      (by omega)
      (fun hlt => by
        show 2 ≤ (if a + 1 + n + 1 = a then 0 else m.strong (a + 1 + n + 1))
        rw [if_neg (by omega), show a + 1 + n + 1 = a + (n + 1) + 1 by omega]; exact h4 (by omega))
    unfold Arcs.release
    rw [h1]
    simp only [if_true, e1, e3.len, e3.readMany (a := 0) (n := segs[a].length) (by omega), Run.ret_bind, List.drop_zero, List.take_length]
    rw [e2, i1]
    refine ⟨_, rfl, ?_, ?_, fun k => ?_⟩
    · rw [i2]
      simp [Arcs.count, List.range'_succ]
    · rw [i3, take_drop_cons hlt]
      simp
    · show m'.strong k = _
      rw [i4 k]
      simp only [Arcs.count]
      have : a + 1 + n = a + (n + 1) := by omega
      rw [this]
      grind

/-! ## Who keeps what -/

/-- The cells from `lo` to `tail` are there, each kept by those that hold it and by the cell before it. -/
structure Kept (m : Arcs T) (segs : List (List T)) (holders : Nat → Nat) (lo : Nat) : Prop where
  le : lo ≤ segs.length + 1
  above : ∀ k, segs.length < k → holders k = 0
  below : ∀ k, k < lo → holders k = 0
  first : lo ≤ segs.length → 0 < holders lo
  strong : ∀ k, m.strong k = holders k + if lo < k ∧ k ≤ segs.length then 1 else 0
  freed : m.freed.Perm (List.range lo)
  dropped : m.dropped = (segs.take lo).flatten

theorem Kept.alive {m : Arcs T} {segs : List (List T)} {holders : Nat → Nat} {lo k : Nat} (h : Kept m segs holders lo)
    (h1 : lo ≤ k) (h2 : k ≤ segs.length) : 0 < m.strong k := by
  rw [h.strong]
  by_cases hk : k = lo
  · subst hk; have := h.first h2; omega
  · rw [if_pos ⟨by omega, h2⟩]; omega

theorem Kept.access {m : Arcs T} {segs : List (List T)} {holders : Nat → Nat} {lo k : Nat} (h : Kept m segs holders lo)
    (h1 : lo ≤ k) (h2 : k ≤ segs.length) : m.access k = Run.ret () := by
  have := h.alive h1 h2
  unfold Arcs.access
  rw [if_neg (by omega)]
  rfl

theorem Kept.congr {m : Arcs T} {segs : List (List T)} {holders holders' : Nat → Nat} {lo : Nat} (h : Kept m segs holders lo)
    (he : ∀ k, holders' k = holders k) : Kept m segs holders' lo := by
  have : holders' = holders := funext he
  rw [this]; exact h

/-- One more holds a cell. -/
theorem Kept.clone {m : Arcs T} {segs : List (List T)} {holders : Nat → Nat} {lo c : Nat} (h : Kept m segs holders lo)
    (h1 : lo ≤ c) (h2 : c ≤ segs.length) : ∃ m', m.clone c = Run.ret m' ∧ m'.freed = m.freed ∧
      Kept m' segs (fun k => holders k + if k = c then 1 else 0) lo := by
  refine ⟨m.count c (m.strong c + 1), ?_, rfl, h.le, fun k hk => ?_, fun k hk => ?_, fun hlo => ?_, fun k => ?_, h.freed, h.dropped⟩
  · unfold Arcs.clone
    rw [h.access h1 h2]
    rfl
  · rw [h.above k hk, if_neg (by omega)]
  · rw [h.below k hk, if_neg (by omega)]
  · have := h.first hlo; omega
  · show (if k = c then m.strong c + 1 else m.strong k) = _
    have := h.strong k
    split <;> grind

/-- One lets go of a cell. -/
theorem Kept.release {h : Cells T} {m : Arcs T} {segs : List (List T)} {holders : Nat → Nat} {lo a : Nat}
    (hl : Linear h segs) (hk : Kept m segs holders lo) (ha : 0 < holders a) :
    ∃ m' lo', m.release h a = Run.ret (m', lo' - lo) ∧ lo ≤ lo' ∧ m'.freed.length = m.freed.length + (lo' - lo) ∧
      Kept m' segs (fun k => holders k - if k = a then 1 else 0) lo' := by
  have hlo : lo ≤ a := by
    apply Nat.le_of_not_lt; intro hlt; have := hk.below a hlt; omega
  have hhi : a ≤ segs.length := by
    apply Nat.le_of_not_lt; intro hlt; have := hk.above a hlt; omega
  have hs := hk.strong a
  by_cases hmany : 2 ≤ m.strong a
  · refine ⟨m.count a (m.strong a - 1), lo, ?_, Nat.le_refl _, by simp [Arcs.count], hk.le, fun k hlt => ?_, fun k hlt => ?_, fun hle => ?_,
      fun k => ?_, hk.freed, hk.dropped⟩
    · unfold Arcs.release
      rw [show m.strong a = (m.strong a - 2) + 1 + 1 by omega]
      simp only [Nat.succ_ne_zero, if_false, Nat.sub_self]
      rw [show m.strong a - 2 + 1 + 1 - 1 = m.strong a - 2 + 1 by omega]
      rfl
    · rw [hk.above k hlt]; omega
    · rw [hk.below k hlt]; omega
    · have := hk.first hle
      by_cases he : lo = a
      · subst he
        rw [if_neg (by omega)] at hs
        rw [if_pos rfl]
        omega
      · rw [if_neg he]; omega
    · show (if k = a then m.strong a - 1 else m.strong k) = _
      have := hk.strong k
      split <;> grind
  · have hone : m.strong a = 1 := by
      have := hk.alive hlo hhi; omega
    have hal : a = lo := by
      apply Classical.byContradiction
      intro hne
      rw [if_pos ⟨by omega, hhi⟩] at hs
      omega
    subst hal
    rw [if_neg (by omega)] at hs
    -- the next cell that somebody holds
    have hnext : ∃ n, a + n ≤ segs.length ∧ (∀ k, a < k → k ≤ a + n → holders k = 0) ∧
        (a + n < segs.length → 0 < holders (a + n + 1)) := by
      have : ∀ j, a + j ≤ segs.length → (∃ n, a + n ≤ segs.length ∧ (∀ k, a < k → k ≤ a + n → holders k = 0) ∧
          (a + n < segs.length → 0 < holders (a + n + 1))) ∨ ∀ k, a < k → k ≤ a + j → holders k = 0 := by
        intro j
        induction j with
        | zero => intro _; exact .inr fun k h1 h2 => by omega
        | succ j ih =>
          intro hj
          rcases ih (by omega) with h | h
          · exact .inl h
          · by_cases hz : holders (a + j + 1) = 0
            · refine .inr fun k h1 h2 => ?_
              by_cases hkj : k = a + j + 1
              · rw [hkj]; exact hz
              · exact h k h1 (by omega)
            · exact .inl ⟨j, by omega, h, fun _ => by omega⟩
      rcases this (segs.length - a) (by omega) with h | h
      · exact h
      · exact ⟨segs.length - a, by omega, h, fun h => by omega⟩
    obtain ⟨n, hn1, hn2, hn3⟩ := hnext
    obtain ⟨m', r1, r2, r3, r4⟩ := release_run hl n m a hone
      (fun k h1 h2 => by rw [hk.strong k, hn2 k h1 h2, if_pos ⟨h1, by omega⟩])
      hn1
      (fun hlt => by have := hn3 hlt; rw [hk.strong, if_pos ⟨by omega, by omega⟩]; omega)
    refine ⟨m', a + n + 1, by rw [r1, show a + n + 1 - a = n + 1 by omega], by omega, ?_, ⟨by omega, ?_, ?_, ?_, ?_, ?_, ?_⟩⟩
    · rw [r2]; simp; omega
    · intro k hlt; rw [hk.above k hlt]; omega
    · intro k hlt
      by_cases hka : k = a
      · subst hka; rw [if_pos rfl]; omega
      · by_cases hlt' : k < a
        · rw [hk.below k hlt']; omega
        · rw [hn2 k (by omega) (by omega)]; omega
    · intro hle
      have := hn3 (by omega)
      rw [if_neg (by omega)]; omega
    · intro k
      rw [r4 k]
      have := hk.strong k
      have hz := hn2 k
      have hb := hk.below k
      by_cases c1 : a ≤ k ∧ k ≤ a + n
      · rw [if_pos c1]
        by_cases hka : k = a
        · subst hka; rw [if_pos rfl, if_neg (by omega)]; omega
        · rw [if_neg hka, hz (by omega) c1.2, if_neg (by omega)]
      · rw [if_neg c1]
        by_cases c2 : k = a + n + 1 ∧ a + n < segs.length
        · rw [if_pos c2, if_neg (by omega), if_neg (by omega), this, if_pos ⟨by omega, by omega⟩]; omega
        · rw [if_neg c2, this, if_neg (by omega : ¬ k = a)]
          by_cases c3 : a < k ∧ k ≤ segs.length
          · rw [if_pos c3, if_pos ⟨by omega, c3.2⟩]; omega
          · rw [if_neg c3, if_neg (by omega)]; omega
    · rw [r2]
      have : List.range (a + n + 1) = List.range a ++ List.range' a (n + 1) := by
        rw [List.range_eq_range', List.range_eq_range', Nat.add_assoc, ← List.range'_append]; simp
      rw [this]
      exact hk.freed.append (List.reverse_perm _)
    · rw [r3, hk.dropped, ← List.flatten_append]
      congr 1
      rw [Nat.add_assoc]
      exact (List.take_add (l := segs) (i := a) (j := n + 1)).symm

end Parcom
