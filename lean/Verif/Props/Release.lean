import Verif.Lemmas.Release
import Verif.Spec.Releasing
import Verif.Props.Loader
/-!
# C87, C88: freeing the nodes of the generic sequence
-/
namespace Parcom
open Spec
variable {T E : Type}

/-! ## The steps of the buffer -/

/-- What a step of the buffer leaves alone. -/
structure SameNodes (s s' : Loading T E) : Prop where
  cells : s'.cells = s.cells
  loader : s'.loader = s.loader
  segs : segmentsOf s'.log = segmentsOf s.log

theorem segmentsOf_snoc {l : List (Obs T E)} {o : Obs T E} (h : ∀ xs, o ≠ .committed xs) : segmentsOf (l ++ [o]) = segmentsOf l := by
  rw [segmentsOf_append]
  cases o <;> simp [segmentsOf] at h ⊢

theorem get_step (b : Build) {s : Loading T E} (hi : Inv s) (hl : Linear s.cells (segmentsOf s.log))
    (ht : s.loader.tail = (segmentsOf s.log).length) {n r : Nat} {c : Cursor} (hr : s.reader = .advancing n r c) :
    ∃ s', s.move b .get = Run.ret s' ∧ SameNodes s s' ∧
      ((s'.head = s.head ∧ ∃ r' c', s'.reader = .advancing n r' c' ∧ c.node ≤ c'.node) ∨
       (s'.reader = .idle ∧ s'.head.node = c.node ∧
        (c.node = (segmentsOf s.log).length ∨ ∃ xs, (segmentsOf s.log)[c.node]? = some xs ∧ s'.head.offset < xs.length))) := by
  have hok := hi.reader
  unfold ReaderOk at hok
  rw [hr] at hok
  obtain ⟨-, -, rest, hc, hoff, -, -⟩ := hok
  obtain ⟨rfl, hle⟩ := hl.chain hc ht
  have hn := hl.unset
  simp only [Loading.move, hr, advanceTurn]
  by_cases hlt : c.node < (segmentsOf s.log).length
  · obtain ⟨node, e1, e2, e3⟩ := hl.node c.node _ (List.getElem?_eq_getElem hlt)
    have ho := hoff _ _ (List.drop_eq_getElem_cons hlt)
    simp only [e1, e3.len, usizeSub_ret b ho, Run.ret_bind]
    by_cases hless : r < (segmentsOf s.log)[c.node].length - c.offset
    · rw [if_pos hless]
      refine ⟨_, rfl, ⟨rfl, rfl, segmentsOf_snoc (by simp)⟩, .inr ⟨rfl, rfl, .inr ⟨_, List.getElem?_eq_getElem hlt, ?_⟩⟩⟩
      show c.offset + r < _
      omega
    · rw [if_neg hless]
      refine ⟨_, rfl, ⟨rfl, rfl, rfl⟩, .inl ⟨rfl, _, _, rfl, ?_⟩⟩
      show c.node ≤ node.next
      omega
  · rw [hn _ (by omega)]
    exact ⟨_, rfl, ⟨rfl, rfl, segmentsOf_snoc (by simp)⟩, .inr ⟨rfl, rfl, .inl (by omega)⟩⟩

theorem next_step (b : Build) {s : Loading T E} (hi : Inv s) (hl : Linear s.cells (segmentsOf s.log))
    (ht : s.loader.tail = (segmentsOf s.log).length) {c : Cursor} (hr : s.reader = .iterating c) :
    ∃ s', s.move b .next = Run.ret s' ∧ SameNodes s s' ∧ s'.head = s.head ∧ ∃ c', s'.reader = .iterating c' ∧ c.node ≤ c'.node := by
  have hok := hi.reader
  unfold ReaderOk at hok
  rw [hr] at hok
  obtain ⟨⟨-, rest, hc, hoff, -, -⟩, -⟩ := hok
  obtain ⟨rfl, hle⟩ := hl.chain hc ht
  simp only [Loading.move, hr, iterNext]
  by_cases hlt : c.node < (segmentsOf s.log).length
  · obtain ⟨node, e1, e2, e3⟩ := hl.node c.node _ (List.getElem?_eq_getElem hlt)
    have ho := hoff _ _ (List.drop_eq_getElem_cons hlt)
    simp only [e1, e3.len]
    rw [if_pos ho, e3.readMany (by omega), Run.ret_bind]
    refine ⟨_, rfl, ⟨rfl, rfl, segmentsOf_snoc (by simp)⟩, rfl, _, rfl, ?_⟩
    show c.node ≤ node.next
    omega
  · rw [hl.unset _ (by omega)]
    exact ⟨_, rfl, ⟨rfl, rfl, segmentsOf_snoc (by simp)⟩, rfl, _, rfl, Nat.le_refl _⟩

/-- The other steps of the buffer. -/
theorem other_step (b : Build) (s : Loading T E) {m : Move T E} (hm : (∀ env script, m ≠ .load env script) ∧ ∀ env, m ≠ .forceCommit env)
    (hg : m = .get → ∀ n r c, s.reader ≠ .advancing n r c) (hn : m = .next → ∀ c, s.reader ≠ .iterating c) :
    ∃ s', s.move b m = Run.ret s' ∧ SameNodes s s' ∧ s'.head = s.head ∧
      (s'.reader = s.reader ∨ s'.reader = .idle ∨ (∃ n r, s'.reader = .advancing n r s.head) ∨ s'.reader = .iterating s.head) := by
  cases m with
  | load env script => exact absurd rfl (hm.1 env script)
  | forceCommit env => exact absurd rfl (hm.2 env)
  | advance n =>
    simp only [Loading.move]
    split
    · exact ⟨_, rfl, ⟨rfl, rfl, rfl⟩, rfl, .inr (.inr (.inl ⟨n, n, rfl⟩))⟩
    · exact ⟨_, rfl, ⟨rfl, rfl, rfl⟩, rfl, .inl rfl⟩
  | get =>
    simp only [Loading.move]
    split
    · rename_i h; exact absurd h (hg rfl _ _ _)
    · exact ⟨_, rfl, ⟨rfl, rfl, rfl⟩, rfl, .inl rfl⟩
  | segments =>
    simp only [Loading.move]
    split
    · exact ⟨_, rfl, ⟨rfl, rfl, segmentsOf_snoc (by simp)⟩, rfl, .inr (.inr (.inr rfl))⟩
    · exact ⟨_, rfl, ⟨rfl, rfl, rfl⟩, rfl, .inl rfl⟩
  | next =>
    simp only [Loading.move]
    split
    · rename_i h; exact absurd h (hn rfl _)
    · exact ⟨_, rfl, ⟨rfl, rfl, rfl⟩, rfl, .inl rfl⟩
  | dropIter =>
    simp only [Loading.move]
    split
    · exact ⟨_, rfl, ⟨rfl, rfl, rfl⟩, rfl, .inr (.inl rfl)⟩
    · exact ⟨_, rfl, ⟨rfl, rfl, rfl⟩, rfl, .inl rfl⟩

/-! ## The invariant -/

/-- How many hold cell `k`, not counting the cell before. -/
def Owned.holders (s : Owned T E) (k : Nat) : Nat :=
  (if s.buffer = true ∧ k = s.sys.head.node then 1 else 0) + (if s.loader = true ∧ k = s.sys.loader.tail then 1 else 0) +
    (if s.releasing = some k then 1 else 0)

structure OInv (b : Build) (s : Owned T E) (lo : Nat) : Prop where
  reaches : ∃ ms, Reaches b ms s.sys
  linear : Linear s.sys.cells (segmentsOf s.sys.log)
  tail : s.sys.loader.tail = (segmentsOf s.sys.log).length
  advancing : ∀ n r c, s.sys.reader = .advancing n r c → s.buffer = true ∧ s.sys.head.node ≤ c.node
  iterating : ∀ c, s.sys.reader = .iterating c → s.buffer = true ∧ s.sys.head.node ≤ c.node
  releasing : ∀ a, s.releasing = some a → s.loader = true ∧ a + 1 = s.sys.loader.tail
  last : s.loader = false → Pending s.sys s.last
  kept : Kept s.arcs (segmentsOf s.sys.log) s.holders lo

theorem OInv.inv {b : Build} {s : Owned T E} {lo : Nat} (h : OInv b s lo) : Inv s.sys := by
  obtain ⟨ms, h⟩ := h.reaches
  exact inv_reaches h

theorem reaches_snoc {b : Build} {s s' : Loading T E} (h : ∃ ms, Reaches b ms s) {m : Move T E} (he : s.move b m = Run.ret s') :
    ∃ ms, Reaches b ms s' := by
  obtain ⟨ms, c, h⟩ := h
  exact ⟨ms ++ [m], c, run_append.mpr ⟨s, h, run_single.mpr he⟩⟩

theorem oinv_init (b : Build) (c : Nat) : OInv b (Owned.init c : Owned T E) 0 where
  reaches := ⟨[], c, rfl⟩
  linear := linear_init
  tail := rfl
  advancing _ _ _ h := nomatch h
  iterating _ h := nomatch h
  releasing _ h := nomatch h
  last h := nomatch h
  kept := by
    refine ⟨Nat.zero_le _, fun k hk => ?_, fun k hk => absurd hk (Nat.not_lt_zero _), fun _ => ?_, fun k => ?_, .refl _, rfl⟩
    · have : k ≠ 0 := by rintro rfl; exact Nat.not_lt_zero _ hk
      simp [Owned.holders, Owned.init, Loading.init, this]
    · simp [Owned.holders, Owned.init, Loading.init]
    · by_cases h : k = 0
      · simp [Owned.holders, Owned.init, Loading.init, h]
      · simp [Owned.holders, Owned.init, Loading.init, h, segmentsOf]

/-- The cells the buffer can get at are there. -/
theorem OInv.head {b : Build} {s : Owned T E} {lo : Nat} (h : OInv b s lo) (hb : s.buffer = true) :
    lo ≤ s.sys.head.node ∧ s.sys.head.node ≤ (segmentsOf s.sys.log).length := by
  have hpos : 0 < s.holders s.sys.head.node := by simp only [Owned.holders, hb, true_and, if_true]; omega
  constructor
  · apply Nat.le_of_not_lt; intro hlt; have := h.kept.below _ hlt; omega
  · apply Nat.le_of_not_lt; intro hlt; have := h.kept.above _ hlt; omega

/-- Somebody lets go of a cell. -/
theorem OInv.release {b : Build} {s s₁ : Owned T E} {lo a : Nat} (hl : Linear s₁.sys.cells (segmentsOf s₁.sys.log))
    (hk : Kept s₁.arcs (segmentsOf s₁.sys.log) s.holders lo) (ha : 0 < s.holders a)
    (hh : ∀ k, s₁.holders k = s.holders k - if k = a then 1 else 0)
    (hi : ∀ arcs d lo', Kept arcs (segmentsOf s₁.sys.log) s₁.holders lo' → OInv b { s₁ with arcs, depth := d } lo') :
    ∃ s' lo', s₁.release a = Run.ret s' ∧ OInv b s' lo' ∧ lo ≤ lo' ∧ s'.sys = s₁.sys ∧ s'.loader = s₁.loader ∧ s'.buffer = s₁.buffer ∧
      s'.releasing = s₁.releasing ∧ s'.arcs.freed.length = s₁.arcs.freed.length + (lo' - lo) ∧ s'.depth = max s₁.depth (lo' - lo) := by
  obtain ⟨m', lo', e1, e2, e3, e4⟩ := hk.release hl ha
  refine ⟨{ s₁ with arcs := m', depth := max s₁.depth (lo' - lo) }, lo', ?_, hi _ _ _ (e4.congr hh), e2, rfl, rfl, rfl, rfl, e3, rfl⟩
  unfold Owned.release
  rw [e1]
  rfl

/-- A step of the buffer that does not move it. -/
theorem OInv.same {b : Build} {s : Owned T E} {lo : Nat} (h : OInv b s lo) {m : Move T E} {sys : Loading T E}
    (he : s.sys.move b m = Run.ret sys) (hs : SameNodes s.sys sys) (hh : sys.head = s.sys.head)
    (ha : ∀ n r c, sys.reader = .advancing n r c → s.buffer = true ∧ sys.head.node ≤ c.node)
    (hit : ∀ c, sys.reader = .iterating c → s.buffer = true ∧ sys.head.node ≤ c.node) : OInv b { s with sys } lo where
  reaches := reaches_snoc h.reaches he
  linear := by show Linear sys.cells _; rw [hs.cells, hs.segs]; exact h.linear
  tail := by show sys.loader.tail = _; rw [hs.loader, hs.segs]; exact h.tail
  advancing := ha
  iterating := hit
  releasing := by show ∀ a, _ → _ ∧ _ = sys.loader.tail; rw [hs.loader]; exact h.releasing
  last := by show _ → Holds sys.loader.buf _; rw [hs.loader]; exact h.last
  kept := by
    show Kept s.arcs (segmentsOf sys.log) _ lo
    rw [hs.segs]
    refine h.kept.congr fun k => ?_
    simp only [Owned.holders, hs.loader, hh]

/-- What a step does. It frees the cells from `lo` to `lo'`, one inside the other. -/
structure Stepped (b : Build) (s s' : Owned T E) (lo lo' : Nat) : Prop where
  inv : OInv b s' lo'
  le : lo ≤ lo'
  freed : s'.arcs.freed.length = s.arcs.freed.length + (lo' - lo)
  depth : s'.depth = max s.depth (lo' - lo)
  /-- it does not make and free cells at once -/
  cells : s'.sys.cells = s.sys.cells ∨ lo' = lo

theorem Stepped.refl {b : Build} {s : Owned T E} {lo : Nat} (h : OInv b s lo) : Stepped b s s lo lo :=
  ⟨h, Nat.le_refl _, by omega, by omega, .inr rfl⟩

/-- A step of the buffer. -/
theorem owned_buffer (b : Build) {s : Owned T E} {lo : Nat} (h : OInv b s lo) {m : Move T E}
    (hm : (∀ env script, m ≠ .load env script) ∧ ∀ env, m ≠ .forceCommit env) : ∃ s' lo', s.bufferMove b m = Run.ret s' ∧
      Stepped b s s' lo lo' ∧ s'.buffer = s.buffer ∧
      (∀ n r c, m = .get → s.sys.reader = .advancing n r c → s'.sys.reader = .idle →
        s'.sys.head.node = (segmentsOf s'.sys.log).length ∨
        ∃ xs, (segmentsOf s'.sys.log)[s'.sys.head.node]? = some xs ∧ s'.sys.head.offset < xs.length) := by
  unfold Owned.bufferMove
  by_cases hb : s.buffer = true
  · rw [if_pos hb]
    have hhead := h.head hb
    by_cases hg : ∃ n r c, m = .get ∧ s.sys.reader = .advancing n r c
    · obtain ⟨n, r, c, rfl, hr⟩ := hg
      have hc := (h.advancing n r c hr).2
      obtain ⟨sys, e1, e2, e3⟩ := get_step b h.inv h.linear h.tail hr
      have hcl : c.node ≤ (segmentsOf s.sys.log).length := by
        have hok := h.inv.reader
        unfold ReaderOk at hok
        rw [hr] at hok
        obtain ⟨-, -, rest, hc, -⟩ := hok
        exact (h.linear.chain hc h.tail).2
      simp only [hr, h.kept.access (k := c.node) (by omega) hcl, Run.ret_bind, e1]
      rcases e3 with ⟨e3, r', c', e4, e5⟩ | ⟨e3, e4, e5⟩
      · simp only [e4]
        refine ⟨_, lo, rfl, ⟨h.same e1 e2 e3 (fun n r d hd => ?_) (fun d hd => ?_), Nat.le_refl _, by simp, by simp, .inr rfl⟩, rfl, ?_⟩
        · rw [e4] at hd; injection hd with _ _ hd; subst hd; rw [e3]; exact ⟨hb, by omega⟩
        · rw [e4] at hd; cases hd
        · intro _ _ _ _ _ hid; simp only [e4] at hid; cases hid
      · simp only [e3]
        obtain ⟨arcs, c1, c2, c3⟩ := h.kept.clone (c := sys.head.node) (by omega) (by omega)
        rw [c1]
        simp only [Run.ret_bind]
        -- the new head is held, the old one let go
        let s₀ : Owned T E := { s with arcs }
        obtain ⟨m', lo', k1, k2, k3, k4⟩ := c3.release (a := s.sys.head.node) h.linear (by
          simp only [Owned.holders, hb, true_and, if_true]; omega)
        refine ⟨{ s with sys, arcs := m', depth := max s.depth (lo' - lo) }, lo', ?_, ⟨⟨reaches_snoc h.reaches e1, ?_, ?_, ?_, ?_, ?_, ?_, ?_⟩, k2, ?_, rfl, .inl e2.cells⟩, rfl, ?_⟩
        · simp only [Owned.release, e2.cells, k1, Run.ret_bind]; rfl
        · show Linear sys.cells (segmentsOf sys.log); rw [e2.cells, e2.segs]; exact h.linear
        · show sys.loader.tail = (segmentsOf sys.log).length; rw [e2.loader, e2.segs]; exact h.tail
        · intro n r d hd; have hd : sys.reader = _ := hd; rw [e3] at hd; cases hd
        · intro d hd; have hd : sys.reader = _ := hd; rw [e3] at hd; cases hd
        · show ∀ a, _ → _ ∧ _ = sys.loader.tail; rw [e2.loader]; exact h.releasing
        · show _ → Holds sys.loader.buf _; rw [e2.loader]; exact h.last
        · show Kept m' (segmentsOf sys.log) _ lo'
          rw [e2.segs]
          refine k4.congr fun k => ?_
          simp only [Owned.holders, e2.loader, hb, true_and]
          split <;> split <;> grind
        · show m'.freed.length = _
          rw [k3, c2]
        · intro _ _ _ _ _ _
          show sys.head.node = (segmentsOf sys.log).length ∨ _
          rw [e2.segs, e4]
          exact e5
    · by_cases hn : ∃ c, m = .next ∧ s.sys.reader = .iterating c
      · obtain ⟨c, rfl, hr⟩ := hn
        have hc := (h.iterating c hr).2
        obtain ⟨sys, e1, e2, e3, c', e4, e5⟩ := next_step b h.inv h.linear h.tail hr
        have hcl : c.node ≤ (segmentsOf s.sys.log).length := by
          have hok := h.inv.reader
          unfold ReaderOk at hok
          rw [hr] at hok
          obtain ⟨⟨-, rest, hc, -⟩, -⟩ := hok
          exact (h.linear.chain hc h.tail).2
        simp only [hr, h.kept.access (k := c.node) (by omega) hcl, Run.ret_bind, e1]
        refine ⟨_, lo, rfl, ⟨h.same e1 e2 e3 (fun n r d hd => ?_) (fun d hd => ?_), Nat.le_refl _, by simp, by simp, .inr rfl⟩, rfl, ?_⟩
        · rw [e4] at hd; cases hd
        · rw [e4] at hd; injection hd with hd; subst hd; rw [e3]; exact ⟨hb, by omega⟩
        · intro _ _ _ hm; cases hm
      · obtain ⟨sys, e1, e2, e3, e4⟩ := other_step b s.sys hm (fun hm n r c hc => hg ⟨n, r, c, hm, hc⟩)
          (fun hm c hc => hn ⟨c, hm, hc⟩)
        refine ⟨{ s with sys }, lo, ?_, ⟨h.same e1 e2 e3 (fun n r d hd => ?_) (fun d hd => ?_), Nat.le_refl _, by simp, by simp, .inr rfl⟩, rfl, ?_⟩
        · split
          · rename_i hr; exact absurd ⟨_, _, _, rfl, hr⟩ hg
          · rename_i hr; exact absurd ⟨_, rfl, hr⟩ hn
          · rw [e1]; rfl
        · rcases e4 with e4 | e4 | ⟨n', r', e4⟩ | e4 <;> rw [e4] at hd
          · rw [e3]; exact h.advancing n r d hd
          · cases hd
          · injection hd with _ _ hd; subst hd; rw [e3]; exact ⟨hb, Nat.le_refl _⟩
          · cases hd
        · rcases e4 with e4 | e4 | ⟨n', r', e4⟩ | e4 <;> rw [e4] at hd
          · rw [e3]; exact h.iterating d hd
          · cases hd
          · cases hd
          · injection hd with hd; subst hd; rw [e3]; exact ⟨hb, Nat.le_refl _⟩
        · intro n r c hm hr; exact absurd ⟨n, r, c, hm, hr⟩ hg
  · rw [if_neg hb]
    exact ⟨s, lo, rfl, .refl h, rfl, fun n r c _ hr => absurd (h.advancing n r c hr).1 hb⟩

/-- A step of the loader that returns. -/
theorem owned_loader (b : Build) {s : Owned T E} {lo : Nat} (h : OInv b s lo) {m : Move T E} {sys : Loading T E}
    (hm : (∃ env script, m = .load env script) ∨ ∃ env, m = .forceCommit env) (hl : s.loader = true) (hr : s.releasing = none)
    (he : s.sys.move b m = Run.ret sys) : ∃ s', s.loaderMove b m = Run.ret s' ∧ Stepped b s s' lo lo ∧ s'.sys = sys ∧
      s'.loader = true ∧ s'.buffer = s.buffer := by
  obtain ⟨pend, hp⟩ := h.inv.pending
  have hlo : lo ≤ (segmentsOf s.sys.log).length := by
    apply Nat.le_of_not_lt; intro hlt
    have := h.kept.below (segmentsOf s.sys.log).length (by omega)
    simp only [Owned.holders, hl, h.tail, true_and, if_true] at this
    omega
  have key : sys.head = s.sys.head ∧ sys.reader = s.sys.reader ∧
      ((sys.cells = s.sys.cells ∧ sys.loader.tail = s.sys.loader.tail ∧ segmentsOf sys.log = segmentsOf s.sys.log) ∨
       (commitTo s.sys.cells s.sys.loader.tail s.sys.loader.buf = Run.ret (sys.cells, sys.loader.tail) ∧
        segmentsOf sys.log = segmentsOf s.sys.log ++ [pend])) := by
    rcases hm with ⟨env, script, rfl⟩ | ⟨env, rfl⟩
    · obtain ⟨r, told, -, e1, e2, ⟨e3, e4, e5⟩ | ⟨e3, e4⟩⟩ := move_load h.inv hp he
      · exact ⟨e1, e2, .inl ⟨e3, e4, by rw [e5, segmentsOf_snoc (by simp)]⟩⟩
      · exact ⟨e1, e2, .inr ⟨e3, by rw [e4, segmentsOf_snoc (by simp), segmentsOf_append]; rfl⟩⟩
    · obtain ⟨s', e0, -, e1, e2, e3, e4⟩ := move_forceCommit (b := b) (env := env) h.inv hp
      rw [he] at e0
      simp at e0
      subst e0
      exact ⟨e1, e2, .inr ⟨e3, by rw [e4, segmentsOf_append]; rfl⟩⟩
  obtain ⟨e1, e2, e3⟩ := key
  unfold Owned.loaderMove
  rw [if_pos ⟨hl, hr⟩, he]
  simp only [Run.ret_bind]
  rcases e3 with ⟨e3, e4, e5⟩ | ⟨e3, e5⟩
  · rw [if_pos e4]
    refine ⟨_, rfl, ⟨⟨reaches_snoc h.reaches he, ?_, ?_, ?_, ?_, ?_, ?_, ?_⟩, Nat.le_refl _, by simp, by simp, .inr rfl⟩, rfl, hl, rfl⟩
    · show Linear sys.cells (segmentsOf sys.log); rw [e3, e5]; exact h.linear
    · show sys.loader.tail = (segmentsOf sys.log).length; rw [e4, e5]; exact h.tail
    · intro n r c hc; show _ ∧ sys.head.node ≤ _; rw [e1]; exact h.advancing n r c (e2 ▸ hc)
    · intro c hc; show _ ∧ sys.head.node ≤ _; rw [e1]; exact h.iterating c (e2 ▸ hc)
    · intro a ha; have ha : s.releasing = some a := ha; rw [hr] at ha; cases ha
    · intro hf; have hf : s.loader = false := hf; rw [hl] at hf; cases hf
    · show Kept s.arcs (segmentsOf sys.log) _ lo
      rw [e5]
      exact h.kept.congr fun k => by simp only [Owned.holders, e1, e4]
  · rw [h.tail] at e3
    obtain ⟨l1, l2⟩ := h.linear.commit hp e3
    rw [if_neg (by rw [l2, h.tail]; omega), h.kept.access (k := s.sys.loader.tail) (by rw [h.tail]; exact hlo) (by rw [h.tail]; exact Nat.le_refl _)]
    simp only [Run.ret_bind]
    refine ⟨_, rfl, ⟨⟨reaches_snoc h.reaches he, ?_, ?_, ?_, ?_, ?_, ?_, ?_⟩, Nat.le_refl _, by simp [Arcs.count], by simp, .inr rfl⟩, rfl, hl, rfl⟩
    · show Linear sys.cells (segmentsOf sys.log); rw [e5]; exact l1
    · show sys.loader.tail = (segmentsOf sys.log).length; rw [l2, e5]; simp
    · intro n r c hc; show _ ∧ sys.head.node ≤ _; rw [e1]; exact h.advancing n r c (e2 ▸ hc)
    · intro c hc; show _ ∧ sys.head.node ≤ _; rw [e1]; exact h.iterating c (e2 ▸ hc)
    · intro a ha
      injection ha with ha
      subst ha
      refine ⟨hl, ?_⟩
      show _ = sys.loader.tail
      rw [l2, h.tail]
    · intro hf; have hf : s.loader = false := hf; rw [hl] at hf; cases hf
    · show Kept (s.arcs.count sys.loader.tail 2) (segmentsOf sys.log) _ lo
      have hab := h.kept.above
      have hfi := h.kept.first hlo
      refine ⟨?_, fun k hk => ?_, fun k hk => ?_, fun _ => ?_, fun k => ?_, h.kept.freed, ?_⟩
      · rw [e5]; simp; omega
      · rw [e5] at hk
        simp only [List.length_append, List.length_singleton] at hk
        have := hab k (by omega)
        simp only [Owned.holders, e1, l2, h.tail, Option.some.injEq] at this ⊢
        grind
      · have := h.kept.below k hk
        simp only [Owned.holders, e1, l2, h.tail, hl, hr, Option.some.injEq] at this ⊢
        grind
      · simp only [Owned.holders, e1, l2, h.tail, hl, hr, Option.some.injEq] at hfi ⊢
        grind
      · have h1 := h.kept.strong k
        have h2 := hab k
        show (if k = sys.loader.tail then 2 else s.arcs.strong k) = _
        rw [e5, l2]
        simp only [Owned.holders, e1, l2, h.tail, hl, hr, Option.some.injEq, List.length_append, List.length_singleton] at h1 h2 ⊢
        grind
      · show s.arcs.dropped = _
        rw [e5, List.take_append_of_le_length hlo, h.kept.dropped]

/-- What a step does: it returns, unless it is a load that does not. -/
theorem owned_move (b : Build) {s : Owned T E} {lo : Nat} (h : OInv b s lo) (m : OwnedMove T E) :
    (∃ s' lo', s.move b m = Run.ret s' ∧ Stepped b s s' lo lo') ∨
    (∃ env script, m = .sys (.load env script) ∧
      s.move b m = (s.sys.move b (.load env script) >>= fun _ => pure s) ∧ ∀ sys, s.sys.move b (.load env script) ≠ Run.ret sys) := by
  cases m with
  | sys m =>
    by_cases hm : (∃ env script, m = .load env script) ∨ ∃ env, m = .forceCommit env
    · have hmove : s.move b (.sys m) = s.loaderMove b m := by
        rcases hm with ⟨env, script, rfl⟩ | ⟨env, rfl⟩ <;> rfl
      by_cases hc : s.loader = true ∧ s.releasing = none
      · cases he : s.sys.move b m using Run.casesRun with
        | ret sys =>
          obtain ⟨s', e1, e2, -⟩ := owned_loader b h hm hc.1 hc.2 he
          exact .inl ⟨s', lo, hmove.trans e1, e2⟩
        | fault f =>
          rcases hm with ⟨env, script, rfl⟩ | ⟨env, rfl⟩
          · refine .inr ⟨env, script, rfl, ?_, by simp [he]⟩
            rw [hmove, Owned.loaderMove, if_pos hc, he]; rfl
          · obtain ⟨pend, hp⟩ := h.inv.pending
            obtain ⟨s', e0, -⟩ := move_forceCommit (b := b) (env := env) h.inv hp
            rw [he] at e0; cases e0
        | diverge =>
          rcases hm with ⟨env, script, rfl⟩ | ⟨env, rfl⟩
          · refine .inr ⟨env, script, rfl, ?_, by simp [he]⟩
            rw [hmove, Owned.loaderMove, if_pos hc, he]; rfl
          · obtain ⟨pend, hp⟩ := h.inv.pending
            obtain ⟨s', e0, -⟩ := move_forceCommit (b := b) (env := env) h.inv hp
            rw [he] at e0; cases e0
      · refine .inl ⟨s, lo, ?_, .refl h⟩
        rw [hmove, Owned.loaderMove, if_neg hc]; rfl
    · have hmove : s.move b (.sys m) = s.bufferMove b m := by
        cases m with
        | load env script => exact absurd (.inl ⟨_, _, rfl⟩) hm
        | forceCommit env => exact absurd (.inr ⟨_, rfl⟩) hm
        | _ => rfl
      obtain ⟨s', lo', e1, e2, -⟩ := owned_buffer b h (m := m)
        ⟨fun env script he => hm (.inl ⟨env, script, he⟩), fun env he => hm (.inr ⟨env, he⟩)⟩
      exact .inl ⟨s', lo', hmove.trans e1, e2⟩
  | release =>
    left
    simp only [Owned.move]
    cases hr : s.releasing with
    | none => exact ⟨s, lo, rfl, .refl h⟩
    | some a =>
      obtain ⟨h1, h2⟩ := h.releasing a hr
      obtain ⟨s', lo', e1, e2, e3, e6, -, -, -, e4, e5⟩ := OInv.release (b := b) (s := s) (s₁ := { s with releasing := none }) (lo := lo) (a := a)
        h.linear h.kept (by simp only [Owned.holders, hr, if_true]; omega) (fun k => by simp only [Owned.holders, hr]; grind)
        (fun arcs d lo' hk => ⟨h.reaches, h.linear, h.tail, h.advancing, h.iterating, (fun _ h => nomatch h), h.last, hk⟩)
      exact ⟨s', lo', e1, e2, e3, e4, e5, .inl (by rw [e6])⟩
  | dropLoader =>
    left
    simp only [Owned.move]
    by_cases hc : s.loader = true ∧ s.releasing = none
    · rw [if_pos hc]
      obtain ⟨pend, hp⟩ := h.inv.pending
      rw [hp.len, hp.readMany (by omega), Run.ret_bind, List.drop_zero, List.take_length]
      obtain ⟨s', lo', e1, e2, e3, e6, -, -, -, e4, e5⟩ := OInv.release (b := b) (s := s) (s₁ := { s with loader := false, last := pend })
        (lo := lo) (a := s.sys.loader.tail) h.linear h.kept (by simp only [Owned.holders, hc.1, true_and, if_true]; omega)
        (fun k => by simp only [Owned.holders, hc.1, hc.2]; grind)
        (fun arcs d lo' hk => ⟨h.reaches, h.linear, h.tail, h.advancing, h.iterating,
          (fun a ha => by have ha : s.releasing = some a := ha; rw [hc.2] at ha; cases ha), fun _ => hp, hk⟩)
      exact ⟨s', lo', e1, e2, e3, e4, e5, .inl (by rw [e6])⟩
    · rw [if_neg hc]
      exact ⟨s, lo, rfl, .refl h⟩
  | dropBuffer =>
    left
    simp only [Owned.move]
    cases hr : s.sys.reader with
    | idle =>
      simp only []
      by_cases hb : s.buffer = true
      · rw [if_pos hb]
        obtain ⟨s', lo', e1, e2, e3, e6, -, -, -, e4, e5⟩ := OInv.release (b := b) (s := s) (s₁ := { s with buffer := false })
          (lo := lo) (a := s.sys.head.node) h.linear h.kept (by simp only [Owned.holders, hb, true_and, if_true]; omega)
          (fun k => by simp only [Owned.holders, hb]; grind)
          (fun arcs d lo' hk => ⟨h.reaches, h.linear, h.tail,
            (fun n r c hc => by have hc : s.sys.reader = _ := hc; rw [hr] at hc; cases hc),
            (fun c hc => by have hc : s.sys.reader = _ := hc; rw [hr] at hc; cases hc), h.releasing, h.last, hk⟩)
        exact ⟨s', lo', e1, e2, e3, e4, e5, .inl (by rw [e6])⟩
      · rw [if_neg hb]
        exact ⟨s, lo, rfl, .refl h⟩
    | advancing | iterating => exact ⟨s, lo, rfl, .refl h⟩

theorem owned_run_append {b : Build} {s s' : Owned T E} {ms ms' : List (OwnedMove T E)} :
    s.run b (ms ++ ms') = Run.ret s' ↔ ∃ s₁, s.run b ms = Run.ret s₁ ∧ s₁.run b ms' = Run.ret s' := by
  induction ms generalizing s with
  | nil => simp [Owned.run]
  | cons m ms ih =>
    simp only [List.cons_append, Owned.run, Run.bind_eq_ret, ih]
    constructor
    · rintro ⟨s₁, h1, s₂, h2, h3⟩; exact ⟨s₂, ⟨s₁, h1, h2⟩, h3⟩
    · rintro ⟨s₂, ⟨s₁, h1, h2⟩, h3⟩; exact ⟨s₁, h1, s₂, h2, h3⟩

theorem owned_run_single {b : Build} {s s' : Owned T E} {m : OwnedMove T E} : s.run b [m] = Run.ret s' ↔ s.move b m = Run.ret s' := by
  simp [Owned.run]

theorem OInv.step {b : Build} {s s' : Owned T E} {lo : Nat} (h : OInv b s lo) {m : OwnedMove T E} (he : s.move b m = Run.ret s') :
    ∃ lo', Stepped b s s' lo lo' := by
  rcases owned_move b h m with ⟨s₁, lo', e1, e2⟩ | ⟨env, script, rfl, e1, e2⟩
  · rw [he] at e1
    simp at e1
    subst e1
    exact ⟨lo', e2⟩
  · rw [e1] at he
    obtain ⟨sys, e3, -⟩ := Run.bind_eq_ret.mp he
    exact absurd e3 (e2 sys)

theorem oinv_reaches {b : Build} {ms : List (OwnedMove T E)} {s : Owned T E} (h : OwnedReaches b ms s) : ∃ lo, OInv b s lo := by
  obtain ⟨c, h⟩ := h
  have key : ∀ (ms : List (OwnedMove T E)) (s₀ : Owned T E) (lo : Nat), OInv b s₀ lo → s₀.run b ms = Run.ret s → ∃ lo, OInv b s lo := by
    intro ms
    induction ms with
    | nil => intro s₀ lo hi h; simp [Owned.run] at h; subst h; exact ⟨lo, hi⟩
    | cons m ms ih =>
      intro s₀ lo hi h
      obtain ⟨s₁, h1, h2⟩ := Run.bind_eq_ret.mp h
      obtain ⟨lo', h3⟩ := hi.step h1
      exact ih s₁ lo' h3.inv h2
  exact key ms _ 0 (oinv_init b c) h

/-- Where the buffer is. -/
theorem OInv.position {b : Build} {s : Owned T E} {lo : Nat} (h : OInv b s lo) :
    consumedOf s.sys.log = ((segmentsOf s.sys.log).take s.sys.head.node).flatten.length + s.sys.head.offset ∧
    ∀ xs, (segmentsOf s.sys.log)[s.sys.head.node]? = some xs → s.sys.head.offset ≤ xs.length := by
  obtain ⟨hw, rest, hc, h1, h2, h3⟩ := h.inv.head
  obtain ⟨rfl, hle⟩ := h.linear.chain hc h.tail
  have hlen := congrArg List.length h3
  have hall : (segmentsOf s.sys.log).flatten.length = ((segmentsOf s.sys.log).take s.sys.head.node).flatten.length +
      ((segmentsOf s.sys.log).drop s.sys.head.node).flatten.length := by
    rw [← List.length_append, ← List.flatten_append, List.take_append_drop]
  have hoff : ∀ xs, (segmentsOf s.sys.log)[s.sys.head.node]? = some xs → s.sys.head.offset ≤ xs.length := by
    intro xs hxs
    obtain ⟨hlt, rfl⟩ := List.getElem?_eq_some_iff.mp hxs
    exact h1 _ _ (List.drop_eq_getElem_cons hlt)
  have hoff' : s.sys.head.offset ≤ ((segmentsOf s.sys.log).drop s.sys.head.node).flatten.length := by
    by_cases hlt : s.sys.head.node < (segmentsOf s.sys.log).length
    · have := hoff _ (List.getElem?_eq_getElem hlt)
      rw [List.drop_eq_getElem_cons hlt, List.flatten_cons, List.length_append]
      omega
    · rw [h2 (List.drop_of_length_le (by omega))]; omega
  simp only [List.length_drop] at hlen
  exact ⟨by omega, hoff⟩

/-- While it is there the buffer holds the first cell, unless the loader has not let go of the one before yet. -/
theorem OInv.first {b : Build} {s : Owned T E} {lo : Nat} (h : OInv b s lo) (hb : s.buffer = true) (hr : s.releasing = none) :
    lo = s.sys.head.node := by
  have h1 := h.head hb
  have h2 := h.kept.first (by omega)
  simp only [Owned.holders, hr, h.tail] at h2
  grind

/-! ## C87 -/

/-- C87: nothing is used after it was freed and nothing else goes wrong, whatever the order in which the two sides work
and are dropped: a step returns, unless it is a load that would not return either if nothing were ever freed. -/
theorem C87_no_use_after_free {b : Build} {ms : List (OwnedMove T E)} {s : Owned T E} (h : OwnedReaches b ms s) (m : OwnedMove T E) :
    (∃ s', s.move b m = Run.ret s') ∨
    ∃ env script, m = .sys (.load env script) ∧ s.move b m = (s.sys.move b (.load env script) >>= fun _ => pure s) ∧
      ∀ sys, s.sys.move b (.load env script) ≠ Run.ret sys := by
  obtain ⟨lo, hi⟩ := oinv_reaches h
  rcases owned_move b hi m with ⟨s', lo', e1, -⟩ | e
  · exact .inl ⟨s', e1⟩
  · exact .inr e

/-- C87: nothing is freed twice. -/
theorem C87_once {b : Build} {ms : List (OwnedMove T E)} {s : Owned T E} (h : OwnedReaches b ms s) : s.arcs.freed.Nodup := by
  obtain ⟨lo, hi⟩ := oinv_reaches h
  exact hi.kept.freed.nodup_iff.mpr List.nodup_range

/-- C87: as long as there is a buffer, only what it has consumed is dropped. -/
theorem C87_keeps {b : Build} {ms : List (OwnedMove T E)} {s : Owned T E} (h : OwnedReaches b ms s) (hb : s.buffer = true) :
    s.arcs.dropped <+: (committedOf s.sys.log).take (consumedOf s.sys.log) := by
  obtain ⟨lo, hi⟩ := oinv_reaches h
  have h1 := hi.head hb
  have h2 := hi.position.1
  rw [hi.kept.dropped, committedOf]
  generalize segmentsOf s.sys.log = segs at h1 h2
  have e : segs.flatten = (segs.take lo).flatten ++ (segs.drop lo).flatten := by
    rw [← List.flatten_append, List.take_append_drop]
  have hle : (segs.take lo).flatten.length ≤ consumedOf s.sys.log := by
    have : segs.take s.sys.head.node = segs.take lo ++ (segs.drop lo).take (s.sys.head.node - lo) := by
      rw [← List.take_add]; congr 1; omega
    rw [h2, this, List.flatten_append, List.length_append]
    omega
  rw [e, List.take_append, List.take_of_length_le hle]
  exact List.prefix_append _ _

/-- C87: when `advance` returns, the segments that are wholly consumed are gone: their items dropped, in order, and their
cells freed. (If the loader has set a cell just now and not let go of it yet, that one goes when it does.) -/
theorem C87_frees {b : Build} {ms : List (OwnedMove T E)} {s s' : Owned T E} {n r : Nat} {c : Cursor} (h : OwnedReaches b ms s)
    (hr : s.sys.reader = .advancing n r c) (he : s.move b (.sys .get) = Run.ret s') (hd : s'.sys.reader = .idle)
    (hn : s'.releasing = none) :
    ∃ k, Whole (segmentsOf s'.sys.log) (consumedOf s'.sys.log) k ∧ s'.arcs.dropped = ((segmentsOf s'.sys.log).take k).flatten ∧
      s'.arcs.freed.Perm (List.range k) := by
  obtain ⟨lo, hi⟩ := oinv_reaches h
  obtain ⟨s₁, lo', e1, e2, e4, e3⟩ := owned_buffer b hi (m := .get) (by simp)
  have e1 : s.move b (.sys .get) = Run.ret s₁ := e1
  rw [he] at e1
  simp at e1
  subst e1
  have hb' : s'.buffer = true := e4.trans (hi.advancing n r c hr).1
  have hlo := e2.inv.first hb' hn
  have hpos := e2.inv.position.1
  have hhead := (e2.inv.head hb').2
  have hk := e2.inv.kept
  rw [hlo] at hk
  refine ⟨s'.sys.head.node, ⟨hhead, by omega, fun hlt => ?_⟩, hk.dropped, hk.freed⟩
  rcases e3 n r c rfl hr hd with e | ⟨xs, e6, e5⟩
  · omega
  · rw [List.take_add_one, e6]
    simp only [Option.toList_some, List.flatten_append, List.length_append, List.flatten_cons, List.flatten_nil, List.append_nil]
    omega

/-- C87: once the buffer is gone, what the loader commits does not pile up. -/
theorem C87_loader_alone {b : Build} {ms : List (OwnedMove T E)} {s : Owned T E} (h : OwnedReaches b ms s) (hb : s.buffer = false)
    (hl : s.loader = true) (hr : s.releasing = none) :
    s.arcs.dropped = committedOf s.sys.log ∧ s.arcs.freed.Perm (List.range (segmentsOf s.sys.log).length) := by
  obtain ⟨lo, hi⟩ := oinv_reaches h
  have hk := hi.kept
  have : lo = (segmentsOf s.sys.log).length := by
    have h1 := hk.below (segmentsOf s.sys.log).length
    have h2 := hk.first
    have h3 := hk.le
    simp only [Owned.holders, hb, hl, hr, hi.tail] at h1 h2
    grind
  subst this
  exact ⟨by rw [hk.dropped, List.take_length]; rfl, hk.freed⟩

/-- C87: when both sides are gone, in whichever order, every cell is freed and every item dropped, once. -/
theorem C87_all {b : Build} {ms : List (OwnedMove T E)} {s : Owned T E} (h : OwnedReaches b ms s) (hb : s.buffer = false)
    (hl : s.loader = false) : s.arcs.freed.Perm (List.range s.sys.cells.fresh) ∧ s.arcs.dropped = committedOf s.sys.log ∧
      (AllOk s.sys.log → s.arcs.dropped ++ s.last = acceptedOf s.sys.log) := by
  obtain ⟨lo, hi⟩ := oinv_reaches h
  have hk := hi.kept
  have hr : s.releasing = none := by
    cases hr : s.releasing with
    | none => rfl
    | some a => have := (hi.releasing a hr).1; rw [hl] at this; cases this
  have : lo = (segmentsOf s.sys.log).length + 1 := by
    have h2 := hk.first
    have h3 := hk.le
    simp only [Owned.holders, hb, hl, hr] at h2
    grind
  subst this
  have hd : s.arcs.dropped = committedOf s.sys.log := by rw [hk.dropped, List.take_of_length_le (by omega)]; rfl
  refine ⟨by rw [hi.linear.fresh]; exact hk.freed, hd, fun hok => ?_⟩
  obtain ⟨ms, hms⟩ := hi.reaches
  obtain ⟨pend, hp, e⟩ := C55_conservation hms hok
  rw [hd, ← e, (hi.last hl).unique hp]

/-! ## C88 -/

/-- C88: dropping takes a bounded amount of stack: there is a bound on how many cells are freed one inside the other. -/
def C88Statement : Prop := ∃ bound : Nat, ∀ (T E : Type) (b : Build) (ms : List (OwnedMove T E)) (s : Owned T E),
  OwnedReaches b ms s → s.depth ≤ bound

/-- C88, exactly: the cells freed by one step are freed one inside the other. -/
theorem C88_exact {b : Build} {ms : List (OwnedMove T E)} {s s' : Owned T E} (h : OwnedReaches b ms s) {m : OwnedMove T E}
    (he : s.move b m = Run.ret s') : s'.depth = max s.depth (s'.arcs.freed.length - s.arcs.freed.length) := by
  obtain ⟨lo, hi⟩ := oinv_reaches h
  obtain ⟨lo', h1⟩ := hi.step he
  rw [h1.depth, h1.freed]
  congr 1
  omega

/-- The cells there are. -/
def Owned.held (s : Owned T E) : Nat := s.sys.cells.fresh - s.arcs.freed.length

/-- C88, partly: if there are never more than so many cells at a time, no more than that. -/
theorem C88_partial {b : Build} {bound : Nat} {ms : List (OwnedMove T E)} {c : Nat} {s : Owned T E}
    (hb : ∀ ms₁ ms₂ s₁, ms = ms₁ ++ ms₂ → (Owned.init c).run b ms₁ = Run.ret s₁ → s₁.held ≤ bound)
    (h : (Owned.init c).run b ms = Run.ret s) : s.depth ≤ bound := by
  have key : ∀ (ms' : List (OwnedMove T E)) (ms₀ : List (OwnedMove T E)) (s₀ : Owned T E), ms = ms₀ ++ ms' →
      (Owned.init c).run b ms₀ = Run.ret s₀ → s₀.depth ≤ bound → s₀.run b ms' = Run.ret s → s.depth ≤ bound := by
    intro ms'
    induction ms' with
    | nil => intro ms₀ s₀ _ _ hd h; simp [Owned.run] at h; subst h; exact hd
    | cons m ms' ih =>
      intro ms₀ s₀ he hr hd h
      obtain ⟨s₁, h1, h2⟩ := Run.bind_eq_ret.mp h
      obtain ⟨lo, hi⟩ := oinv_reaches ⟨c, hr⟩
      obtain ⟨lo', h3⟩ := hi.step h1
      have hheld := hb ms₀ (m :: ms') s₀ he hr
      refine ih (ms₀ ++ [m]) s₁ (by rw [he]; simp) (owned_run_append.mpr ⟨s₀, hr, owned_run_single.mpr h1⟩) ?_ h2
      rw [h3.depth]
      rcases h3.cells with e | e
      · have hf := h3.inv.linear.fresh
        have hl := h3.inv.kept.le
        have h0 : s₀.arcs.freed.length = lo := by rw [hi.kept.freed.length_eq, List.length_range]
        rw [e] at hf
        unfold Owned.held at hheld
        omega
      · rw [e]; omega
  exact key ms [] _ rfl rfl (Nat.zero_le _) h

/-- `n` times `force_commit`. -/
theorem commits (n : Nat) : ∃ (ms : List (OwnedMove Nat Nat)) (s : Owned Nat Nat), OwnedReaches .checked ms s ∧ s.buffer = true ∧
    s.loader = true ∧ s.releasing = none ∧ s.sys.reader = .idle ∧ s.sys.head.node = 0 ∧ (segmentsOf s.sys.log).length = n := by
  induction n with
  | zero => exact ⟨[], Owned.init 0, ⟨0, rfl⟩, rfl, rfl, rfl, rfl, rfl, rfl⟩
  | succ n ih =>
    obtain ⟨ms, s, hr, h1, h2, h3, h4, h5, h6⟩ := ih
    obtain ⟨c, hr⟩ := hr
    obtain ⟨lo, hi⟩ := oinv_reaches ⟨c, hr⟩
    obtain ⟨pend, hp⟩ := hi.inv.pending
    obtain ⟨sys, e0, -, e1, e2, e3, e4⟩ := move_forceCommit (b := .checked) (env := plainEnv) hi.inv hp
    obtain ⟨s₁, f1, f2, f3, f4, f5⟩ := owned_loader .checked hi (.inr ⟨plainEnv, rfl⟩) h2 h3 e0
    have f1 : s.move .checked (.sys (.forceCommit plainEnv)) = Run.ret s₁ := f1
    have hrel : ∃ s₂, s₁.move .checked .release = Run.ret s₂ ∧ s₂.sys = s₁.sys ∧ s₂.buffer = s₁.buffer ∧ s₂.loader = s₁.loader ∧
        s₂.releasing = none := by
      simp only [Owned.move]
      rcases hrl : s₁.releasing with _ | a
      · exact ⟨s₁, rfl, rfl, rfl, rfl, hrl⟩
      · obtain ⟨s', lo', g1, g2, g3, g4, g5, g6, g7, -⟩ := OInv.release (b := .checked) (s := s₁) (s₁ := { s₁ with releasing := none }) (lo := lo) (a := a)
          f2.inv.linear f2.inv.kept (by simp only [Owned.holders, hrl, if_true]; omega) (fun k => by simp only [Owned.holders, hrl]; grind)
          (fun arcs d lo' hk => ⟨f2.inv.reaches, f2.inv.linear, f2.inv.tail, f2.inv.advancing, f2.inv.iterating, (fun _ h => nomatch h), f2.inv.last, hk⟩)
        exact ⟨s', g1, g4, g6, g5, g7⟩
    obtain ⟨s₂, g1, g2, g3, g4, g5⟩ := hrel
    refine ⟨ms ++ [.sys (.forceCommit plainEnv), .release], s₂, ⟨c, owned_run_append.mpr ⟨s, hr, ?_⟩⟩, ?_, ?_, g5, ?_, ?_, ?_⟩
    · simp only [Owned.run, f1, g1, Run.ret_bind]; rfl
    · rw [g3, f5, h1]
    · rw [g4, f4]
    · rw [g2, f3, e2, h4]
    · rw [g2, f3, e1, h5]
    · rw [g2, f3, e4, segmentsOf_append]; simp [segmentsOf, h6]

/-- Letting go changes nothing but the counts. -/
theorem owned_release_fields {s s' : Owned T E} {a : Nat} (h : s.release a = Run.ret s') :
    s'.sys = s.sys ∧ s'.buffer = s.buffer ∧ s'.loader = s.loader ∧ s'.releasing = s.releasing := by
  obtain ⟨p, -, h2⟩ := Run.bind_eq_ret.mp h
  have := Run.pure_eq_ret.mp h2
  subst this
  exact ⟨rfl, rfl, rfl, rfl⟩

/-- C88 does not hold: `n` commits that are not read, and then both sides are dropped: `n + 1` cells are freed one inside
the other. -/
theorem C88_deep (n : Nat) : ∃ (ms : List (OwnedMove Nat Nat)) (s : Owned Nat Nat), OwnedReaches .checked ms s ∧ n < s.depth := by
  obtain ⟨ms, s, hr, h1, h2, h3, h4, h5, h6⟩ := commits n
  have hno : ∀ {ms : List (OwnedMove Nat Nat)} {s : Owned Nat Nat}, OwnedReaches .checked ms s → s.buffer = true → s.releasing = none →
      s.sys.head.node = 0 → s.arcs.freed.length = 0 := by
    intro ms s hr h1 h2 h3
    obtain ⟨lo, hi⟩ := oinv_reaches hr
    rw [hi.kept.freed.length_eq, List.length_range, hi.first h1 h2, h3]
  rcases C87_no_use_after_free hr .dropLoader with ⟨s₁, e⟩ | ⟨_, _, e, -⟩
  case inr => cases e
  obtain ⟨f1, f2, f3, f4⟩ : s₁.sys = s.sys ∧ s₁.buffer = true ∧ s₁.loader = false ∧ s₁.releasing = none := by
    simp only [Owned.move, h2, h3, and_self, if_true] at e
    obtain ⟨last, -, e⟩ := Run.bind_eq_ret.mp e
    obtain ⟨g1, g2, g3, g4⟩ := owned_release_fields e
    exact ⟨g1, g2.trans h1, g3, g4⟩
  obtain ⟨c, hr⟩ := hr
  have hr₁ : OwnedReaches .checked (ms ++ [.dropLoader]) s₁ := ⟨c, owned_run_append.mpr ⟨s, hr, owned_run_single.mpr e⟩⟩
  rcases C87_no_use_after_free hr₁ .dropBuffer with ⟨s₂, e'⟩ | ⟨_, _, e', -⟩
  case inr => cases e'
  obtain ⟨g1, g2, g3⟩ : s₂.sys = s.sys ∧ s₂.buffer = false ∧ s₂.loader = false := by
    have e'' := e'
    simp only [Owned.move, f1, f2, h4, if_true] at e''
    obtain ⟨g1, g2, g3, g4⟩ := owned_release_fields e''
    exact ⟨g1, g2, g3.trans f3⟩
  have hx := C88_exact hr₁ e'
  obtain ⟨c, hr₁⟩ := hr₁
  have hr₂ : OwnedReaches .checked (ms ++ [.dropLoader] ++ [.dropBuffer]) s₂ :=
    ⟨c, owned_run_append.mpr ⟨s₁, hr₁, owned_run_single.mpr e'⟩⟩
  have hall := (C87_all hr₂ g2 g3).1.length_eq
  have hz := hno ⟨c, hr₁⟩ f2 f4 (by rw [f1, h5])
  obtain ⟨lo, hi⟩ := oinv_reaches hr₂
  rw [List.length_range, hi.linear.fresh, g1, h6] at hall
  exact ⟨_, s₂, hr₂, by rw [hx]; omega⟩

theorem C88_false : ¬ C88Statement := by
  rintro ⟨bound, h⟩
  obtain ⟨ms, s, h1, h2⟩ := C88_deep bound
  have := h Nat Nat .checked ms s h1
  omega

/-! ## A history -/

/-- To loader and buffer a step is what it is if nothing is ever freed. -/
theorem owned_buffer_sys {b : Build} {s s' : Owned T E} {m : Move T E} (hb : s.buffer = true) (h : s.bufferMove b m = Run.ret s') :
    s.sys.move b m = Run.ret s'.sys ∧ s'.buffer = s.buffer ∧ s'.loader = s.loader ∧ s'.releasing = s.releasing := by
  unfold Owned.bufferMove at h
  rw [if_pos hb] at h
  split at h
  · obtain ⟨-, -, h⟩ := Run.bind_eq_ret.mp h
    obtain ⟨sys, e, h⟩ := Run.bind_eq_ret.mp h
    split at h
    · obtain ⟨arcs, -, h⟩ := Run.bind_eq_ret.mp h
      obtain ⟨g1, g2, g3, g4⟩ := owned_release_fields h
      exact ⟨by rw [e, g1], g2, g3, g4⟩
    · have := Run.pure_eq_ret.mp h
      subst this
      exact ⟨e, rfl, rfl, rfl⟩
  · obtain ⟨-, -, h⟩ := Run.bind_eq_ret.mp h
    obtain ⟨sys, e, h⟩ := Run.bind_eq_ret.mp h
    have := Run.pure_eq_ret.mp h
    subst this
    exact ⟨e, rfl, rfl, rfl⟩
  · obtain ⟨sys, e, h⟩ := Run.bind_eq_ret.mp h
    have := Run.pure_eq_ret.mp h
    subst this
    exact ⟨e, rfl, rfl, rfl⟩

/-- One item is loaded, committed and consumed: `advance(1)` drops it and frees its cell. -/
theorem freed_history : ∃ (ms : List (OwnedMove Nat Nat)) (s s' : Owned Nat Nat), OwnedReaches .checked ms s ∧
    (∃ n r c, s.sys.reader = .advancing n r c) ∧ s.move .checked (.sys .get) = Run.ret s' ∧ s'.sys.reader = .idle ∧ s'.releasing = none ∧
    s'.buffer = true ∧ s'.arcs.dropped = [7] ∧ s'.arcs.freed.Perm [0] := by
  obtain ⟨s₁, e₁, f₁, f₂, f₃, sys₂, sys₃, sys₄, g₂, g₃, g₄, g₅, g₆, g₇, g₈⟩ : ∃ s₁ : Owned Nat Nat, (Owned.init 0).run .checked
      [.sys (.load plainEnv (IteratorSource.script [[7]])), .sys (.forceCommit plainEnv)] = Run.ret s₁ ∧ s₁.buffer = true ∧ s₁.loader = true ∧
      s₁.releasing = some 0 ∧ ∃ sys₂ sys₃ sys₄, s₁.sys.move .checked (.advance 1) = Run.ret sys₂ ∧ sys₂.move .checked .get = Run.ret sys₃ ∧
        sys₃.move .checked .get = Run.ret sys₄ ∧ (∃ n r c, sys₃.reader = .advancing n r c) ∧ sys₄.reader = .idle ∧ segmentsOf sys₄.log = [[7]] ∧
        consumedOf sys₄.log = 1 := ⟨_, rfl, rfl, rfl, rfl, _, _, _, rfl, rfl, rfl, ⟨_, _, _, rfl⟩, rfl, rfl, rfl⟩
  have step : ∀ {ms : List (OwnedMove Nat Nat)} {s s' : Owned Nat Nat} {m : OwnedMove Nat Nat}, OwnedReaches .checked ms s →
      s.move .checked m = Run.ret s' → OwnedReaches .checked (ms ++ [m]) s' := by
    rintro ms s s' m ⟨c, h⟩ e
    exact ⟨c, owned_run_append.mpr ⟨s, h, owned_run_single.mpr e⟩⟩
  have r₁ : OwnedReaches .checked _ s₁ := ⟨0, e₁⟩
  rcases C87_no_use_after_free r₁ .release with ⟨s₂, e₂⟩ | ⟨_, _, e, -⟩
  case inr => cases e
  have r₂ := step r₁ e₂
  simp only [Owned.move, f₃] at e₂
  obtain ⟨i₁, i₂, i₃, i₄⟩ := owned_release_fields e₂
  rcases C87_no_use_after_free r₂ (.sys (.advance 1)) with ⟨s₃, e₃⟩ | ⟨_, _, e, -⟩
  case inr => cases e
  have r₃ := step r₂ e₃
  obtain ⟨j₁, j₂, j₃, j₄⟩ := owned_buffer_sys (b := .checked) (m := .advance 1) (i₂.trans f₁) e₃
  rcases C87_no_use_after_free r₃ (.sys .get) with ⟨s₄, e₄⟩ | ⟨_, _, e, -⟩
  case inr => cases e
  have r₄ := step r₃ e₄
  obtain ⟨k₁, k₂, k₃, k₄⟩ := owned_buffer_sys (b := .checked) (m := .get) (j₂.trans (i₂.trans f₁)) e₄
  rcases C87_no_use_after_free r₄ (.sys .get) with ⟨s₅, e₅⟩ | ⟨_, _, e, -⟩
  case inr => cases e
  obtain ⟨l₁, l₂, l₃, l₄⟩ := owned_buffer_sys (b := .checked) (m := .get) (k₂.trans (j₂.trans (i₂.trans f₁))) e₅
  have hi₁ : s₂.sys = s₁.sys := i₁
  rw [hi₁, g₂, Run.ret_inj] at j₁
  rw [← j₁, g₃, Run.ret_inj] at k₁
  rw [← k₁, g₄, Run.ret_inj] at l₁
  obtain ⟨n, r, c, g₅⟩ := g₅
  have hr : s₄.sys.reader = .advancing n r c := by rw [← k₁, g₅]
  have hd : s₅.sys.reader = .idle := by rw [← l₁, g₆]
  have hn : s₅.releasing = none := l₄.trans (k₄.trans (j₄.trans i₄))
  obtain ⟨k, h1, h2, h3⟩ := C87_frees r₄ hr e₅ hd hn
  rw [← l₁, g₇, g₈] at h1
  rw [← l₁, g₇] at h2
  have hk : k = 1 := by
    obtain ⟨h4, -, h5⟩ := h1
    simp at h4 h5
    rcases k with _ | _ | k
    · simp at h5
    · rfl
    · omega
  subst hk
  exact ⟨_, s₄, s₅, r₄, ⟨_, _, _, hr⟩, e₅, hd, hn, l₂.trans (k₂.trans (j₂.trans (i₂.trans f₁))), h2, h3⟩

end Parcom
