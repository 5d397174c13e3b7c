import Verif.Props.Loader
/-!
# How often `advance` looks at a node (C128)

`advance` (`crates/parcom-sequences/src/generic/buffer.rs:30-54`) walks over the nodes from `head_node` and stores how far
it came. What is counted is its calls of `node.get()` (line 37), over a whole history.
-/
namespace Parcom.Spec
open Parcom
variable {T E : Type}

/-- This move is a `node.get()` of a running `advance`. -/
def IsLook (s : Loading T E) (m : Move T E) : Prop := m = .get ∧ ∃ length remain c, s.reader = .advancing length remain c

/-- The system gets here from its beginning, and `advance` called `node.get()` so many times on the way. -/
inductive ReachesLooking (b : Build) : List (Move T E) → Loading T E → Nat → Prop where
  | start (c : Nat) : ReachesLooking b [] (Loading.init c) 0
  | look {ms : List (Move T E)} {m : Move T E} {s s' : Loading T E} {k : Nat} : ReachesLooking b ms s k → IsLook s m →
      s.move b m = Run.ret s' → ReachesLooking b (ms ++ [m]) s' (k + 1)
  | other {ms : List (Move T E)} {m : Move T E} {s s' : Loading T E} {k : Nat} : ReachesLooking b ms s k → ¬IsLook s m →
      s.move b m = Run.ret s' → ReachesLooking b (ms ++ [m]) s' k

/-- The number of calls of `advance` that returned. -/
def advancesOf : List (Obs T E) → Nat
  | [] => 0
  | .advanced _ _ :: log => advancesOf log + 1
  | _ :: log => advancesOf log

end Parcom.Spec

namespace Parcom
open Spec
variable {T E : Type}

theorem advancesOf_append (l l' : List (Obs T E)) : advancesOf (l ++ l') = advancesOf l + advancesOf l' := by
  induction l with
  | nil => simp [advancesOf]
  | cons o l ih => cases o <;> simp [advancesOf, ih] <;> omega

theorem reachesLooking_reaches {b : Build} {ms : List (Move T E)} {s : Loading T E} {k : Nat} (h : ReachesLooking b ms s k) :
    Reaches b ms s := by
  induction h with
  | start c => exact ⟨c, rfl⟩
  | look _ _ he ih => obtain ⟨c, hr⟩ := ih; exact ⟨c, run_append.mpr ⟨_, hr, run_single.mpr he⟩⟩
  | other _ _ he ih => obtain ⟨c, hr⟩ := ih; exact ⟨c, run_append.mpr ⟨_, hr, run_single.mpr he⟩⟩

/-- Where `advance` is, or will begin. -/
def Loading.standing (s : Loading T E) : Cursor :=
  match s.reader with
  | .advancing _ _ c => c
  | _ => s.head

/-- The nodes passed and those ahead are all there are; a look that did not pass a node ended a call. -/
def LookInv (s : Loading T E) (k : Nat) : Prop :=
  ∃ rest, Chain s.cells s.standing.node rest s.loader.tail ∧
    k + rest.length = (segmentsOf s.log).length + advancesOf s.log

theorem lookInv_commit {s s' : Loading T E} {xs : List T} {k : Nat} (hi : Inv s) (hp : Pending s xs) (hl : LookInv s k)
    (he : commitTo s.cells s.loader.tail s.loader.buf = Run.ret (s'.cells, s'.loader.tail)) (h1 : s'.head = s.head)
    (h2 : s'.reader = s.reader) (h3 : segmentsOf s'.log = segmentsOf s.log ++ [xs]) (h4 : advancesOf s'.log = advancesOf s.log) :
    LookInv s' k := by
  obtain ⟨rest, hc, hk⟩ := hl
  refine ⟨rest ++ [xs], ?_, by rw [h3, h4]; simp; omega⟩
  have : s'.standing = s.standing := by unfold Loading.standing; rw [h1, h2]
  rw [this]
  exact commitTo_chain hi.cells he hp hc

theorem lookInv_same {s s' : Loading T E} {k : Nat} (hl : LookInv s k) (h1 : s'.cells = s.cells)
    (h2 : s'.loader.tail = s.loader.tail) (h3 : s'.standing = s.standing) (h4 : segmentsOf s'.log = segmentsOf s.log)
    (h5 : advancesOf s'.log = advancesOf s.log) : LookInv s' k := by
  unfold LookInv
  rw [h1, h2, h3, h4, h5]
  exact hl

theorem lookInv_move {b : Build} {s s' : Loading T E} {m : Move T E} {k : Nat} (hi : Inv s) (hl : LookInv s k)
    (he : s.move b m = Run.ret s') : (IsLook s m → LookInv s' (k + 1)) ∧ (¬IsLook s m → LookInv s' k) := by
  obtain ⟨pend, hp⟩ := hi.pending
  have quiet : m ≠ .get → LookInv s' k →
      (IsLook s m → LookInv s' (k + 1)) ∧ (¬IsLook s m → LookInv s' k) :=
    fun hm h => ⟨fun hlk => absurd hlk.1 hm, fun _ => h⟩
  cases m with
  | load env script =>
    refine quiet (by simp) ?_
    obtain ⟨r, told, -, h1, h2, ⟨h3, h4, h5⟩ | ⟨h3, h5⟩⟩ := move_load hi hp he
    · refine lookInv_same hl h3 h4 (by unfold Loading.standing; rw [h1, h2]) ?_ ?_ <;> rw [h5]
      · simp [segmentsOf_append, segmentsOf]
      · simp [advancesOf_append, advancesOf]
    · refine lookInv_commit hi hp hl h3 h1 h2 ?_ ?_ <;> rw [h5]
      · simp [segmentsOf_append, segmentsOf]
      · simp [advancesOf_append, advancesOf]
  | forceCommit env =>
    refine quiet (by simp) ?_
    obtain ⟨s₁, e, -, h1, h2, h3, h4⟩ := move_forceCommit (b := b) (env := env) hi hp
    rw [e] at he
    simp at he
    subst he
    refine lookInv_commit hi hp hl h3 h1 h2 ?_ ?_ <;> rw [h4]
    · simp [segmentsOf_append, segmentsOf]
    · simp [advancesOf_append, advancesOf]
  | advance length =>
    refine quiet (by simp) ?_
    simp only [Loading.move] at he
    split at he
    · rename_i hrd
      simp at he
      subst he
      exact lookInv_same hl rfl rfl (by simp [Loading.standing, hrd]) rfl rfl
    · simp at he
      subst he
      exact hl
  | segments =>
    refine quiet (by simp) ?_
    simp only [Loading.move] at he
    split at he
    · rename_i hrd
      simp at he
      subst he
      refine lookInv_same hl rfl rfl (by simp [Loading.standing, hrd]) ?_ ?_
      · simp [segmentsOf_append, segmentsOf]
      · simp [advancesOf_append, advancesOf]
    · simp at he
      subst he
      exact hl
  | next =>
    refine quiet (by simp) ?_
    simp only [Loading.move] at he
    split at he
    · rename_i c hrd
      obtain ⟨⟨o, c'⟩, -, he⟩ := Run.bind_eq_ret.mp he
      cases o with
      | none =>
        simp at he
        subst he
        refine lookInv_same hl rfl rfl (by simp [Loading.standing, hrd]) ?_ ?_
        · simp [segmentsOf_append, segmentsOf]
        · simp [advancesOf_append, advancesOf]
      | some seg =>
        simp at he
        subst he
        refine lookInv_same hl rfl rfl (by simp [Loading.standing, hrd]) ?_ ?_
        · simp [segmentsOf_append, segmentsOf]
        · simp [advancesOf_append, advancesOf]
    · simp at he
      subst he
      exact hl
  | dropIter =>
    refine quiet (by simp) ?_
    simp only [Loading.move] at he
    split at he
    · rename_i c hrd
      simp at he
      subst he
      exact lookInv_same hl rfl rfl (by simp [Loading.standing, hrd]) rfl rfl
    · simp at he
      subst he
      exact hl
  | get =>
    simp only [Loading.move] at he
    split at he
    · rename_i length remain c hrd
      refine ⟨fun _ => ?_, fun hn => absurd ⟨rfl, length, remain, c, hrd⟩ hn⟩
      obtain ⟨rest, hc, hk⟩ := hl
      have hst : s.standing = c := by simp [Loading.standing, hrd]
      rw [hst] at hc
      have hadv : ∀ r, advancesOf (s.log ++ [.advanced length r]) = advancesOf s.log + 1 := fun r => by
        rw [advancesOf_append]; rfl
      have hseg : ∀ r, segmentsOf (s.log ++ [.advanced length r]) = segmentsOf s.log := fun r => by
        rw [segmentsOf_append]; simp [segmentsOf]
      obtain ⟨t, ht, he⟩ := Run.bind_eq_ret.mp he
      obtain ⟨off, i⟩ := c
      cases hc with
      | nil hget =>
        simp only [advanceTurn, hget, Run.pure_eq_ret] at ht
        subst ht
        simp at he
        subst he
        refine ⟨[], .nil hget, ?_⟩
        show _ = (segmentsOf (s.log ++ _)).length + advancesOf (s.log ++ _)
        rw [hadv, hseg]
        simp at hk ⊢
        omega
      | @cons _ _ n xs segs hget hxs hrest =>
        simp only [advanceTurn, hget] at ht
        obtain ⟨len, -, ht⟩ := Run.bind_eq_ret.mp ht
        split at ht
        · simp at ht
          subst ht
          simp at he
          subst he
          refine ⟨xs :: segs, .cons hget hxs hrest, ?_⟩
          show _ = (segmentsOf (s.log ++ _)).length + advancesOf (s.log ++ _)
          rw [hadv, hseg]
          omega
        · simp at ht
          subst ht
          simp at he
          subst he
          refine ⟨segs, hrest, ?_⟩
          show _ = (segmentsOf s.log).length + advancesOf s.log
          simp at hk
          omega
    · rename_i hrd
      simp at he
      subst he
      exact ⟨fun ⟨_, l, r, c, h⟩ => absurd h (hrd l r c), fun _ => hl⟩

theorem lookInv_reaches {b : Build} {ms : List (Move T E)} {s : Loading T E} {k : Nat} (h : ReachesLooking b ms s k) :
    LookInv s k := by
  induction h with
  | start c => exact ⟨[], .nil rfl, rfl⟩
  | look h hl he ih => exact (lookInv_move (inv_reaches (reachesLooking_reaches h)) ih he).1 hl
  | other h hl he ih => exact (lookInv_move (inv_reaches (reachesLooking_reaches h)) ih he).2 hl

/-! ## C128 -/

/-- C128: over a whole history, all calls of `advance` together look at a node at most once for each segment made visible
and once for each call that returned. -/
theorem C128 {b : Build} {ms : List (Move T E)} {s : Loading T E} {k : Nat} (h : ReachesLooking b ms s k) :
    k ≤ (segmentsOf s.log).length + advancesOf s.log := by
  obtain ⟨rest, -, hk⟩ := lookInv_reaches h
  omega

/-- C128: every history has such a count. -/
theorem C128_counts {b : Build} {ms : List (Move T E)} {s : Loading T E} (h : Reaches b ms s) : ∃ k, ReachesLooking b ms s k := by
  obtain ⟨c, h⟩ := h
  have key : ∀ (ms ms₀ : List (Move T E)) (s₀ : Loading T E) (k₀ : Nat), ReachesLooking b ms₀ s₀ k₀ → s₀.run b ms = Run.ret s →
      ∃ k, ReachesLooking b (ms₀ ++ ms) s k := by
    intro ms
    induction ms with
    | nil => intro ms₀ s₀ k₀ h₀ h; simp [Loading.run] at h; subst h; exact ⟨k₀, by simpa using h₀⟩
    | cons m ms ih =>
      intro ms₀ s₀ k₀ h₀ h
      simp only [Loading.run] at h
      obtain ⟨s₁, h1, h2⟩ := Run.bind_eq_ret.mp h
      rw [← List.singleton_append, ← List.append_assoc]
      by_cases hl : IsLook s₀ m
      · exact ih _ _ _ (.look h₀ hl h1) h2
      · exact ih _ _ _ (.other h₀ hl h1) h2
  exact key ms [] _ 0 (.start c) h

/-- C128: the bound is met whenever a call returns because items are missing. -/
theorem C128_exact {b : Build} {ms : List (Move T E)} {s s' : Loading T E} {k n r : Nat} (h : ReachesLooking b ms s k)
    (he : s.move b .get = Run.ret s') (hl : s'.log = s.log ++ [.advanced n (r + 1)]) :
    ReachesLooking b (ms ++ [.get]) s' (k + 1) ∧ k + 1 = (segmentsOf s'.log).length + advancesOf s'.log := by
  have hs := he
  simp only [Loading.move] at he
  split at he
  · rename_i length remain c hrd
    have hlk : IsLook s .get := ⟨rfl, length, remain, c, hrd⟩
    refine ⟨.look h hlk hs, ?_⟩
    obtain ⟨rest, hc, hk⟩ := (lookInv_move (inv_reaches (reachesLooking_reaches h)) (lookInv_reaches h) hs).1 hlk
    obtain ⟨t, ht, he⟩ := Run.bind_eq_ret.mp he
    unfold advanceTurn at ht
    split at ht
    · rename_i hget
      simp at ht
      subst ht
      simp at he
      subst he
      obtain ⟨off, i⟩ := c
      have hc' : Chain s.cells i rest s.loader.tail := hc
      cases hc' with
      | nil => simpa using hk
      | cons hg => rw [hget] at hg; exact absurd hg (by simp)
    · obtain ⟨len, -, ht⟩ := Run.bind_eq_ret.mp ht
      split at ht
      · simp at ht
        subst ht
        simp at he
        subst he
        simp at hl
      · simp at ht
        subst ht
        simp at he
        subst he
        simp at hl
  · simp at he
    subst he
    simp at hl

/-- Two segments, passed by two calls: `advance(0)` stays in the first, `advance(9)` passes both and finds the end. Four
looks, two segments and two calls. -/
example : ∃ s : Loading Nat Nat, Reaches .checked [.load plainEnv (IteratorSource.script [[7]]), .forceCommit plainEnv,
    .forceCommit plainEnv, .advance 0, .get, .advance 9, .get, .get, .get] s ∧
    (segmentsOf s.log).length = 2 ∧ advancesOf s.log = 2 ∧ s.log.getLast? = some (.advanced 9 8) ∧
    ReachesLooking .checked [.load plainEnv (IteratorSource.script [[7]]), .forceCommit plainEnv,
    .forceCommit plainEnv, .advance 0, .get, .advance 9, .get, .get, .get] s 4 := by
  refine ⟨_, ⟨0, rfl⟩, rfl, rfl, rfl, ?_⟩
  refine .look (ms := [_, _, _, _, _, _, _, _]) (.look (ms := [_, _, _, _, _, _, _]) (.look (ms := [_, _, _, _, _, _])
    (.other (ms := [_, _, _, _, _]) (.look (ms := [_, _, _, _]) (.other (ms := [_, _, _]) (.other (ms := [_, _])
    (.other (ms := [_]) (.other (ms := []) (.start 0) ?_ rfl) ?_ rfl) ?_ rfl) ?_ rfl) ?_ rfl) ?_ rfl) ?_ rfl) ?_ rfl) ?_ rfl
  all_goals first
    | exact fun h => nomatch h.1
    | exact ⟨rfl, _, _, _, rfl⟩

end Parcom
