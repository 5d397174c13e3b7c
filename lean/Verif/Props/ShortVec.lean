import Verif.Lemmas.VecSystem
/-!
# C42–C46: ShortVec
-/
namespace Parcom
open Spec

variable {α : Type} {b : Build} {ty : Ty} {start sys : Sys α} {hist : List (VecOp α × Except Fault (VecOut α))}

/-- No restriction on what a program does. -/
abbrev anything (_ : Sys α) (_ : VecOp α) : Prop := True

theorem given_append (h₁ h₂ : List (VecOp α × Except Fault (VecOut α))) : given (h₁ ++ h₂) = given h₁ ++ given h₂ :=
  List.flatMap_append ..
theorem handedOut_append (h₁ h₂ : List (VecOp α × Except Fault (VecOut α))) :
    handedOut (h₁ ++ h₂) = handedOut h₁ ++ handedOut h₂ := List.flatMap_append ..

/-- Every reachable state stands in the relation. -/
theorem reach_rel {allowed : Sys α → VecOp α → Prop} (hz : 0 < ty.size ∨ ∀ sys op, allowed sys op → VecOp.inline sys op)
    (hi : Sys.Initial start) (h : Reach b ty allowed start hist sys) :
    ∃ ls, ListReach hist ls ∧ SysRel ty [] sys ls ∧ (given hist).Perm (handedOut hist ++ (sys.mem.dropped ++ held ls)) := by
  induction h with
  | start => exact ⟨[], .start, .initial hi, by simp [given, handedOut, held, hi.2.2.2]⟩
  | step _ ht ha hrun hne ih =>
    obtain ⟨ls, h1, h2, h3⟩ := ih
    rcases step_rel h2 ht (hz.imp id fun h => h _ _ ha) hrun with ⟨hab, -⟩ | ⟨ls', hs, hr, hp, -⟩
    · exact absurd hab hne
    · refine ⟨ls', ?_, hr, ?_⟩
      · rcases hs with hs | ⟨hm, rfl, rfl, -⟩
        · exact .step h1 hs
        · exact .full h1 hm
      · rw [given_append, handedOut_append, List.append_assoc]
        refine List.Perm.trans (h3.append_right _) ?_
        rw [List.append_assoc]
        exact (List.perm_append_comm.trans hp).append_left _

/-- C42: whatever a program does with vectors of sized elements, each operation returns what it would return if the
vectors were lists. The only difference: an operation that may need memory may instead panic, leaving everything as it
was (`C42_fits` says when it does not). -/
theorem C42_behaves_like_a_stack (hz : 0 < ty.size) (hi : Sys.Initial start)
    (h : Reach b ty anything start hist sys) : ∃ ls, ListReach hist ls := by
  obtain ⟨ls, h1, -⟩ := reach_rel (.inl hz) hi h
  exact ⟨ls, h1⟩

/-- C42: no operation panics for want of capacity as long as the doubled capacity can be allocated. -/
theorem C42_fits (hz : 0 < ty.size) (hi : Sys.Initial start) (h : Reach b ty anything start hist sys) {op : VecOp α}
    (ht : VecOp.typed ty op) (hfit : VecOp.fits ty sys op) {res : Except Fault (VecOut α)} {sys' : Sys α}
    (hrun : sys.run b ty op = some (res, sys')) :
    ∃ ls, ListReach hist ls ∧ (res = .error .abort ∨ ∃ ls', ls.run op = some (res, ls')) := by
  obtain ⟨ls, h1, h2, -⟩ := reach_rel (.inl hz) hi h
  refine ⟨ls, h1, ?_⟩
  rcases step_rel h2 ht (.inl hz) hrun with ⟨hab, -⟩ | ⟨ls', hs, -⟩
  · exact .inl hab
  · rcases hs with hs | ⟨-, -, -, hn⟩
    · exact .inr ⟨ls', hs⟩
    · exact absurd hfit hn

/-- C42: the process is aborted only if the allocator refuses memory. -/
theorem C42_aborts_only_without_memory (hz : 0 < ty.size) (hi : Sys.Initial start)
    (h : Reach b ty anything start hist sys) {op : VecOp α} (ht : VecOp.typed ty op) {sys' : Sys α}
    (hrun : sys.run b ty op = some (.error .abort, sys')) : sys.mem.grants sys.mem.requests = false := by
  obtain ⟨ls, h1, h2, -⟩ := reach_rel (.inl hz) hi h
  rcases step_rel h2 ht (.inl hz) hrun with ⟨-, -, hg, -⟩ | ⟨ls', hs, -⟩
  · exact hg
  · rcases hs with hs | ⟨-, hs, -⟩
    · cases op <;> simp only [Stacks.run] at hs <;> (try split at hs) <;> (try split at hs) <;> simp at hs
    · simp at hs

/-- C43: memory safety. No operation of any program is undefined behaviour. -/
theorem C43_no_undefined_behaviour (hz : 0 < ty.size) (hi : Sys.Initial start)
    (h : Reach b ty anything start hist sys) {op : VecOp α} (ht : VecOp.typed ty op) {res : Except Fault (VecOut α)}
    {sys' : Sys α} (hrun : sys.run b ty op = some (res, sys')) : res ≠ .error .ub := by
  rintro rfl
  obtain ⟨ls, h1, h2, -⟩ := reach_rel (.inl hz) hi h
  rcases step_rel h2 ht (.inl hz) hrun with ⟨hab, -⟩ | ⟨ls', hs, -⟩
  · simp at hab
  · rcases hs with hs | ⟨-, hs, -⟩
    · cases op <;> simp only [Stacks.run] at hs <;> (try split at hs) <;> (try split at hs) <;> simp at hs
    · simp at hs

/-- C43: the invariants in the documentation of `ShortVec` (shortvec.rs:9-15). -/
theorem C43_invariants (hz : 0 < ty.size) (hi : Sys.Initial start) (h : Reach b ty anything start hist sys) {k : Nat}
    {v : SVec α} (hv : sys.vecs[k]? = some (some v)) :
    v.n ≤ v.cap ∧ v.cap ≤ isizeMax ∧ v.len ≤ v.cap ∧ (v.n < v.cap ↔ ∃ p, v.data = .heap p) := by
  obtain ⟨ls, -, h2, -⟩ := reach_rel (.inl hz) hi h
  obtain ⟨l, -, hr⟩ := h2.at hv
  refine ⟨hr.n_le, ?_, hr.len_le, ?_⟩
  · rcases hr.place with ⟨h1, -⟩ | ⟨-, h1, -⟩
    · rw [h1]; exact hr.typed.2 hz
    · exact h1
  · rcases hr.place with ⟨h1, cells, hd, -⟩ | ⟨h1, -, -, -, p, -, hd, -⟩
    · simp [hd]; omega
    · simp [hd]; exact h1

/-- C44: a program that never needs more than the inline buffers never asks the allocator for anything, whatever the
element type. -/
theorem C44_no_allocation (hi : Sys.Initial start) (h : Reach b ty VecOp.inline start hist sys) : sys.mem.requests = 0 := by
  have hz : 0 < ty.size ∨ ∀ (sys : Sys α) op, VecOp.inline sys op → VecOp.inline sys op := .inr fun _ _ h => h
  induction h with
  | start => exact hi.2.2.1
  | step hr ht ha hrun hne ih =>
    obtain ⟨ls, -, h2, -⟩ := reach_rel hz hi hr
    rcases step_rel h2 ht (.inr ha) hrun with ⟨hab, -⟩ | ⟨-, -, -, -, hq⟩
    · exact absurd hab hne
    · rw [hq ha, ih]

/-- C45: at any time the elements that went in are those handed out, those dropped and those still held, each exactly
as often. -/
theorem C45_conservation (hz : 0 < ty.size) (hi : Sys.Initial start) (h : Reach b ty anything start hist sys) :
    ∃ ls, ListReach hist ls ∧ (given hist).Perm (handedOut hist ++ (sys.mem.dropped ++ held ls)) := by
  obtain ⟨ls, h1, -, h3⟩ := reach_rel (.inl hz) hi h
  exact ⟨ls, h1, h3⟩

/-- C45: once all vectors are dropped, every element was handed out or dropped, exactly once, and no memory is left. -/
theorem C45_nothing_left (hz : 0 < ty.size) (hi : Sys.Initial start) (h : Reach b ty anything start hist sys)
    (hdone : ∀ o ∈ sys.vecs, o = none) :
    (given hist).Perm (handedOut hist ++ sys.mem.dropped) ∧ ∀ q, sys.mem.blocks q = none := by
  obtain ⟨ls, h1, h2, h3⟩ := reach_rel (.inl hz) hi h
  have hheld : held ls = [] := by
    rw [held, List.flatMap_eq_nil_iff]
    intro o ho
    obtain ⟨k, hk⟩ := List.getElem?_of_mem ho
    have hs := h2.slots k
    rw [hk] at hs
    generalize hx : sys.vecs[k]? = x at hs
    cases hs with
    | gone => rfl
    | alive _ => have := hdone _ (List.mem_of_getElem? hx); simp at this
  rw [hheld, List.append_nil] at h3
  refine ⟨h3, fun q => ?_⟩
  cases hq : sys.mem.blocks q with
  | none => rfl
  | some blk =>
    obtain ⟨k, v, hk, -⟩ := (h2.owned q (by simp [hq])).resolve_right (fun h => nomatch h)
    have := hdone _ (List.mem_of_getElem? hk)
    simp at this

/-- A memory on which nothing has happened and whose allocator serves every request. -/
def Mem.blank : Mem α := { blocks := fun _ => none, next := 0, grants := fun _ => true, requests := 0, dropped := [] }

/-- A program: a vector with two inline slots gets three elements (spilling to the heap), loses one and is dropped. -/
def spill : List (VecOp Nat) := [.new 2 0, .push 0 7, .push 0 8, .push 0 9, .slice 0, .pop 0, .replace 0 0 5, .drop 0]

/-- Run a program to its end. -/
def Sys.runAll (b : Build) (ty : Ty) : Sys α → List (VecOp α) → Option (List (Except Fault (VecOut α)) × Sys α)
  | sys, [] => some ([], sys)
  | sys, op :: ops => match sys.run b ty op with
    | none => none
    | some (r, sys) => match Sys.runAll b ty sys ops with
      | none => none
      | some (rs, sys) => some (r :: rs, sys)

theorem reach_runAll {allowed : Sys α → VecOp α → Prop} {ops : List (VecOp α)} {rs : List (Except Fault (VecOut α))}
    {sys sys' : Sys α} (h : Reach b ty allowed start hist sys) (ht : ∀ op ∈ ops, VecOp.typed ty op)
    (ha : ∀ sys op, op ∈ ops → allowed sys op) (hrun : sys.runAll b ty ops = some (rs, sys'))
    (hne : ∀ r ∈ rs, r ≠ .error .abort) : Reach b ty allowed start (hist ++ ops.zip rs) sys' := by
  induction ops generalizing sys hist rs with
  | nil => simp [Sys.runAll] at hrun; obtain ⟨rfl, rfl⟩ := hrun; simpa using h
  | cons op ops ih =>
    simp only [Sys.runAll] at hrun
    split at hrun
    · simp at hrun
    · rename_i r sys₁ h1
      split at hrun
      · simp at hrun
      · rename_i rs' sys₂ h2
        simp at hrun
        obtain ⟨rfl, rfl⟩ := hrun
        have := ih (.step h (ht op (by simp)) (ha _ op (by simp)) h1 (hne r (by simp)))
          (fun op ho => ht op (by simp [ho])) (fun s op ho => ha s op (by simp [ho])) h2 (fun r hr => hne r (by simp [hr]))
        simpa using this

/-- The hypotheses of C42–C45 are met: this program runs to its end, spills to the heap and drops everything. -/
example : ∃ hist sys, Reach .checked ⟨8, 8⟩ anything { vecs := [], mem := Mem.blank } hist sys ∧
    Sys.Initial ({ vecs := [], mem := Mem.blank } : Sys Nat) ∧ handedOut hist = [9, 7] ∧ sys.mem.requests = 1 ∧
    (∀ o ∈ sys.vecs, o = none) ∧ sys.mem.dropped = [5, 8] := by
  have facts : (Sys.runAll .checked ⟨8, 8⟩ { vecs := [], mem := Mem.blank } spill).map (fun p =>
      (p.1.all Except.isOk, handedOut (spill.zip p.1), p.2.mem.requests, p.2.vecs.all Option.isNone, p.2.mem.dropped)) =
      some (true, [9, 7], 1, true, [5, 8]) := by decide +kernel
  generalize hrun : Sys.runAll .checked ⟨8, 8⟩ { vecs := [], mem := Mem.blank } spill = o at facts
  cases o with
  | none => simp at facts
  | some p =>
    obtain ⟨rs, sys⟩ := p
    simp only [Option.map_some, Option.some.injEq, Prod.mk.injEq] at facts
    obtain ⟨h1, h2, h3, h4, h5⟩ := facts
    refine ⟨_, sys, reach_runAll .start ?_ (fun _ _ _ => trivial) hrun ?_, ⟨rfl, fun _ => rfl, rfl, rfl⟩, h2, h3, ?_, h5⟩
    · intro op ho
      simp only [spill, List.mem_cons, List.not_mem_nil, or_false] at ho
      rcases ho with rfl | rfl | rfl | rfl | rfl | rfl | rfl | rfl <;> simp [VecOp.typed, usizeMax, isizeMax]
    · intro r hr h
      have := List.all_eq_true.mp h1 r hr
      subst h
      simp [Except.isOk, Except.toBool] at this
    · intro o ho
      simpa using List.all_eq_true.mp h4 o ho

/-- C46 in full: the same for every element type. -/
def C46Statement : Prop :=
  ∀ (α : Type) (b : Build) (ty : Ty) (start sys sys' : Sys α) (hist : List (VecOp α × Except Fault (VecOut α)))
    (op : VecOp α) (res : Except Fault (VecOut α)), Sys.Initial start → Reach b ty anything start hist sys →
    VecOp.typed ty op → sys.run b ty op = some (res, sys') → res ≠ .error .ub

/-- C46 does not hold: creating a vector of zero-sized elements with a capacity beyond `N` asks the allocator for zero
bytes. -/
theorem C46_false : ¬ C46Statement := by
  intro h
  refine h Unit .checked ⟨0, 1⟩ { vecs := [], mem := Mem.blank } _ _ [] (.new 0 1) _ ⟨rfl, fun _ => rfl, rfl, rfl⟩ .start ?_ rfl rfl
  simp [VecOp.typed, usizeMax]

/-- C46, what is true: no program that stays within the inline buffers is undefined, whatever the element type. Missing:
zero-sized elements beyond `N`. -/
theorem C46_partial (hi : Sys.Initial start) (h : Reach b ty VecOp.inline start hist sys) {op : VecOp α}
    (ht : VecOp.typed ty op) (hin : VecOp.inline sys op) {res : Except Fault (VecOut α)} {sys' : Sys α}
    (hrun : sys.run b ty op = some (res, sys')) : res ≠ .error .ub ∧ ∃ ls, ListReach (hist ++ [(op, res)]) ls := by
  obtain ⟨ls, h1, h2, -⟩ := reach_rel (.inr fun _ _ h => h) hi h
  rcases step_rel h2 ht (.inr hin) hrun with ⟨-, -, -, hn⟩ | ⟨ls', hs, -⟩
  · exact absurd hin hn
  · rcases hs with hs | ⟨hm, hs, rfl, -⟩
    · refine ⟨?_, ls', .step h1 hs⟩
      rintro rfl
      cases op <;> simp only [Stacks.run] at hs <;> (try split at hs) <;> (try split at hs) <;> simp at hs
    · subst hs
      exact ⟨by simp, ls', .full h1 hm⟩

/-- C46, and this is all that is true: with zero-sized elements, the first operation that goes beyond the inline buffer
is undefined behaviour, unless it panics because the capacity it computes exceeds `isize::MAX`. -/
theorem C46_exact (hz : ty.size = 0) (hi : Sys.Initial start) (h : Reach b ty VecOp.inline start hist sys) {op : VecOp α}
    (hn : ¬ VecOp.inline sys op) (hfit : VecOp.fits ty sys op) {res : Except Fault (VecOut α)} {sys' : Sys α}
    (hrun : sys.run b ty op = some (res, sys')) : res = .error .ub := by
  obtain ⟨ls, -, h2, -⟩ := reach_rel (.inr fun _ _ h => h) hi h
  have stack : ∀ v l, VecRel ty sys.mem v l → v.cap = v.n := by
    intro v l hr
    rcases hr.place with ⟨h1, -⟩ | ⟨-, -, h1, -⟩ <;> omega
  have hexact : ∀ v l cap, VecRel ty sys.mem v l → v.n < cap → cap ≤ isizeMax →
      (reserveExact ty cap { vec := v, mem := sys.mem }).1 = .error .ub := by
    intro v l cap hr hlt hcap
    have hc := stack v l hr
    unfold reserveExact
    rw [if_pos hcap]
    simp only [Act.get_bind_run]
    rw [if_neg (by omega)]
    have hl : layoutArray ty cap ({ vec := v, mem := sys.mem } : World α) = (.ok (ty.size * cap), { vec := v, mem := sys.mem }) := by
      simp [layoutArray, hz]
    rw [Act.bind_ok hl, if_neg (by simp [SVec.isHeap, hc])]
    have ha : onMem (Mem.alloc (ty.size * cap)) ({ vec := v, mem := sys.mem } : World α) = (.error .ub, { vec := v, mem := sys.mem }) := by
      simp [onMem, Mem.alloc, hz]
    rw [Act.bind_error ha]
  have hreserve : ∀ v l cap, VecRel ty sys.mem v l → v.n < cap → max (2 * v.cap) cap ≤ isizeMax →
      (reserve b ty cap { vec := v, mem := sys.mem }).1 = .error .ub := by
    intro v l cap hr hlt hcap
    have hc := stack v l hr
    unfold reserve
    simp only [Act.get_bind_run]
    have h1 : isizeMax ≤ usizeMax := by decide
    have hm : mulUsize b v.cap 2 ({ vec := v, mem := sys.mem } : World α) = (.ok (v.cap * 2), { vec := v, mem := sys.mem }) := by
      simp only [mulUsize]; rw [if_pos (by omega)]; rfl
    rw [if_neg (by omega), Act.bind_ok hm]
    exact hexact v l _ hr (by omega) (by omega)
  cases op with
  | new n cap =>
    simp only [VecOp.inline] at hn
    simp only [VecOp.fits] at hfit
    simp only [Sys.run] at hrun
    have hw : SVec.withCapacity ty n cap sys.mem = (.error .ub, sys.mem) := by
      unfold SVec.withCapacity
      rw [if_pos hfit.1, if_pos (by omega)]
      have hl : layoutArray ty cap sys.mem = (.ok (ty.size * cap), sys.mem) := by simp [layoutArray, hz]
      have ha : Mem.alloc (ty.size * cap) sys.mem = (.error .ub, sys.mem) := by simp [Mem.alloc, hz]
      rw [Act.bind_ok hl, Act.bind_error ha]
    rw [hw] at hrun
    simp at hrun
    exact hrun.1.symm
  | push k item =>
    simp only [Sys.run] at hrun
    obtain ⟨v, hv, r, w', hx, rfl, rfl⟩ := call_some hrun
    obtain ⟨l, hl, hrel⟩ := h2.at hv
    have hc := stack v l hrel
    have hle := hrel.len_le
    have hlt : v.n ≤ v.len := by
      apply Nat.le_of_not_lt
      intro hlt
      apply hn
      intro v' hv'
      rw [hv] at hv'
      simp at hv'
      subst hv'
      exact hlt
    have hcap : max (2 * v.cap) (v.len + 1) ≤ isizeMax := by
      rcases hfit v hv with h | h
      · omega
      · exact h.1
    have h1 : isizeMax ≤ usizeMax := by decide
    have hr := hreserve v l (v.len + 1) hrel (by omega) hcap
    unfold push at hx
    simp only [Act.get_bind_run] at hx
    have ha : addUsize b v.len 1 ({ vec := v, mem := sys.mem } : World α) = (.ok (v.len + 1), { vec := v, mem := sys.mem }) := by
      simp only [addUsize]; rw [if_pos (by omega)]; rfl
    generalize hq : reserve b ty (v.len + 1) { vec := v, mem := sys.mem } = q at hr
    obtain ⟨q1, q2⟩ := q
    simp at hr
    subst hr
    have hu : Act.onUnwind (do let len ← addUsize b v.len 1; reserve b ty len) (World.drop item)
        ({ vec := v, mem := sys.mem } : World α) = (.error .ub, q2) := by
      unfold Act.onUnwind
      rw [Act.bind_ok ha, hq]
      rfl
    rw [Act.bind_error hu] at hx
    simp at hx
    rw [← hx.1]
    rfl
  | reserve k cap =>
    simp only [Sys.run] at hrun
    obtain ⟨v, hv, r, w', hx, rfl, rfl⟩ := call_some hrun
    obtain ⟨l, hl, hrel⟩ := h2.at hv
    have hc := stack v l hrel
    have hlt : v.n < cap := by
      apply Nat.lt_of_not_le
      intro hlt
      apply hn
      intro v' hv'
      rw [hv] at hv'
      simp at hv'
      subst hv'
      exact hlt
    have hcap : max (2 * v.cap) cap ≤ isizeMax := by
      rcases hfit v hv with h | h
      · omega
      · exact h.1
    have := hreserve v l cap hrel hlt hcap
    rw [hx] at this
    simp at this
    rw [this]
    rfl
  | reserveExact k cap =>
    simp only [Sys.run] at hrun
    obtain ⟨v, hv, r, w', hx, rfl, rfl⟩ := call_some hrun
    obtain ⟨l, hl, hrel⟩ := h2.at hv
    have hlt : v.n < cap := by
      apply Nat.lt_of_not_le
      intro hlt
      apply hn
      intro v' hv'
      rw [hv] at hv'
      simp at hv'
      subst hv'
      exact hlt
    have := hexact v l cap hrel hlt hfit.1
    rw [hx] at this
    simp at this
    rw [this]
    rfl
  | _ => exact absurd trivial hn

/-- The hypotheses of C44 and C46 are met: a unit in a vector with one inline slot, and a second one to come. -/
example : ∃ hist sys, Reach .checked ⟨0, 1⟩ VecOp.inline { vecs := [], mem := Mem.blank } hist sys ∧
    hist.map Prod.fst = [VecOp.new 1 1, VecOp.push 0 ()] ∧
    ¬ VecOp.inline sys (.push 0 ()) ∧ VecOp.fits ⟨0, 1⟩ sys (.push 0 ()) := by
  have hn : SVec.withCapacity ⟨0, 1⟩ 1 1 (Mem.blank : Mem Unit) =
      (.ok { n := 1, cap := 1, len := 0, data := .stack fun _ => none }, Mem.blank) := by
    simp [SVec.withCapacity, isizeMax]
  have hp : push .checked ⟨0, 1⟩ () ({ vec := { n := 1, cap := 1, len := 0, data := .stack fun _ => none }, mem := Mem.blank } : World Unit) =
      (.ok (), { vec := { n := 1, cap := 1, len := 1, data := .stack fun j => if j = 0 then some () else none }, mem := Mem.blank }) := by
    have hr : reserve .checked ⟨0, 1⟩ 1 ({ vec := { n := 1, cap := 1, len := 0, data := .stack fun _ => none }, mem := Mem.blank } : World Unit) =
      (.ok (), { vec := { n := 1, cap := 1, len := 0, data := .stack fun _ => none }, mem := Mem.blank }) := by
      simp [reserve]
    have ha : ∀ w : World Unit, addUsize .checked 0 1 w = (.ok 1, w) := by intro w; simp [addUsize, usizeMax]
    have hu : Act.onUnwind (do let len ← addUsize .checked 0 1; reserve .checked ⟨0, 1⟩ len) (World.drop ())
        ({ vec := { n := 1, cap := 1, len := 0, data := .stack fun _ => none }, mem := Mem.blank } : World Unit) =
        (.ok (), { vec := { n := 1, cap := 1, len := 0, data := .stack fun _ => none }, mem := Mem.blank }) := by
      unfold Act.onUnwind
      rw [Act.bind_ok (ha _), hr]
    have hs : asPtr ({ vec := { n := 1, cap := 1, len := 0, data := .stack fun _ => none }, mem := Mem.blank } : World Unit) =
        (.ok .stack, { vec := { n := 1, cap := 1, len := 0, data := .stack fun _ => none }, mem := Mem.blank }) := rfl
    have hw : Ptr.write ⟨0, 1⟩ .stack 0 ()
        ({ vec := { n := 1, cap := 1, len := 0, data := .stack fun _ => none }, mem := Mem.blank } : World Unit) =
        (.ok (), { vec := { n := 1, cap := 1, len := 0, data := .stack fun j => if j = 0 then some () else none }, mem := Mem.blank }) := rfl
    unfold push
    simp only [Act.get_bind_run]
    rw [Act.bind_ok hu, Act.bind_ok hs, Act.bind_ok hw, Act.bind_ok (ha _)]
    rfl
  refine ⟨[(.new 1 1, .ok .unit), (.push 0 (), .ok .unit)],
    { vecs := [some { n := 1, cap := 1, len := 1, data := .stack fun j => if j = 0 then some () else none }], mem := Mem.blank },
    .step (hist := [(.new 1 1, .ok .unit)])
      (sys := { vecs := [some { n := 1, cap := 1, len := 0, data := .stack fun _ => none }], mem := Mem.blank })
      (.step (hist := []) .start ?_ ?_ ?_ ?_) ?_ ?_ ?_ ?_, rfl, ?_, ?_⟩
  · simp [VecOp.typed, usizeMax]
  · simp [VecOp.inline]
  · simp [Sys.run, hn]
  · simp
  · trivial
  · intro v hv; simp at hv; subst hv; decide
  · simp [Sys.run, Sys.call, hp, Except.map]
  · simp
  · intro h; exact absurd (h _ rfl) (by decide)
  · intro v hv; simp at hv; subst hv; refine .inr ⟨by simp [isizeMax], by simp⟩

end Parcom
