import Verif.Lemmas.VecPanic
import Verif.Props.ShortVec
/-!
# C101: ShortVec of elements whose destructors panic
-/
namespace Parcom
open Spec

variable {α : Type} {panics : α → Bool} {b : Build} {ty : Ty} {start sys : Sys α} {hist : List (VecOp α × Except Fault (VecOut α))}
  {leaked : List Nat}

/-- If no destructor panics, this is the model of C42–C46. -/
theorem runPanicking_quiet (b : Build) (ty : Ty) (sys : Sys α) (op : VecOp α) :
    sys.runPanicking (fun _ => false) b ty op = sys.run b ty op := by
  have glue : ∀ (p : Ptr) (k i : Nat), dropGlue (fun _ : α => false) ty p false i k = dropRange ty p i k := by
    intro p k
    induction k with
    | zero => intro i; rfl
    | succ k ih => intro i; rw [dropGlue, dropRange]; simp only [Bool.false_eq_true, if_false, ih]
  have quiet : ∀ (item : α) (x : Option (Except Fault (VecOut α) × Sys α)), x.map (Sys.runPanicking.unwound (fun _ => false) item) = x := by
    rintro item (_ | ⟨_ | _, _⟩) <;> simp [Sys.runPanicking.unwound]
  cases op with
  | push k item => exact quiet item _
  | replace k i item => exact quiet item _
  | drop k => simp only [Sys.runPanicking, Sys.run, dropVecPanicking, dropVec, glue]; rfl
  | _ => rfl

/-- Every reachable state stands in the relation. -/
theorem panic_rel (hz : 0 < ty.size) (hi : Sys.Initial start) (h : PanicReach panics b ty start hist leaked sys) :
    ∃ ls, PanicLists panics hist ls ∧ SysRel ty leaked sys ls ∧ (given hist).Perm (handedOut hist ++ (sys.mem.dropped ++ held ls)) := by
  induction h with
  | start => exact ⟨[], .start, .initial hi, by simp [given, handedOut, held, hi.2.2.2]⟩
  | @step hist leaked sys sys' op res _ ht hrun hne ih =>
    obtain ⟨ls, h1, h2, h3⟩ := ih
    have join : ∀ {ls' : Stacks α}, (given [(op, res)] ++ (sys.mem.dropped ++ held ls)).Perm
        (handedOut [(op, res)] ++ (sys'.mem.dropped ++ held ls')) →
        (given (hist ++ [(op, res)])).Perm (handedOut (hist ++ [(op, res)]) ++ (sys'.mem.dropped ++ held ls')) := by
      intro ls' hp
      rw [given_append, handedOut_append, List.append_assoc]
      refine List.Perm.trans (h3.append_right _) ?_
      rw [List.append_assoc]
      exact (List.perm_append_comm.trans hp).append_left _
    cases panic_step h2 ht hz hrun with
    | ok hs _ hd =>
      have hleft : leftByDrop sys op res = [] := by
        cases op with
        | drop k =>
          rcases hs with ⟨hab, -⟩ | ⟨ls', hs | ⟨hs, -⟩, -⟩
          · exact absurd hab hne
          · simp only [Stacks.run] at hs
            split at hs
            · rename_i l hl
              rw [(hd k l rfl hl).2]
              rfl
            · simp at hs
          · simp [VecOp.mayAllocate] at hs
        | _ => rfl
      rw [hleft, List.nil_append]
      rcases hs with ⟨hab, -⟩ | ⟨ls', hs, hr, hp, -⟩
      · exact absurd hab hne
      · refine ⟨ls', ?_, hr, join hp⟩
        rcases hs with hs | ⟨hm, rfl, rfl, -⟩
        · exact .step h1 hs fun k l ho hl => (hd k l ho hl).1
        · exact .full h1 hm
    | item => exact absurd rfl hne
    | one k l ho hl hp hr hdr =>
      subst ho
      refine ⟨ls.set k none, .drop h1 hl hp, hr, join ?_⟩
      obtain ⟨rest, hp1, hp2⟩ := held_set hl
      show (sys.mem.dropped ++ held ls).Perm (sys'.mem.dropped ++ _)
      rw [hdr]
      refine List.Perm.trans (hp1.append_left _) (List.Perm.trans ?_ ((hp2 none).symm.append_left _))
      simp
    | many => exact absurd rfl hne

/-- C101: whatever the destructors do, the vectors behave like lists, a list being gone also when its drop panicked. At any time
the elements that went in are those handed out, those dropped and those still held, each exactly as often. -/
theorem C101_conservation (hz : 0 < ty.size) (hi : Sys.Initial start) (h : PanicReach panics b ty start hist leaked sys) :
    ∃ ls, PanicLists panics hist ls ∧ (given hist).Perm (handedOut hist ++ (sys.mem.dropped ++ held ls)) := by
  obtain ⟨ls, h1, -, h3⟩ := panic_rel hz hi h
  exact ⟨ls, h1, h3⟩

/-- C101: no operation is undefined behaviour. -/
theorem C101_no_undefined_behaviour (hz : 0 < ty.size) (hi : Sys.Initial start) (h : PanicReach panics b ty start hist leaked sys)
    {op : VecOp α} (ht : VecOp.typed ty op) {res : Except Fault (VecOut α)} {sys' : Sys α}
    (hrun : sys.runPanicking panics b ty op = some (res, sys')) : res ≠ .error .ub := by
  obtain ⟨ls, -, h2, -⟩ := panic_rel hz hi h
  cases panic_step h2 ht hz hrun with
  | ok hs hne => exact hne
  | _ => simp

/-- C101: the process is aborted only if the allocator refuses memory, if the element given to an operation that panics panics too
when dropped, or if a vector with two elements that do is dropped. -/
theorem C101_aborts (hz : 0 < ty.size) (hi : Sys.Initial start) (h : PanicReach panics b ty start hist leaked sys)
    {op : VecOp α} (ht : VecOp.typed ty op) {sys' : Sys α} (hrun : sys.runPanicking panics b ty op = some (.error .abort, sys')) :
    (VecOp.mayAllocate op = true ∧ sys.mem.grants sys.mem.requests = false) ∨
    (∃ item, panics item = true ∧ ((∃ k, op = .push k item) ∨ ∃ k i, op = .replace k i item)) ∨
    ∃ ls k l, PanicLists panics hist ls ∧ op = .drop k ∧ ls[k]? = some (some l) ∧ 2 ≤ (l.filter panics).length := by
  obtain ⟨ls, h1, h2, -⟩ := panic_rel hz hi h
  cases panic_step h2 ht hz hrun with
  | ok hs _ hd =>
    rcases hs with ⟨-, hm, hg, -⟩ | ⟨ls', hs, -⟩
    · exact .inl ⟨hm, hg⟩
    · rcases hs with hs | ⟨-, hs, -⟩
      · cases op <;> simp only [Stacks.run] at hs <;> (try split at hs) <;> (try split at hs) <;> simp at hs
      · simp at hs
  | item item hp ho => exact .inr (.inl ⟨item, hp, ho⟩)
  | many k l ho hl hp => exact .inr (.inr ⟨ls, k, l, h1, ho, hl, hp⟩)

/-- C101: if the element given to an operation panics when dropped and the operation panics, the process is aborted. -/
theorem C101_abort (hz : 0 < ty.size) (hi : Sys.Initial start) (h : PanicReach panics b ty start hist leaked sys)
    {op : VecOp α} (ht : VecOp.typed ty op) {item : α} (hp : panics item = true)
    (hop : (∃ k, op = .push k item) ∨ ∃ k i, op = .replace k i item) {e : Fault} {sys' : Sys α}
    (hrun : sys.runPanicking panics b ty op = some (.error e, sys')) : e = .abort := by
  have hne := C101_no_undefined_behaviour hz hi h ht hrun
  have key : ∀ x : Option (Except Fault (VecOut α) × Sys α), x.map (Sys.runPanicking.unwound panics item) = some (.error e, sys') →
      e = .abort := by
    intro x hx
    match x with
    | none => simp at hx
    | some (.ok o, s) => simp [Sys.runPanicking.unwound] at hx
    | some (.error e₀, s) =>
      simp only [Option.map_some, Sys.runPanicking.unwound, Option.some.injEq] at hx
      split at hx
      · simp at hx
        exact hx.1.symm
      · rename_i hc
        simp only [Prod.mk.injEq, Except.error.injEq] at hx
        obtain ⟨rfl, rfl⟩ := hx
        exact absurd ⟨hp, fun he => hne (by rw [he])⟩ hc
  rcases hop with ⟨k, rfl⟩ | ⟨k, i, rfl⟩
  · exact key _ hrun
  · exact key _ hrun

/-- C101: what dropping a vector does, by the number of its elements whose destructors panic. With none, it frees the block of
the vector. With one, all elements are dropped, in order, and no memory is freed. With more, the process is aborted. -/
theorem C101_drop (hz : 0 < ty.size) (hi : Sys.Initial start) (h : PanicReach panics b ty start hist leaked sys) {k : Nat}
    {res : Except Fault (VecOut α)} {sys' : Sys α} (hrun : sys.runPanicking panics b ty (.drop k) = some (res, sys')) :
    ∃ ls l, PanicLists panics hist ls ∧ ls[k]? = some (some l) ∧
    ((l.filter panics).length = 0 → res = .ok .unit ∧ sys'.mem.dropped = sys.mem.dropped ++ l ∧
      ∀ v q, sys.vecs[k]? = some (some v) → v.data = .heap q → sys'.mem.blocks q = none) ∧
    ((l.filter panics).length = 1 → res = .error .assertion ∧ sys'.mem.dropped = sys.mem.dropped ++ l ∧
      sys'.mem.blocks = sys.mem.blocks) ∧
    (2 ≤ (l.filter panics).length → res = .error .abort) := by
  obtain ⟨ls, h1, h2, -⟩ := panic_rel hz hi h
  simp only [Sys.runPanicking] at hrun
  cases hc : sys.call k (dropVecPanicking panics ty) fun _ => VecOut.unit with
  | none => rw [hc] at hrun; simp at hrun
  | some p =>
    obtain ⟨r', sys₁⟩ := p
    rw [hc] at hrun
    simp at hrun
    obtain ⟨rfl, rfl⟩ := hrun
    obtain ⟨v, hv, r, w', hx, rfl, rfl⟩ := call_some hc
    obtain ⟨l, hl, hrel⟩ := h2.at hv
    obtain ⟨e0, e1, e2⟩ := dropVecPanicking_rel (panics := panics) (w := { vec := v, mem := sys.mem }) hrel
    refine ⟨ls, l, h1, hl, fun hp => ?_, fun hp => ?_, fun hp => ?_⟩
    · obtain ⟨w, e, d1, -, -, -, d2⟩ := e0 hp
      rw [e] at hx
      simp at hx
      obtain ⟨rfl, rfl⟩ := hx
      refine ⟨rfl, d1, fun v' q hv' hd => d2 q ?_⟩
      rw [hv] at hv'
      simp at hv'
      subst hv'
      simp [SVec.block, hd]
    · rw [e1 hp] at hx
      simp at hx
      obtain ⟨rfl, rfl⟩ := hx
      exact ⟨rfl, rfl, rfl⟩
    · obtain ⟨w, e⟩ := e2 hp
      rw [e] at hx
      simp at hx
      obtain ⟨rfl, rfl⟩ := hx
      rfl

/-- C101 in full: once all vectors are dropped, no memory is left. -/
def C101Statement : Prop :=
  ∀ (α : Type) (panics : α → Bool) (b : Build) (ty : Ty) (start sys : Sys α) (hist : List (VecOp α × Except Fault (VecOut α)))
    (leaked : List Nat), 0 < ty.size → Sys.Initial start → PanicReach panics b ty start hist leaked sys →
    (∀ o ∈ sys.vecs, o = none) → ∀ q, sys.mem.blocks q = none

/-- C101, exactly: the memory in use is that of the vectors alive and of those on the heap whose drop panicked. -/
theorem C101_exact (hz : 0 < ty.size) (hi : Sys.Initial start) (h : PanicReach panics b ty start hist leaked sys) (q : Nat) :
    sys.mem.blocks q ≠ none ↔ (∃ (k : Nat) (v : SVec α), sys.vecs[k]? = some (some v) ∧ v.data = .heap q) ∨ q ∈ leaked := by
  obtain ⟨ls, -, h2, -⟩ := panic_rel hz hi h
  have hb : ∀ v : SVec α, v.block = some q ↔ v.data = .heap q := by
    intro v
    unfold SVec.block
    cases v.data <;> simp
  constructor
  · intro hq
    rcases h2.owned q hq with ⟨k, v, hk, hv⟩ | hq
    · exact .inl ⟨k, v, hk, (hb v).mp hv⟩
    · exact .inr hq
  · rintro (⟨k, v, hk, hv⟩ | hq)
    · obtain ⟨l, -, hr⟩ := h2.at hk
      rcases hr.place with ⟨-, cells, hd, -⟩ | ⟨-, -, -, -, p, blk, hd, hm, -⟩
      · rw [hv] at hd; simp at hd
      · rw [hv] at hd
        simp at hd
        subst hd
        simp [hm]
    · exact (h2.leaks q hq).1

/-- C101, what is true: no drop has panicked. Missing: histories in which one has, of a vector on the heap. -/
theorem C101_partial (hz : 0 < ty.size) (hi : Sys.Initial start) (h : PanicReach panics b ty start hist leaked sys)
    (hd : ∀ k e, (.drop k, .error e) ∉ hist) (hdone : ∀ o ∈ sys.vecs, o = none) : ∀ q, sys.mem.blocks q = none := by
  have hl : leaked = [] := by
    clear hdone
    induction h with
    | start => rfl
    | @step hist leaked sys sys' op res _ ht hrun hne ih =>
      rw [ih fun k e hm => hd k e (List.mem_append_left _ hm), List.append_nil]
      cases op with
      | drop k => cases res with
        | ok o => rfl
        | error e => exact absurd (List.mem_append_right _ (List.mem_singleton.mpr rfl)) (hd k e)
      | _ => rfl
  intro q
  apply Classical.byContradiction
  intro hq
  rcases (C101_exact hz hi h q).mp hq with ⟨k, v, hk, -⟩ | hq
  · have := hdone _ (List.mem_of_getElem? hk); simp at this
  · subst hl; exact nomatch hq

/-- Run a program to its end. -/
def Sys.runAllPanicking (panics : α → Bool) (b : Build) (ty : Ty) : Sys α → List (VecOp α) → Option (List (Except Fault (VecOut α)) × Sys α)
  | sys, [] => some ([], sys)
  | sys, op :: ops => match sys.runPanicking panics b ty op with
    | none => none
    | some (r, sys) => match Sys.runAllPanicking panics b ty sys ops with
      | none => none
      | some (rs, sys) => some (r :: rs, sys)

theorem panicReach_runAll {ops : List (VecOp α)} {rs : List (Except Fault (VecOut α))} {sys sys' : Sys α}
    (h : PanicReach panics b ty start hist leaked sys) (ht : ∀ op ∈ ops, VecOp.typed ty op)
    (hrun : sys.runAllPanicking panics b ty ops = some (rs, sys')) (hne : ∀ r ∈ rs, r ≠ .error .abort) :
    ∃ leaked, PanicReach panics b ty start (hist ++ ops.zip rs) leaked sys' := by
  induction ops generalizing sys hist rs leaked with
  | nil => simp [Sys.runAllPanicking] at hrun; obtain ⟨rfl, rfl⟩ := hrun; exact ⟨leaked, by simpa using h⟩
  | cons op ops ih =>
    simp only [Sys.runAllPanicking] at hrun
    split at hrun
    · simp at hrun
    · rename_i r sys₁ h1
      split at hrun
      · simp at hrun
      · rename_i rs' sys₂ h2
        simp at hrun
        obtain ⟨rfl, rfl⟩ := hrun
        obtain ⟨leaked', h⟩ := ih (.step h (ht op (by simp)) h1 (hne r (by simp)))
          (fun op ho => ht op (by simp [ho])) h2 (fun r hr => hne r (by simp [hr]))
        exact ⟨leaked', by simpa using h⟩

/-- A program: a vector without inline slots gets two elements, of which 7 panics when dropped, and is dropped. -/
def leaky : List (VecOp Nat) := [.new 0 0, .push 0 7, .push 0 8, .drop 0]

theorem leaky_runs : ∃ rs sys leaked, PanicReach (· == 7) .checked ⟨8, 8⟩ { vecs := [], mem := Mem.blank } (leaky.zip rs) leaked sys ∧
    Sys.Initial ({ vecs := [], mem := Mem.blank } : Sys Nat) ∧ (∀ o ∈ sys.vecs, o = none) ∧ sys.mem.dropped = [7, 8] ∧
    sys.mem.blocks 1 ≠ none := by
  have facts : (Sys.runAllPanicking (· == 7) .checked ⟨8, 8⟩ { vecs := [], mem := Mem.blank } leaky).map (fun p =>
      (p.1.all fun | .error .abort => false | _ => true, p.2.vecs.all Option.isNone, p.2.mem.dropped, (p.2.mem.blocks 1).isSome)) =
      some (true, true, [7, 8], true) := by decide +kernel
  generalize hrun : Sys.runAllPanicking (· == 7) .checked ⟨8, 8⟩ { vecs := [], mem := Mem.blank } leaky = o at facts
  cases o with
  | none => simp at facts
  | some p =>
    obtain ⟨rs, sys⟩ := p
    simp only [Option.map_some, Option.some.injEq, Prod.mk.injEq] at facts
    obtain ⟨h1, h2, h3, h4⟩ := facts
    obtain ⟨leaked, h⟩ := panicReach_runAll .start (by
      intro op ho
      simp only [leaky, List.mem_cons, List.not_mem_nil, or_false] at ho
      rcases ho with rfl | rfl | rfl | rfl <;> simp [VecOp.typed, usizeMax, isizeMax]) hrun (by
      intro r hr h
      have := List.all_eq_true.mp h1 r hr
      subst h
      simp at this)
    refine ⟨rs, sys, leaked, h, ⟨rfl, fun _ => rfl, rfl, rfl⟩, fun o ho => by simpa using List.all_eq_true.mp h2 o ho, h3, ?_⟩
    intro h
    rw [h] at h4
    simp at h4

/-- Assigning 7 to a slot that is not there. -/
example : (Sys.runAllPanicking (· == 7) .checked ⟨8, 8⟩ { vecs := [], mem := Mem.blank } [.new 2 0, .push 0 1, .replace 0 5 7]).map (fun p =>
    p.1.map fun | .error e => some e | _ => none) = some [none, none, some .abort] := by decide +kernel

/-- C101 is false. -/
theorem C101_false : ¬ C101Statement := by
  intro h
  obtain ⟨rs, sys, leaked, hr, hi, hn, -, hb⟩ := leaky_runs
  exact hb (h Nat _ _ _ _ sys _ leaked (by decide) hi hr hn 1)

end Parcom
