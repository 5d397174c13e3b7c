import Verif.Spec.Leaking
import Verif.Lemmas.VecSystem
/-!
# Vectors whose elements panic when dropped: each operation keeps the invariant
-/
namespace Parcom
open Spec

variable {α : Type} {ty : Ty} {b : Build} {panics : α → Bool}

/-- How many panics there are: one if unwinding already, and one for each element whose destructor panics. -/
def panicCount (panics : α → Bool) (unwinding : Bool) (l : List α) : Nat := (if unwinding then 1 else 0) + (l.filter panics).length

theorem dropGlue_rel {w : World α} {l : List α} (h : VecRel ty w.mem w.vec l) {p : Ptr} (hp : asPtr w = (.ok p, w))
    (unwinding : Bool) (k i : Nat) (hk : i + k = l.length) (log : List α) :
    (panicCount panics unwinding (l.drop i) = 0 → dropGlue panics ty p unwinding i k { w with mem := { w.mem with dropped := log } } =
      (.ok (), { w with mem := { w.mem with dropped := log ++ l.drop i } })) ∧
    (panicCount panics unwinding (l.drop i) = 1 → dropGlue panics ty p unwinding i k { w with mem := { w.mem with dropped := log } } =
      (.error .assertion, { w with mem := { w.mem with dropped := log ++ l.drop i } })) ∧
    (2 ≤ panicCount panics unwinding (l.drop i) →
      ∃ w', dropGlue panics ty p unwinding i k { w with mem := { w.mem with dropped := log } } = (.error .abort, w')) := by
  induction k generalizing i log unwinding with
  | zero =>
    rw [dropGlue, List.drop_eq_nil_of_le (by omega), List.append_nil]
    cases unwinding <;> simp [panicCount]
  | succ k ih =>
    have hi : l[i]? = some l[i] := List.getElem?_eq_getElem (by omega)
    have h' : VecRel ty ({ w.mem with dropped := log } : Mem α) w.vec l := h.frame fun _ _ => rfl
    have hp' : Parcom.asPtr ({ w with mem := { w.mem with dropped := log } } : World α) = (.ok p, { w with mem := { w.mem with dropped := log } }) := by
      have hp := hp
      unfold Parcom.asPtr at hp ⊢
      revert hp
      dsimp only
      split <;> split <;> simp
    rw [dropGlue, Act.bind_ok (read_ok' (w := { w with mem := { w.mem with dropped := log } }) h' hp' hi)]
    simp only [Act.modify_bind_run]
    have hd : l.drop i = l[i] :: l.drop (i + 1) := List.drop_eq_getElem_cons (by omega)
    rw [hd]
    have hw : World.drop l[i] { w with mem := { w.mem with dropped := log } } =
      ({ w with mem := { w.mem with dropped := log ++ [l[i]] } } : World α) := rfl
    have ha : log ++ l[i] :: l.drop (i + 1) = (log ++ [l[i]]) ++ l.drop (i + 1) := by simp
    rw [hw, ha]
    by_cases hpan : panics l[i] = true
    · rw [if_pos hpan]
      cases unwinding with
      | true =>
        have hc : 2 ≤ panicCount panics true (l[i] :: l.drop (i + 1)) := by
          simp only [panicCount, List.filter_cons, if_pos hpan, List.length_cons, if_true]; omega
        refine ⟨fun h => absurd h (by omega), fun h => absurd h (by omega), fun _ => ⟨_, rfl⟩⟩
      | false =>
        have hc : panicCount panics false (l[i] :: l.drop (i + 1)) = panicCount panics true (l.drop (i + 1)) := by
          simp only [panicCount, List.filter_cons, if_pos hpan, List.length_cons, if_true, Bool.false_eq_true, if_false]; omega
        rw [hc]
        exact ih true (i + 1) (by omega) (log ++ [l[i]])
    · rw [if_neg hpan]
      have hc : panicCount panics unwinding (l[i] :: l.drop (i + 1)) = panicCount panics unwinding (l.drop (i + 1)) := by
        simp only [panicCount, List.filter_cons, if_neg hpan]
      rw [hc]
      exact ih unwinding (i + 1) (by omega) (log ++ [l[i]])

/-- `drop`. -/
theorem dropVecPanicking_rel {w : World α} {l : List α} (h : VecRel ty w.mem w.vec l) :
    ((l.filter panics).length = 0 → ∃ w', dropVecPanicking panics ty w = (.ok (), w') ∧ w'.mem.dropped = w.mem.dropped ++ l ∧
      w'.mem.next = w.mem.next ∧ w'.mem.requests = w.mem.requests ∧
      (∀ q, w.vec.block ≠ some q → w'.mem.blocks q = w.mem.blocks q) ∧ (∀ q, w.vec.block = some q → w'.mem.blocks q = none)) ∧
    ((l.filter panics).length = 1 → dropVecPanicking panics ty w =
      (.error .assertion, { w with mem := { w.mem with dropped := w.mem.dropped ++ l } })) ∧
    (2 ≤ (l.filter panics).length → ∃ w', dropVecPanicking panics ty w = (.error .abort, w')) := by
  unfold dropVecPanicking
  simp only [Act.get_bind_run]
  obtain ⟨p, hp⟩ := h.asPtr
  rw [Act.bind_ok hp]
  obtain ⟨h0, h1, h2⟩ := dropGlue_rel (panics := panics) h hp false w.vec.len 0 (by rw [h.len]; omega) w.mem.dropped
  simp only [List.drop_zero, panicCount, Bool.false_eq_true, if_false, Nat.zero_add] at h0 h1 h2
  refine ⟨fun hc => ?_, fun hc => Act.bind_error (h1 hc), fun hc => ?_⟩
  · rw [Act.bind_ok (h0 hc)]
    rcases asPtr_ok h with ⟨hh, -, -, cells, hd, -⟩ | ⟨hh, -, -, -, h4, q, blk, hp', hd, hb, hbytes, -⟩
    · rw [if_neg (by simp [hh])]
      exact ⟨_, rfl, rfl, rfl, rfl, fun _ _ => rfl, fun q hq => by simp [SVec.block, hd] at hq⟩
    · rw [if_pos hh]
      rw [hp] at hp'
      simp at hp'
      subst hp'
      have hl : ∀ w' : World α, layoutArray ty w.vec.cap w' = (.ok (ty.size * w.vec.cap), w') := by intro w'; simp [layoutArray, h4]
      rw [Act.bind_ok (hl _)]
      refine ⟨{ w with mem := { w.mem with dropped := w.mem.dropped ++ l }.set q none }, ?_, rfl, rfl, rfl, ?_, ?_⟩
      · simp [onMem, Mem.dealloc, hb, hbytes]
      · intro r hr
        rw [SVec.block, hd] at hr
        exact if_neg fun (h : r = q) => hr (congrArg some h.symm)
      · intro r hr
        rw [SVec.block, hd] at hr
        exact if_pos (Option.some.inj hr).symm
  · obtain ⟨w', h2⟩ := h2 hc
    exact ⟨w', Act.bind_error h2⟩

/-- What one operation may do. -/
inductive PanicSteps (panics : α → Bool) (ty : Ty) (leaked : List Nat) (sys sys' : Sys α) (ls : Stacks α) (op : VecOp α) :
    Except Fault (VecOut α) → Prop where
  | ok {res : Except Fault (VecOut α)} (h : Steps ty leaked sys sys' ls op res) (hne : res ≠ .error .ub)
      (hd : ∀ (k : Nat) l, op = .drop k → ls[k]? = some (some l) → (∀ a ∈ l, panics a = false) ∧ res = .ok .unit) :
      PanicSteps panics ty leaked sys sys' ls op res
  | item (item : α) (hp : panics item = true) (ho : (∃ k, op = .push k item) ∨ ∃ k i, op = .replace k i item) :
      PanicSteps panics ty leaked sys sys' ls op (.error .abort)
  | one (k : Nat) (l : List α) (ho : op = .drop k) (hl : ls[k]? = some (some l)) (hp : (l.filter panics).length = 1)
      (hr : SysRel ty (leftByDrop sys op (.error .assertion) ++ leaked) sys' (ls.set k none))
      (hdr : sys'.mem.dropped = sys.mem.dropped ++ l) (hb : sys'.mem.blocks = sys.mem.blocks) :
      PanicSteps panics ty leaked sys sys' ls op (.error .assertion)
  | many (k : Nat) (l : List α) (ho : op = .drop k) (hl : ls[k]? = some (some l)) (hp : 2 ≤ (l.filter panics).length) :
      PanicSteps panics ty leaked sys sys' ls op (.error .abort)

theorem steps_not_ub {leaked : List Nat} {sys sys' : Sys α} {ls : Stacks α} {op : VecOp α} {res : Except Fault (VecOut α)}
    (h : Steps ty leaked sys sys' ls op res) : res ≠ .error .ub := by
  rintro rfl
  rcases h with ⟨hab, -⟩ | ⟨ls', hs, -⟩
  · simp at hab
  · rcases hs with hs | ⟨-, hs, -⟩
    · cases op <;> simp only [Stacks.run] at hs <;> (try split at hs) <;> (try split at hs) <;> simp at hs
    · simp at hs

theorem panic_step {leaked : List Nat} {sys sys' : Sys α} {ls : Stacks α} {op : VecOp α} {res : Except Fault (VecOut α)}
    (h : SysRel ty leaked sys ls) (ht : VecOp.typed ty op) (hz : 0 < ty.size)
    (hrun : sys.runPanicking panics b ty op = some (res, sys')) : PanicSteps panics ty leaked sys sys' ls op res := by
  have plain : ∀ {op res sys'}, VecOp.typed ty op → sys.run b ty op = some (res, sys') → (∀ k, op ≠ .drop k) →
      PanicSteps panics ty leaked sys sys' ls op res := by
    intro op res sys' ht hrun hn
    have hs := step_rel (b := b) h ht (.inl hz) hrun
    exact .ok hs (steps_not_ub hs) fun k l he => absurd he (hn k)
  have unw : ∀ {op res sys'} (item : α), VecOp.typed ty op → ((∃ k, op = .push k item) ∨ ∃ k i, op = .replace k i item) →
      (sys.run b ty op).map (Sys.runPanicking.unwound panics item) = some (res, sys') → PanicSteps panics ty leaked sys sys' ls op res := by
    intro op res sys' item ht ho hrun
    have hn : ∀ k, op ≠ .drop k := by rintro k rfl; rcases ho with ⟨k, ho⟩ | ⟨k, i, ho⟩ <;> cases ho
    cases hx : sys.run b ty op with
    | none => rw [hx] at hrun; simp at hrun
    | some p =>
      obtain ⟨r, s⟩ := p
      rw [hx] at hrun
      simp only [Option.map_some, Option.some.injEq] at hrun
      cases r with
      | ok o =>
        simp only [Sys.runPanicking.unwound, Prod.mk.injEq] at hrun
        obtain ⟨rfl, rfl⟩ := hrun
        exact plain ht hx hn
      | error e =>
        simp only [Sys.runPanicking.unwound] at hrun
        split at hrun
        · rename_i hc
          simp only [Prod.mk.injEq] at hrun
          obtain ⟨rfl, rfl⟩ := hrun
          exact .item item hc.1 ho
        · simp only [Prod.mk.injEq] at hrun
          obtain ⟨rfl, rfl⟩ := hrun
          exact plain ht hx hn
  cases op with
  | push k item => exact unw item ht (.inl ⟨k, rfl⟩) hrun
  | replace k i item => exact unw item ht (.inr ⟨k, i, rfl⟩) hrun
  | drop k =>
    simp only [Sys.runPanicking] at hrun
    cases hc : sys.call k (dropVecPanicking panics ty) fun _ => VecOut.unit with
    | none => rw [hc] at hrun; simp at hrun
    | some p =>
      obtain ⟨r', sys₁⟩ := p
      rw [hc] at hrun
      simp at hrun
      obtain ⟨rfl, rfl⟩ := hrun
      obtain ⟨v, hv, r, w', hx, rfl, rfl⟩ := call_some hc
      obtain ⟨l, hl, hrel⟩ := h.at hv
      obtain ⟨h0, h1, h2⟩ := dropVecPanicking_rel (panics := panics) (w := { vec := v, mem := sys.mem }) hrel
      rcases Nat.lt_or_ge (l.filter panics).length 2 with hlt | hge
      · by_cases hone : (l.filter panics).length = 1
        · rw [h1 hone] at hx
          simp at hx
          obtain ⟨rfl, rfl⟩ := hx
          have hb : leftByDrop sys (.drop k) (.error .assertion) = v.block.toList := by
            simp only [leftByDrop, hv]
            obtain ⟨n, cap, len, data⟩ := v
            cases data <;> rfl
          refine .one k l rfl hl hone ?_ rfl rfl
          rw [hb]
          exact h.leak hv hl rfl rfl
        · have hzero : (l.filter panics).length = 0 := by omega
          obtain ⟨w, e, e1, e2, e5, e3, e4⟩ := h0 hzero
          rw [e] at hx
          simp at hx
          obtain ⟨rfl, rfl⟩ := hx
          obtain ⟨rest, hp1, hp2⟩ := held_set hl
          refine .ok (.inr ⟨_, .inl (by simp only [Stacks.run, hl]; rfl), h.dropped hv hl e2 e3 e4, ?_, ?_⟩) (by simp [Except.map]) ?_
          · show (sys.mem.dropped ++ held ls).Perm (w.mem.dropped ++ _)
            rw [e1]
            refine List.Perm.trans (hp1.append_left _) (List.Perm.trans ?_ ((hp2 none).symm.append_left _))
            simp
          · exact fun _ => e5
          · rintro k' l' he hl'
            cases he
            rw [hl] at hl'
            simp at hl'
            subst hl'
            refine ⟨fun a ha => ?_, rfl⟩
            have := List.length_eq_zero_iff.mp hzero
            rw [List.filter_eq_nil_iff] at this
            simpa using this a ha
      · obtain ⟨w, e⟩ := h2 hge
        rw [e] at hx
        simp at hx
        obtain ⟨rfl, rfl⟩ := hx
        exact .many k l rfl hl hge
  | _ => exact plain ht hrun (by intro k; simp)

end Parcom
