import Verif.Spec.Growing
import Verif.Props.ShortVec
/-!
# C102: what growing a ShortVec costs
-/
namespace Parcom
open Spec

variable {α : Type} {b : Build} {ty : Ty} {start sys : Sys α} {hist : List (VecOp α × Except Fault (VecOut α))}
  {cost : List (Nat × Nat)}

/-! ## What changes capacities -/

/-- The capacity, the inline capacity and the number of requests. -/
def World.shape (w : World α) : Nat × Nat × Nat := (w.vec.cap, w.vec.n, w.mem.requests)

/-- Leaves these as they are. -/
def Shapeless {β : Type} (x : Act (World α) β) : Prop := ∀ w, (x w).2.shape = w.shape

theorem shapeless_bind {β γ : Type} {x : Act (World α) β} {f : β → Act (World α) γ} (hx : Shapeless x) (hf : ∀ a, Shapeless (f a)) :
    Shapeless (x >>= f) := by
  intro w
  have h := hx w
  generalize hr : x w = r at h
  obtain ⟨r, w'⟩ := r
  cases r with
  | ok a => rw [Act.bind_ok hr, hf a w']; exact h
  | error e => rw [Act.bind_error hr]; exact h

theorem shapeless_pure {β : Type} (a : β) : Shapeless (pure a : Act (World α) β) := fun _ => rfl
theorem shapeless_throw {β : Type} (e : Fault) : Shapeless (Act.throw e : Act (World α) β) := fun _ => rfl
theorem shapeless_get : Shapeless (Act.get : Act (World α) (World α)) := fun _ => rfl
theorem shapeless_drop (a : α) : Shapeless (Act.modify (World.drop a)) := fun _ => rfl

theorem shapeless_asPtr : Shapeless (asPtr : Act (World α) Ptr) := by
  intro w
  unfold asPtr
  split <;> split <;> rfl

theorem shapeless_read (p : Ptr) (i : Nat) : Shapeless (p.read ty i : Act (World α) α) := by
  intro w
  unfold Ptr.read
  repeat' split
  all_goals rfl

theorem shapeless_write (p : Ptr) (i : Nat) (v : α) : Shapeless (p.write ty i v) := by
  intro w
  unfold Ptr.write
  repeat' split
  all_goals rfl

theorem shapeless_readRange (p : Ptr) (k i : Nat) : Shapeless (readRange ty p i k : Act (World α) (List α)) := by
  induction k generalizing i with
  | zero => exact shapeless_pure _
  | succ k ih => exact shapeless_bind (shapeless_read p i) fun a => shapeless_bind (ih (i + 1)) fun _ => shapeless_pure _

theorem shapeless_ite {β : Type} {c : Prop} [Decidable c] {x y : Act (World α) β} (hx : Shapeless x) (hy : Shapeless y) :
    Shapeless (if c then x else y) := by
  split
  · exact hx
  · exact hy

theorem shapeless_asSlice : Shapeless (asSlice ty : Act (World α) (List α)) :=
  shapeless_bind shapeless_get fun _ => shapeless_bind shapeless_asPtr fun _ =>
    shapeless_ite (shapeless_readRange _ _ _) (shapeless_ite (shapeless_readRange _ _ _) (shapeless_throw _))

theorem shapeless_onUnwind {β : Type} {x : Act (World α) β} {f : World α → World α} (hx : Shapeless x) (hf : ∀ w, (f w).shape = w.shape) :
    Shapeless (Act.onUnwind x f) := by
  intro w
  have h := hx w
  unfold Act.onUnwind
  generalize x w = r at h
  obtain ⟨r, w'⟩ := r
  cases r with
  | ok a => exact h
  | error e =>
    dsimp only
    split
    · exact h
    · exact (hf w').trans h

theorem shapeless_replaceAt (i : Nat) (item : α) : Shapeless (replaceAt ty i item) :=
  shapeless_bind shapeless_get fun _ => shapeless_bind shapeless_asPtr fun _ =>
    shapeless_bind (shapeless_onUnwind (shapeless_ite (shapeless_pure _) (shapeless_throw _)) fun _ => rfl) fun _ =>
      shapeless_ite (shapeless_bind (shapeless_read _ _) fun _ => shapeless_bind (shapeless_write _ _ _) fun _ => shapeless_pure _)
        (shapeless_bind (shapeless_drop _) fun _ => shapeless_throw _)

theorem shapeless_pop : Shapeless (pop ty : Act (World α) (Option α)) :=
  shapeless_bind shapeless_get fun _ => shapeless_ite (shapeless_pure _) <| shapeless_bind shapeless_asPtr fun _ =>
    shapeless_bind (fun _ => rfl) fun _ => shapeless_bind (shapeless_read _ _) fun _ => shapeless_pure _

/-- Growing to an exact capacity asks once. -/
theorem reserveExact_shape {cap : Nat} {w w' : World α} (h : reserveExact ty cap w = (.ok (), w')) (hlt : w.vec.cap < cap) :
    w'.shape = (cap, w.vec.n, w.mem.requests + 1) := by
  unfold reserveExact at h
  split at h
  case isFalse => simp at h
  simp only [Act.get_bind_run] at h
  rw [if_neg (by omega)] at h
  have hl : ∀ c : Nat, (∃ n, layoutArray (W := World α) ty c w = (.ok n, w)) ∨ layoutArray (W := World α) ty c w = (.error .assertion, w) := by
    intro c
    unfold layoutArray
    split
    · exact .inl ⟨_, rfl⟩
    · exact .inr rfl
  rcases hl cap with ⟨n, e⟩ | e
  case inr => rw [Act.bind_error e] at h; simp at h
  rw [Act.bind_ok e] at h
  split at h
  · rcases hl w.vec.cap with ⟨m, e⟩ | e
    case inr => rw [Act.bind_error e] at h; simp at h
    rw [Act.bind_ok e] at h
    cases hd : w.vec.data with
    | stack cells => rw [hd] at h; simp at h
    | heap p =>
      rw [hd] at h
      dsimp only at h
      have hr : ∀ r w₁, onMem (Mem.realloc ty p m n) w = (.ok (some r), w₁) → w₁.vec = w.vec ∧ w₁.mem.requests = w.mem.requests + 1 := by
        intro r w₁ hr
        simp only [onMem, Mem.realloc] at hr
        cases hb : w.mem.blocks p with
        | none => rw [hb] at hr; simp at hr
        | some blk =>
          rw [hb] at hr
          dsimp only at hr
          by_cases hc : blk.bytes = m ∧ n ≠ 0
          · rw [if_pos hc] at hr
            by_cases hg : w.mem.grants w.mem.requests = true
            · rw [if_pos hg] at hr
              simp at hr
              obtain ⟨-, rfl⟩ := hr
              exact ⟨rfl, rfl⟩
            · rw [if_neg hg] at hr; simp at hr
          · rw [if_neg hc] at hr; simp at hr
      generalize hx : onMem (Mem.realloc ty p m n) w = x at hr
      obtain ⟨x, w₁⟩ := x
      cases x with
      | error e => rw [Act.bind_error hx] at h; simp at h
      | ok q =>
        rw [Act.bind_ok hx] at h
        cases q with
        | none => simp at h
        | some q =>
          obtain ⟨h1, h2⟩ := hr q w₁ rfl
          simp at h
          subst h
          simp [World.shape, h1, h2]
  · have hr : ∀ r w₁, onMem (Mem.alloc n) w = (.ok (some r), w₁) → w₁.vec = w.vec ∧ w₁.mem.requests = w.mem.requests + 1 := by
      intro r w₁ hr
      simp only [onMem, Mem.alloc] at hr
      by_cases hc : n = 0
      · rw [if_pos hc] at hr; simp at hr
      · rw [if_neg hc] at hr
        by_cases hg : w.mem.grants w.mem.requests = true
        · rw [if_pos hg] at hr
          simp at hr
          obtain ⟨-, rfl⟩ := hr
          exact ⟨rfl, rfl⟩
        · rw [if_neg hg] at hr; simp at hr
    generalize hx : onMem (Mem.alloc n) w = x at hr
    obtain ⟨x, w₁⟩ := x
    cases x with
    | error e => rw [Act.bind_error hx] at h; simp at h
    | ok q =>
      rw [Act.bind_ok hx] at h
      cases q with
      | none => simp at h
      | some q =>
        obtain ⟨h1, h2⟩ := hr q w₁ rfl
        dsimp only at h
        generalize hy : copyOut ty q w.vec.len w₁ = y at h
        have hs : y.2.shape = w₁.shape := by
          rw [← hy]
          unfold copyOut
          repeat' split
          all_goals rfl
        obtain ⟨y, w₂⟩ := y
        cases y with
        | error e => rw [Act.bind_error hy] at h; simp at h
        | ok u =>
          rw [Act.bind_ok hy] at h
          simp at h
          subst h
          simp only [World.shape, Prod.mk.injEq] at hs ⊢
          exact ⟨trivial, by rw [hs.2.1, h1], by rw [hs.2.2, h2]⟩

/-- `push` grows only a full vector, to twice its capacity, and asks once. -/
theorem push_shape {item : α} {w w' : World α} {l : List α} (hr : VecRel ty w.mem w.vec l) (hs : 0 < ty.size)
    (h : push b ty item w = (.ok (), w')) :
    (w.vec.len < w.vec.cap ∧ w'.shape = w.shape) ∨
    (w.vec.len = w.vec.cap ∧ w'.shape = (max (w.vec.cap * 2) (w.vec.len + 1), w.vec.n, w.mem.requests + 1)) := by
  have hle := hr.len_le
  have hcap : w.vec.cap ≤ isizeMax := by
    rcases hr.place with ⟨h1, -⟩ | ⟨-, h1, -⟩
    · rw [h1]; exact hr.typed.2 hs
    · exact h1
  have hu : isizeMax * 2 ≤ usizeMax := by decide
  have h1 : 1 ≤ isizeMax := by decide
  unfold push at h
  simp only [Act.get_bind_run] at h
  have ha : ∀ w' : World α, addUsize b w.vec.len 1 w' = (.ok (w.vec.len + 1), w') := by
    intro w'
    have : w.vec.len + 1 ≤ usizeMax := by omega
    simp [addUsize, this]
  have hr0 : (do let len ← addUsize b w.vec.len 1; reserve b ty len : Act (World α) Unit) w = reserve b ty (w.vec.len + 1) w :=
    Act.bind_ok (ha w)
  have rest : ∀ w₁ : World α, ((do
      let p ← asPtr
      p.write ty w.vec.len item
      let len ← addUsize b w.vec.len 1
      Act.modify fun w => { w with vec := { w.vec with len := len } } : Act (World α) Unit) w₁).2.shape = w₁.shape :=
    shapeless_bind shapeless_asPtr fun p => shapeless_bind (shapeless_write _ _ _) fun _ =>
      shapeless_bind (fun w => by rw [ha]) fun _ => fun _ => rfl
  generalize hx : reserve b ty (w.vec.len + 1) w = x at hr0
  obtain ⟨x, w₁⟩ := x
  cases x with
  | error e =>
    have : (Act.onUnwind (do let len ← addUsize b w.vec.len 1; reserve b ty len : Act (World α) Unit) (World.drop item) w).1 = .error e := by
      simp only [Act.onUnwind, hr0]
      split <;> rfl
    generalize hq : Act.onUnwind (do let len ← addUsize b w.vec.len 1; reserve b ty len : Act (World α) Unit) (World.drop item) w = q at this
    obtain ⟨q, w₂⟩ := q
    simp at this
    subst this
    rw [Act.bind_error hq] at h
    simp at h
  | ok u =>
    have hq : Act.onUnwind (do let len ← addUsize b w.vec.len 1; reserve b ty len : Act (World α) Unit) (World.drop item) w = (.ok u, w₁) := by
      simp only [Act.onUnwind, hr0]
    rw [Act.bind_ok hq] at h
    have hsh := rest w₁
    rw [h] at hsh
    dsimp only at hsh
    rw [hsh]
    unfold reserve at hx
    simp only [Act.get_bind_run] at hx
    by_cases hc : w.vec.cap ≥ w.vec.len + 1
    · rw [if_pos hc] at hx
      simp at hx
      obtain ⟨-, rfl⟩ := hx
      exact .inl ⟨by omega, rfl⟩
    · rw [if_neg hc] at hx
      have hm : mulUsize b w.vec.cap 2 w = (.ok (w.vec.cap * 2), w) := by
        have : w.vec.cap * 2 ≤ usizeMax := by omega
        simp [mulUsize, this]
      rw [Act.bind_ok hm] at hx
      exact .inr ⟨by omega, reserveExact_shape hx (by omega)⟩

/-! ## The invariant -/

/-- What holds of a vector alive. -/
structure CostOf (k : Nat) (v : SVec α) (hist : List (VecOp α × Except Fault (VecOut α))) (cost : List (Nat × Nat)) : Prop where
  len : v.len ≤ (pushedTo hist).count k
  moved : movedOf k cost + v.n ≤ v.cap
  grown : v.n * 2 ^ growthsOf k cost ≤ v.cap
  heap : growthsOf k cost ≠ 0 → 2 ^ growthsOf k cost ≤ 2 * v.cap
  used : growthsOf k cost ≠ 0 → v.cap < 2 * (pushedTo hist).count k

/-- What holds of every vector there was. -/
structure CostWas (k : Nat) (hist : List (VecOp α × Except Fault (VecOut α))) (cost : List (Nat × Nat)) : Prop where
  requests : growthsOf k cost ≠ 0 → 2 ^ growthsOf k cost < 4 * (pushedTo hist).count k
  moved : movedOf k cost ≤ 2 * (pushedTo hist).count k

theorem CostOf.was {k : Nat} {v : SVec α} (h : CostOf k v hist cost) : CostWas k hist cost := by
  refine ⟨fun hg => ?_, ?_⟩
  · have := h.heap hg
    have := h.used hg
    omega
  · by_cases hg : growthsOf k cost = 0
    · have : movedOf k cost = 0 := by
        unfold growthsOf at hg
        unfold movedOf
        rw [List.length_eq_zero_iff.mp hg]
        rfl
      omega
    · have := h.used hg
      have := h.moved
      omega

structure CostInv (hist : List (VecOp α × Except Fault (VecOut α))) (cost : List (Nat × Nat)) (sys : Sys α) : Prop where
  alive : ∀ (k : Nat) v, sys.vecs[k]? = some (some v) → CostOf k v hist cost
  was : ∀ k, CostWas k hist cost
  later : ∀ k, sys.vecs.length ≤ k → growthsOf k cost = 0 ∧ (pushedTo hist).count k = 0
  count : cost.length = sys.mem.requests

theorem growthsOf_append (k : Nat) (c d : List (Nat × Nat)) : growthsOf k (c ++ d) = growthsOf k c + growthsOf k d := by
  simp [growthsOf]
theorem movedOf_append (k : Nat) (c d : List (Nat × Nat)) : movedOf k (c ++ d) = movedOf k c + movedOf k d := by
  simp [movedOf]
theorem pushedTo_append (h₁ h₂ : List (VecOp α × Except Fault (VecOut α))) : pushedTo (h₁ ++ h₂) = pushedTo h₁ ++ pushedTo h₂ :=
  List.filterMap_append ..

theorem movedOf_none {k : Nat} {c : List (Nat × Nat)} (h : growthsOf k c = 0) : movedOf k c = 0 := by
  unfold growthsOf at h
  unfold movedOf
  rw [List.length_eq_zero_iff.mp h]
  rfl

/-- Nothing that costs. -/
theorem CostInv.free {sys sys' : Sys α} {op : VecOp α} {res : Except Fault (VecOut α)} (h : CostInv hist cost sys)
    (hr : sys'.mem.requests = sys.mem.requests) (hp : pushedTo [(op, res)] = [])
    (hlen : sys.vecs.length ≤ sys'.vecs.length)
    (hv : ∀ (k : Nat) v', sys'.vecs[k]? = some (some v') → (v'.len = 0 ∧ v'.cap = v'.n ∧ sys.vecs.length ≤ k) ∨
      ∃ v, sys.vecs[k]? = some (some v) ∧ v'.len ≤ v.len ∧ v'.cap = v.cap ∧ v'.n = v.n) :
    CostInv (hist ++ [(op, res)]) (cost ++ growths sys sys' op) sys' := by
  have hg : growths sys sys' op = [] := by simp [growths, hr]
  rw [hg, List.append_nil]
  have hpp : pushedTo (hist ++ [(op, res)]) = pushedTo hist := by rw [pushedTo_append, hp, List.append_nil]
  refine ⟨fun k v' hk => ?_, fun k => ⟨by rw [hpp]; exact (h.was k).requests, by rw [hpp]; exact (h.was k).moved⟩,
    fun k hk => by rw [hpp]; exact h.later k (by omega), by rw [h.count, hr]⟩
  rcases hv k v' hk with ⟨h1, h2, h3⟩ | ⟨v, hk', h1, h2, h3⟩
  · obtain ⟨h4, h5⟩ := h.later k h3
    exact ⟨by omega, by rw [movedOf_none h4]; omega, by rw [h4]; omega, fun hc => absurd h4 hc, fun hc => absurd h4 hc⟩
  · have := h.alive k v hk'
    refine ⟨?_, ?_, ?_, ?_, ?_⟩
    · rw [hpp]; have := this.len; omega
    · rw [h2, h3]; exact this.moved
    · rw [h2, h3]; exact this.grown
    · rw [h2]; exact this.heap
    · rw [h2, hpp]; exact this.used

theorem cost_inv (hz : 0 < ty.size) (hi : Sys.Initial start) (h : CostReach b ty start hist cost sys) :
    CostInv hist cost sys ∧ Reach b ty anything start hist sys := by
  induction h with
  | start =>
    refine ⟨⟨fun k v hk => ?_, fun k => ⟨fun h => absurd rfl h, Nat.zero_le _⟩, fun k _ => ⟨rfl, rfl⟩, hi.2.2.1.symm⟩, .start⟩
    rw [hi.1] at hk
    simp at hk
  | @step hist cost sys sys' op res _ ht hl hrun hne ih =>
    obtain ⟨ih, hreach⟩ := ih
    refine ⟨?_, .step hreach ht trivial hrun hne⟩
    obtain ⟨ls, -, hrel, -⟩ := reach_rel (.inl hz) hi hreach
    have keep : ∀ {k : Nat} {v : SVec α} {w : World α}, sys.vecs[k]? = some (some v) → sys' = { vecs := sys.vecs.set k (some w.vec), mem := w.mem } →
        w.shape = ({ vec := v, mem := sys.mem } : World α).shape → w.vec.len ≤ v.len → pushedTo [(op, res)] = [] →
        CostInv (hist ++ [(op, res)]) (cost ++ growths sys sys' op) sys' := by
      intro k v w hv hs hsh hlen hp
      simp only [World.shape, Prod.mk.injEq] at hsh
      subst hs
      refine ih.free hsh.2.2 hp (by simp) fun j v' hj => ?_
      dsimp only at hj
      rw [set_get hv] at hj
      by_cases hjk : j = k
      · rw [if_pos hjk] at hj
        simp at hj
        subst hj
        exact .inr ⟨v, by rw [hjk]; exact hv, hlen, hsh.1, hsh.2.1⟩
      · rw [if_neg hjk] at hj
        exact .inr ⟨v', hj, Nat.le_refl _, rfl, rfl⟩
    cases op with
    | new n cap =>
      simp only [VecOp.leavesGrowing] at hl
      simp only [Sys.run] at hrun
      have hw : SVec.withCapacity ty n cap sys.mem = (.ok { n, cap := n, len := 0, data := .stack fun _ => none }, sys.mem) ∨
          SVec.withCapacity ty n cap sys.mem = (.error .assertion, sys.mem) := by
        unfold SVec.withCapacity
        split
        · rw [if_neg (by omega)]; exact .inl rfl
        · exact .inr rfl
      rcases hw with hw | hw <;> rw [hw] at hrun <;> simp at hrun <;> obtain ⟨rfl, rfl⟩ := hrun
      · refine ih.free rfl rfl (by simp) fun k v' hk => ?_
        dsimp only at hk
        by_cases hlt : k < sys.vecs.length
        · rw [List.getElem?_append_left hlt] at hk
          exact .inr ⟨v', hk, Nat.le_refl _, rfl, rfl⟩
        · rw [List.getElem?_append_right (by omega)] at hk
          cases hd : k - sys.vecs.length with
          | zero =>
            rw [hd] at hk
            simp at hk
            subst hk
            exact .inl ⟨rfl, rfl, by omega⟩
          | succ n => rw [hd] at hk; simp at hk
      · exact ih.free rfl rfl (Nat.le_refl _) fun k v' hk => .inr ⟨v', hk, Nat.le_refl _, rfl, rfl⟩
    | push k item =>
      simp only [Sys.run] at hrun
      obtain ⟨v, hv, r, w', hx, rfl, rfl⟩ := call_some hrun
      obtain ⟨l, hl', hr⟩ := hrel.at hv
      have ho := ih.alive k v hv
      obtain ⟨hcases, -⟩ := push_rel (w := { vec := v, mem := sys.mem }) (b := b) hr hrel.fresh item (.inl hz)
      have hp : ∀ j, (pushedTo (hist ++ [(.push k item, r.map fun _ => VecOut.unit)])).count j = (pushedTo hist).count j + if j = k then 1 else 0 := by
        intro j
        rw [pushedTo_append, List.count_append]
        show _ + List.count j [k] = _
        by_cases hjk : j = k
        · subst hjk; simp
        · rw [if_neg hjk, List.count_cons_of_ne (Ne.symm hjk)]; rfl
      have key : w'.vec.len ≤ v.len + 1 ∧ ((w'.shape = ({ vec := v, mem := sys.mem } : World α).shape) ∨
          (v.len = v.cap ∧ w'.shape = (max (v.cap * 2) (v.len + 1), v.n, sys.mem.requests + 1))) := by
        rcases hcases with ⟨w, h1, h2, -⟩ | ⟨h1, -⟩ | ⟨w, h1, -⟩
        · rw [h1] at hx
          simp at hx
          obtain ⟨rfl, rfl⟩ := hx
          refine ⟨by rw [h2.len, hr.len]; simp, ?_⟩
          rcases push_shape hr hz h1 with ⟨-, h⟩ | h
          · exact .inl h
          · exact .inr h
        · rw [h1] at hx
          simp at hx
          obtain ⟨rfl, rfl⟩ := hx
          exact ⟨Nat.le_succ _, .inl rfl⟩
        · rw [h1] at hx
          simp at hx
          obtain ⟨rfl, rfl⟩ := hx
          exact absurd rfl hne
      obtain ⟨hlen, hsh⟩ := key
      have others : ∀ {c : List (Nat × Nat)}, (∀ j, j ≠ k → growthsOf j c = 0) → c.length = w'.mem.requests - sys.mem.requests →
          sys.mem.requests ≤ w'.mem.requests →
          CostOf k w'.vec (hist ++ [(.push k item, r.map fun _ => VecOut.unit)]) (cost ++ c) →
          CostInv (hist ++ [(.push k item, r.map fun _ => VecOut.unit)]) (cost ++ c) { vecs := sys.vecs.set k (some w'.vec), mem := w'.mem } := by
        intro c hc hcl hle hk
        have same : ∀ j, j ≠ k → growthsOf j (cost ++ c) = growthsOf j cost ∧ movedOf j (cost ++ c) = movedOf j cost ∧
            (pushedTo (hist ++ [(.push k item, r.map fun _ => VecOut.unit)])).count j = (pushedTo hist).count j := by
          intro j hj
          rw [growthsOf_append, movedOf_append, hp j, if_neg hj, hc j hj, movedOf_none (hc j hj)]
          exact ⟨rfl, rfl, rfl⟩
        refine ⟨fun j v' hj => ?_, fun j => ?_, fun j hj => ?_, ?_⟩
        · dsimp only at hj
          rw [set_get hv] at hj
          by_cases hjk : j = k
          · rw [if_pos hjk] at hj
            simp at hj
            subst hj hjk
            exact hk
          · rw [if_neg hjk] at hj
            obtain ⟨s1, s2, s3⟩ := same j hjk
            have := ih.alive j v' hj
            exact ⟨by rw [s3]; exact this.len, by rw [s2]; exact this.moved, by rw [s1]; exact this.grown, by rw [s1]; exact this.heap,
              by rw [s1, s3]; exact this.used⟩
        · by_cases hjk : j = k
          · subst hjk; exact hk.was
          · obtain ⟨s1, s2, s3⟩ := same j hjk
            exact ⟨by rw [s1, s3]; exact (ih.was j).requests, by rw [s2, s3]; exact (ih.was j).moved⟩
        · dsimp only at hj
          rw [List.length_set] at hj
          have hjk : j ≠ k := by
            rintro rfl
            rw [List.getElem?_eq_none_iff.mpr hj] at hv
            simp at hv
          obtain ⟨s1, s2, s3⟩ := same j hjk
          rw [s1, s3]
          exact ih.later j hj
        · rw [List.length_append, ih.count, hcl]
          dsimp only
          omega
      rcases hsh with hsh | ⟨hfull, hsh⟩
      · simp only [World.shape, Prod.mk.injEq] at hsh
        obtain ⟨s1, s2, s3⟩ := hsh
        have hg : growths sys { vecs := sys.vecs.set k (some w'.vec), mem := w'.mem } (.push k item) = [] := by simp [growths, s3]
        rw [hg]
        refine others (fun _ _ => rfl) (by rw [s3]; simp) (by omega) ?_
        rw [List.append_nil]
        have hpk := hp k
        rw [if_pos rfl] at hpk
        refine ⟨by rw [hpk]; have := ho.len; omega, by rw [s1, s2]; exact ho.moved, by rw [s1, s2]; exact ho.grown, by rw [s1]; exact ho.heap,
          fun hg => by rw [s1, hpk]; have := ho.used hg; omega⟩
      · simp only [World.shape, Prod.mk.injEq] at hsh
        obtain ⟨s1, s2, s3⟩ := hsh
        have hg : growths sys { vecs := sys.vecs.set k (some w'.vec), mem := w'.mem } (.push k item) = [(k, v.len)] := by
          simp [growths, s3, hv]
        rw [hg]
        refine others (fun j hj => by simp [growthsOf, Ne.symm hj]) (by rw [s3]; simp) (by omega) ?_
        have hpk := hp k
        rw [if_pos rfl] at hpk
        have g1 : growthsOf k (cost ++ [(k, v.len)]) = growthsOf k cost + 1 := by simp [growthsOf]
        have g2 : movedOf k (cost ++ [(k, v.len)]) = movedOf k cost + v.len := by simp [movedOf]
        have m1 := ho.len
        have m2 := ho.moved
        have m3 := ho.grown
        refine ⟨by rw [hpk]; omega, by rw [s1, s2, g2]; omega, ?_, fun _ => ?_, fun _ => by rw [s1, hpk]; omega⟩
        · rw [s1, s2, g1, Nat.pow_succ, ← Nat.mul_assoc]
          omega
        · rw [s1, g1, Nat.pow_succ]
          by_cases hg0 : growthsOf k cost = 0
          · rw [hg0]; omega
          · have := ho.heap hg0
            omega
    | pop k =>
      simp only [Sys.run] at hrun
      obtain ⟨v, hv, r, w', hx, rfl, hs⟩ := call_some hrun
      obtain ⟨l, hl', hr⟩ := hrel.at hv
      obtain ⟨w, h1, h2, -⟩ := pop_rel (w := { vec := v, mem := sys.mem }) hr hrel.fresh
      have hsh := shapeless_pop (ty := ty) ({ vec := v, mem := sys.mem } : World α)
      rw [h1] at hx hsh
      simp at hx
      obtain ⟨-, rfl⟩ := hx
      refine keep hv hs hsh ?_ rfl
      rw [h2.len, hr.len]
      simp
    | reserve k cap => exact absurd hl id
    | reserveExact k cap => exact absurd hl id
    | slice k =>
      simp only [Sys.run] at hrun
      obtain ⟨v, hv, r, w', hx, rfl, hs⟩ := call_some hrun
      obtain ⟨l, hl', hr⟩ := hrel.at hv
      rw [asSlice_rel (w := { vec := v, mem := sys.mem }) hr] at hx
      simp at hx
      obtain ⟨-, rfl⟩ := hx
      exact keep hv hs rfl (Nat.le_refl _) rfl
    | replace k i item =>
      simp only [Sys.run] at hrun
      obtain ⟨v, hv, r, w', hx, rfl, hs⟩ := call_some hrun
      obtain ⟨l, hl', hr⟩ := hrel.at hv
      obtain ⟨hin, hout⟩ := replaceAt_rel (w := { vec := v, mem := sys.mem }) hr hrel.fresh i item
      have hsh := shapeless_replaceAt (ty := ty) i item ({ vec := v, mem := sys.mem } : World α)
      cases ho : l[i]? with
      | some old =>
        obtain ⟨w, h1, h2, -⟩ := hin old ho
        rw [h1] at hx hsh
        simp at hx
        obtain ⟨-, rfl⟩ := hx
        refine keep hv hs hsh ?_ rfl
        rw [h2.len, hr.len]
        simp
      | none =>
        rw [hout ho] at hx
        simp at hx
        obtain ⟨-, rfl⟩ := hx
        exact keep hv hs rfl (Nat.le_refl _) rfl
    | drop k =>
      simp only [Sys.run] at hrun
      cases hc : sys.call k (dropVec ty) fun _ => VecOut.unit with
      | none => rw [hc] at hrun; simp at hrun
      | some p =>
        obtain ⟨r', sys₁⟩ := p
        rw [hc] at hrun
        simp at hrun
        obtain ⟨rfl, rfl⟩ := hrun
        obtain ⟨v, hv, r, w', hx, rfl, rfl⟩ := call_some hc
        obtain ⟨l, hl', hr⟩ := hrel.at hv
        obtain ⟨w, h1, h2, h3, -⟩ := dropVec_rel (w := { vec := v, mem := sys.mem }) hr
        rw [h1] at hx
        simp at hx
        obtain ⟨-, rfl⟩ := hx
        refine ih.free h3 rfl (by simp) fun j v' hj => ?_
        dsimp only at hj
        rw [List.set_set, set_get hv] at hj
        by_cases hjk : j = k
        · rw [if_pos hjk] at hj; simp at hj
        · rw [if_neg hjk] at hj
          exact .inr ⟨v', hj, Nat.le_refl _, rfl, rfl⟩

/-! ## The claims -/

/-- C102: every request to the allocator is accounted for. -/
theorem C102_all_counted (hz : 0 < ty.size) (hi : Sys.Initial start) (h : CostReach b ty start hist cost sys) :
    cost.length = sys.mem.requests := (cost_inv hz hi h).1.count

/-- C102: the number of requests a vector makes is logarithmic in the number of elements pushed to it. -/
theorem C102_requests (hz : 0 < ty.size) (hi : Sys.Initial start) (h : CostReach b ty start hist cost sys) (k : Nat) :
    growthsOf k cost = 0 ∨ 2 ^ growthsOf k cost < 4 * (pushedTo hist).count k := by
  by_cases hg : growthsOf k cost = 0
  · exact .inl hg
  · exact .inr (((cost_inv hz hi h).1.was k).requests hg)

/-- C102: and counted from its inline capacity. -/
theorem C102_inline (hz : 0 < ty.size) (hi : Sys.Initial start) (h : CostReach b ty start hist cost sys) {k : Nat} {v : SVec α}
    (hv : sys.vecs[k]? = some (some v)) : growthsOf k cost = 0 ∨ v.n * 2 ^ growthsOf k cost < 2 * (pushedTo hist).count k := by
  by_cases hg : growthsOf k cost = 0
  · exact .inl hg
  · have h := (cost_inv hz hi h).1.alive k v hv
    exact .inr (Nat.lt_of_le_of_lt h.grown (h.used hg))

/-- C102: growing moves at most two elements for each one pushed. -/
theorem C102_moved (hz : 0 < ty.size) (hi : Sys.Initial start) (h : CostReach b ty start hist cost sys) (k : Nat) :
    movedOf k cost ≤ 2 * (pushedTo hist).count k := ((cost_inv hz hi h).1.was k).moved

theorem sum_by_key (cost : List (Nat × Nat)) (pushed : List Nat) (h : ∀ k, movedOf k cost ≤ 2 * pushed.count k) :
    (cost.map (·.2)).sum ≤ 2 * pushed.length := by
  have upto : ∀ n, ((cost.filter (·.1 < n)).map (·.2)).sum ≤ 2 * (pushed.filter (· < n)).length := by
    intro n
    induction n with
    | zero =>
      have : cost.filter (fun x => decide (x.1 < 0)) = [] := by simp
      rw [this]
      simp
    | succ n ih =>
      have split : ∀ c : List (Nat × Nat), ((c.filter (·.1 < n + 1)).map (·.2)).sum = ((c.filter (·.1 < n)).map (·.2)).sum + movedOf n c := by
        intro c
        induction c with
        | nil => rfl
        | cons x c ih =>
          unfold movedOf at ih ⊢
          by_cases h1 : x.1 < n
          · have h2 : x.1 < n + 1 := by omega
            have h3 : ¬ x.1 = n := by omega
            simp only [List.filter_cons, h1, h2, h3, decide_true, if_true, List.map_cons, List.sum_cons, ih, beq_iff_eq, if_false]
            omega
          · by_cases h3 : x.1 = n
            · have h2 : x.1 < n + 1 := by omega
              simp only [List.filter_cons, h1, h2, decide_true, if_true, List.map_cons, List.sum_cons, ih, beq_iff_eq, if_pos h3, decide_false,
                Bool.false_eq_true, if_false]
              omega
            · have h2 : ¬ x.1 < n + 1 := by omega
              simp only [List.filter_cons, h1, h2, ih, beq_iff_eq, if_neg h3, decide_false, Bool.false_eq_true, if_false]
      have split' : ∀ c : List Nat, (c.filter (· < n + 1)).length = (c.filter (· < n)).length + c.count n := by
        intro c
        induction c with
        | nil => rfl
        | cons x c ih =>
          by_cases h1 : x < n
          · have h2 : x < n + 1 := by omega
            have h3 : ¬ x = n := by omega
            simp only [List.filter_cons, h1, h2, decide_true, if_true, List.length_cons, ih, List.count_cons, beq_iff_eq, if_neg h3]
            omega
          · by_cases h3 : x = n
            · have h2 : x < n + 1 := by omega
              simp only [List.filter_cons, h1, h2, decide_true, if_true, List.length_cons, ih, List.count_cons, beq_iff_eq, if_pos h3, decide_false,
                Bool.false_eq_true, if_false]
              omega
            · have h2 : ¬ x < n + 1 := by omega
              simp only [List.filter_cons, h1, h2, ih, List.count_cons, beq_iff_eq, if_neg h3, decide_false, Bool.false_eq_true, if_false, Nat.add_zero]
      rw [split, split']
      have := h n
      omega
  obtain ⟨n, hn⟩ : ∃ n, ∀ x ∈ cost, x.1 < n := by
    clear h upto
    induction cost with
    | nil => exact ⟨0, fun x hx => nomatch hx⟩
    | cons x c ih =>
      obtain ⟨n, hn⟩ := ih
      refine ⟨max n (x.1 + 1), fun y hy => ?_⟩
      rcases List.mem_cons.mp hy with rfl | hy
      · omega
      · have := hn y hy; omega
  have := upto n
  rw [List.filter_eq_self.mpr (fun x hx => by simpa using hn x hx)] at this
  have hle := List.length_filter_le (· < n) pushed
  omega

/-- C102: so pushing takes constant time on average, over all vectors of a program. -/
theorem C102_amortised (hz : 0 < ty.size) (hi : Sys.Initial start) (h : CostReach b ty start hist cost sys) :
    (cost.map (·.2)).sum ≤ 2 * (pushedTo hist).length := sum_by_key _ _ (C102_moved hz hi h)

/-- Run a program to its end, with the growths. -/
def Sys.runCost (b : Build) (ty : Ty) : Sys α → List (VecOp α) → Option ((List (Except Fault (VecOut α)) × List (Nat × Nat)) × Sys α)
  | sys, [] => some (([], []), sys)
  | sys, op :: ops => match sys.run b ty op with
    | none => none
    | some (r, sys') => match Sys.runCost b ty sys' ops with
      | none => none
      | some ((rs, cost), sys₂) => some ((r :: rs, growths sys sys' op ++ cost), sys₂)

theorem costReach_runCost {ops : List (VecOp α)} {rs : List (Except Fault (VecOut α))} {sys sys' : Sys α} {c : List (Nat × Nat)}
    (h : CostReach b ty start hist cost sys) (ht : ∀ op ∈ ops, VecOp.typed ty op ∧ VecOp.leavesGrowing op)
    (hrun : sys.runCost b ty ops = some ((rs, c), sys')) (hne : ∀ r ∈ rs, r ≠ .error .abort) :
    CostReach b ty start (hist ++ ops.zip rs) (cost ++ c) sys' := by
  induction ops generalizing sys hist rs cost c with
  | nil => simp [Sys.runCost] at hrun; obtain ⟨⟨rfl, rfl⟩, rfl⟩ := hrun; simpa using h
  | cons op ops ih =>
    simp only [Sys.runCost] at hrun
    split at hrun
    · simp at hrun
    · rename_i r sys₁ h1
      split at hrun
      · simp at hrun
      · rename_i rs' c' sys₂ h2
        simp at hrun
        obtain ⟨⟨rfl, rfl⟩, rfl⟩ := hrun
        have := ih (.step h (ht op (by simp)).1 (ht op (by simp)).2 h1 (hne r (by simp)))
          (fun op ho => ht op (by simp [ho])) h2 (fun r hr => hne r (by simp [hr]))
        simpa using this

/-- The hypotheses are met: a vector without inline slots that gets three elements asks three times, and moves three elements. -/
example : ∃ hist, ∃ sys : Sys Nat, CostReach .checked ⟨8, 8⟩ { vecs := [], mem := Mem.blank } hist [(0, 0), (0, 1), (0, 2)] sys ∧
    Sys.Initial ({ vecs := [], mem := Mem.blank } : Sys Nat) ∧ pushedTo hist = [0, 0, 0] := by
  have facts : (Sys.runCost (α := Nat) .checked ⟨8, 8⟩ { vecs := [], mem := Mem.blank } [.new 0 0, .push 0 7, .push 0 8, .push 0 9]).map (fun p =>
      (p.1.1.all Except.isOk, p.1.2, pushedTo (List.zip [.new 0 0, .push 0 7, .push 0 8, .push 0 9] p.1.1))) =
      some (true, [(0, 0), (0, 1), (0, 2)], [0, 0, 0]) := by decide +kernel
  generalize hrun : Sys.runCost (α := Nat) .checked ⟨8, 8⟩ { vecs := [], mem := Mem.blank } [.new 0 0, .push 0 7, .push 0 8, .push 0 9] = o at facts
  cases o with
  | none => simp at facts
  | some p =>
    obtain ⟨⟨rs, c⟩, sys⟩ := p
    simp only [Option.map_some, Option.some.injEq, Prod.mk.injEq] at facts
    obtain ⟨h1, rfl, h3⟩ := facts
    refine ⟨_, sys, costReach_runCost .start ?_ hrun ?_, ⟨rfl, fun _ => rfl, rfl, rfl⟩, h3⟩
    · intro op ho
      simp only [List.mem_cons, List.not_mem_nil, or_false] at ho
      rcases ho with rfl | rfl | rfl | rfl <;> simp [VecOp.typed, VecOp.leavesGrowing, usizeMax, isizeMax]
    · intro r hr h
      have := List.all_eq_true.mp h1 r hr
      subst h
      simp [Except.isOk, Except.toBool] at this

end Parcom
