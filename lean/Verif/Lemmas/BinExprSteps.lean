import Verif.Spec.Ownership
import Verif.Lemmas.BinExprVec
/-!
# What is alive at each step of `bin_expr`
-/
namespace Parcom
open Spec

variable {S T Op EOp ETerm Expr : Type} {b : Build} {ty : Ty} {mk : Expr → Op → Expr → Expr} {ofTerm : T → Expr}

theorem perm_counts {α : Type} {xs ys : List α} (h : ∀ [DecidableEq α] a, xs.count a = ys.count a) : xs.Perm ys := by
  classical
  exact List.perm_iff_count.mpr fun a => h a

/-! ## Accounts -/

theorem _root_.Parcom.Spec.Accounts.perm {vals vals' : List (BinVal T Op Expr)} {read read' : List (Token T Op)}
    (h : Accounts mk ofTerm vals read) (hv : vals.Perm vals') (hr : read.Perm read') : Accounts mk ofTerm vals' read' := by
  obtain ⟨xs, h1, h2⟩ := h
  exact ⟨xs, h1.trans hv, h2.trans hr⟩

theorem accounts_nil : Accounts mk ofTerm ([] : List (BinVal T Op Expr)) [] := ⟨[], .nil, .nil⟩

theorem _root_.Parcom.Spec.Accounts.term {vals : List (BinVal T Op Expr)} {read : List (Token T Op)} (h : Accounts mk ofTerm vals read) (v : T) :
    Accounts mk ofTerm (.term v :: vals) (.term v :: read) := by
  obtain ⟨xs, h1, h2⟩ := h
  exact ⟨.term v :: xs, h1.cons _, h2.cons _⟩

theorem _root_.Parcom.Spec.Accounts.op {vals : List (BinVal T Op Expr)} {read : List (Token T Op)} (h : Accounts mk ofTerm vals read) (o : Op) :
    Accounts mk ofTerm (.op o :: vals) (.op o :: read) := by
  obtain ⟨xs, h1, h2⟩ := h
  exact ⟨.op o :: xs, h1.cons _, h2.cons _⟩

/-- A value that is accounted for is made of something. -/
theorem _root_.Parcom.Spec.Accounts.split {x : BinVal T Op Expr} {vals : List (BinVal T Op Expr)} {read : List (Token T Op)}
    (h : Accounts mk ofTerm (x :: vals) read) :
    ∃ (y : BinVal T Op (BTree Op T)) (ys : List (BinVal T Op (BTree Op T))), made mk ofTerm y = x ∧ (ys.map (made mk ofTerm)).Perm vals ∧ (tokensOf y ++ ys.flatMap tokensOf).Perm read := by
  obtain ⟨xs, h1, h2⟩ := h
  have hx : x ∈ xs.map (made mk ofTerm) := h1.mem_iff.mpr (by simp)
  obtain ⟨y, hy, rfl⟩ := List.mem_map.mp hx
  obtain ⟨l, r, rfl⟩ := List.append_of_mem hy
  refine ⟨y, l ++ r, rfl, ?_, ?_⟩
  · refine List.Perm.cons_inv (a := made mk ofTerm y) (List.Perm.trans ?_ h1)
    simp only [List.map_append, List.map_cons]
    exact List.perm_middle.symm
  · refine List.Perm.trans ?_ h2
    simp only [List.flatMap_append, List.flatMap_cons]
    refine perm_counts fun a => ?_
    simp only [List.count_append]
    omega

theorem _root_.Parcom.Spec.Accounts.convert {v : T} {vals : List (BinVal T Op Expr)} {read : List (Token T Op)}
    (h : Accounts mk ofTerm (.term v :: vals) read) : Accounts mk ofTerm (.expr (ofTerm v) :: vals) read := by
  obtain ⟨y, ys, h1, h2, h3⟩ := h.split
  cases y with
  | term v' =>
    simp only [made, BinVal.term.injEq] at h1
    subst h1
    exact ⟨.expr (.leaf v') :: ys, h2.cons _, h3⟩
  | op _ => simp [made] at h1
  | expr _ => simp [made] at h1

theorem _root_.Parcom.Spec.Accounts.combine {l r : Expr} {o : Op} {vals : List (BinVal T Op Expr)} {read : List (Token T Op)}
    (h : Accounts mk ofTerm (.expr l :: .op o :: .expr r :: vals) read) :
    Accounts mk ofTerm (.expr (mk l o r) :: vals) read := by
  obtain ⟨y₁, ys, h1, h2, h3⟩ := h.split
  obtain ⟨y₂, ys', h4, h5, h6⟩ := Accounts.split (⟨ys, h2, .refl _⟩ : Accounts mk ofTerm (.op o :: .expr r :: vals) _)
  obtain ⟨y₃, ys'', h7, h8, h9⟩ := Accounts.split (⟨ys', h5, .refl _⟩ : Accounts mk ofTerm (.expr r :: vals) _)
  cases y₁ with
  | term _ => simp [made] at h1
  | op _ => simp [made] at h1
  | expr t₁ =>
  cases y₂ with
  | term _ => simp [made] at h4
  | expr _ => simp [made] at h4
  | op o' =>
  cases y₃ with
  | term _ => simp [made] at h7
  | op _ => simp [made] at h7
  | expr t₃ =>
  simp only [made, BinVal.expr.injEq, BinVal.op.injEq] at h1 h4 h7
  subst h1 h4 h7
  refine ⟨.expr (.node t₁ o' t₃) :: ys'', h8.cons _, List.Perm.trans ?_ h3⟩
  refine List.Perm.trans ?_ (List.Perm.append_left _ (List.Perm.trans (List.Perm.append_left _ h9) h6))
  simp [tokensOf, BTree.tokens]

theorem reads_append (evs evs' : List (BinEvent T Op Expr)) : reads (evs ++ evs') = reads evs ++ reads evs' := by
  induction evs with
  | nil => rfl
  | cons e evs ih => cases e <;> simp [reads, ih]
theorem drops_append (evs evs' : List (BinEvent T Op Expr)) : drops (evs ++ evs') = drops evs ++ drops evs' := by
  induction evs with
  | nil => rfl
  | cons e evs ih => cases e <;> simp [drops, ih]
theorem reads_dropped (l : List (BinVal T Op Expr)) : reads (l.map BinEvent.dropped) = [] := by
  induction l with
  | nil => rfl
  | cons e l ih => simpa [reads] using ih
theorem drops_dropped (l : List (BinVal T Op Expr)) : drops (l.map BinEvent.dropped) = l := by
  induction l with
  | nil => rfl
  | cons e l ih => simpa [drops] using ih

theorem ownedPairs_append (l l' : List (Expr × Op)) :
    (ownedPairs (l ++ l') : List (BinVal T Op Expr)) = ownedPairs l ++ ownedPairs l' := by simp [ownedPairs]

/-! ## The invariant -/

/-- The memory before the stack is made, the stack, or the memory after it is gone. -/
inductive BinStore (Expr Op : Type) where
  | before (mem : Mem (Expr × Op))
  | stack (w : World (Expr × Op))
  | after (mem : Mem (Expr × Op))

section
variable [RewindSequence S]

/-- The stack of a state. -/
def BinState.store : BinState S T Op EOp ETerm Expr → BinStore Expr Op
  | .first mem _ => .before mem
  | .convert mem _ _ => .before mem
  | .atOp w _ _ => .stack w
  | .gotOp w _ _ _ _ => .stack w
  | .opFailed w _ _ _ _ => .stack w
  | .rewindOp w _ _ _ _ => .stack w
  | .atTerm w _ _ _ _ => .stack w
  | .convertTerm w _ _ _ _ => .stack w
  | .termFailed w _ _ _ _ _ => .stack w
  | .rewindTerm w _ _ _ _ _ => .stack w
  | .inner w _ _ _ _ => .stack w
  | .compare w _ _ _ _ _ _ => .stack w
  | .pushBack w _ _ _ _ _ _ => .stack w
  | .push w _ _ _ _ => .stack w
  | .combine w _ _ _ _ _ _ => .stack w
  | .last w _ _ _ => .stack w
  | .lastCombine w _ _ _ _ _ => .stack w
  | .ret mem _ => .after mem

/-- What is alive besides the stack. -/
def BinState.alive : BinState S T Op EOp ETerm Expr → List (BinVal T Op Expr)
  | .first _ _ => []
  | .convert _ v _ => [.term v]
  | .atOp _ rhs _ => [.expr rhs]
  | .gotOp _ rhs _ op _ => [.expr rhs, .op op]
  | .opFailed _ rhs _ _ _ => [.expr rhs]
  | .rewindOp _ rhs _ _ _ => [.expr rhs]
  | .atTerm _ rhs _ op _ => [.expr rhs, .op op]
  | .convertTerm _ rhs op v _ => [.term v, .expr rhs, .op op]
  | .termFailed _ rhs _ op _ _ => [.expr rhs, .op op]
  | .rewindTerm _ rhs _ op _ _ => [.expr rhs, .op op]
  | .inner _ rhs op term _ => [.expr rhs, .op op, .expr term]
  | .compare _ lhs lastOp rhs op term _ => [.expr lhs, .op lastOp, .expr rhs, .op op, .expr term]
  | .pushBack _ lhs lastOp rhs op term _ => [.expr lhs, .op lastOp, .expr rhs, .op op, .expr term]
  | .push _ rhs op term _ => [.expr rhs, .op op, .expr term]
  | .combine _ lhs lastOp rhs op term _ => [.expr lhs, .op lastOp, .expr rhs, .op op, .expr term]
  | .last _ rhs reason _ => .expr rhs :: ownedReason reason
  | .lastCombine _ lhs op rhs reason _ => .expr lhs :: .op op :: .expr rhs :: ownedReason reason
  | .ret _ res => heldBy res

/-- The stack holds the list, and nothing else has changed in memory. -/
def BinStore.Keeps (ty : Ty) (mem : Mem (Expr × Op)) (l : List (Expr × Op)) : BinStore Expr Op → Prop
  | .before m => m = mem ∧ l = []
  | .stack w => VecRel ty w.mem w.vec l ∧ ∃ w₀, w₀.mem = mem ∧ w₀.vec.block = none ∧ w₀.vec.n = 4 ∧ Frame w₀ w
  | .after m => (∀ q, m.blocks q = mem.blocks q) ∧ l = []

/-- Memory is in order, and what is alive together with what was dropped accounts for what was read. -/
def BinState.Sound (ty : Ty) (mk : Expr → Op → Expr → Expr) (ofTerm : T → Expr) (mem : Mem (Expr × Op))
    (st : BinState S T Op EOp ETerm Expr) (evs : List (BinEvent T Op Expr)) : Prop :=
  ∃ l, st.store.Keeps ty mem l ∧ Accounts mk ofTerm (drops evs ++ (st.alive ++ ownedPairs l)) (reads evs)

theorem exec_dropStack {w w₀ : World (Expr × Op)} {l : List (Expr × Op)} (h : VecRel ty w.mem w.vec l)
    (hb : w₀.vec.block = none) (hf : Fresh w₀.mem) (fr : Frame w₀ w) :
    ∃ w', w.exec (dropVec ty) = pure ((), w') ∧ (∀ q, w'.mem.blocks q = w₀.mem.blocks q) ∧
      w'.mem.dropped.drop w.mem.dropped.length = l := by
  obtain ⟨w', h1, h2, -⟩ := exec_drop (w₀ := { w₀ with mem := { w₀.mem with dropped := w.mem.dropped } }) h hb hf
    ⟨fr.fresh, fr.le, fr.owns, fr.others, fr.live, fr.sameN, fr.grants⟩ rfl
  exact ⟨w', h1, h2.blocks, by rw [h2.dropped]; exact List.drop_left⟩

theorem Keeps.pop {mem : Mem (Expr × Op)} {w : World (Expr × Op)} {l : List (Expr × Op)}
    (h : (BinStore.stack w).Keeps ty mem l) :
    (l = [] ∧ ∃ w', w.exec (pop ty) = pure (none, w') ∧ (BinStore.stack w').Keeps ty mem []) ∨
    ∃ l' p, l = l' ++ [p] ∧ ∃ w', w.exec (pop ty) = pure (some p, w') ∧ (BinStore.stack w').Keeps ty mem l' := by
  obtain ⟨h1, w₀, h2, h3, h4, h5⟩ := h
  obtain ⟨w', h6, h7, h8, -⟩ := exec_pop h1 h5.fresh
  rcases List.eq_nil_or_concat l with rfl | ⟨l', p, rfl⟩
  · exact .inl ⟨rfl, w', h6, h7, w₀, h2, h3, h4, h5.trans h8⟩
  · simp only [List.concat_eq_append] at *
    refine .inr ⟨l', p, rfl, w', by rw [h6]; simp, ?_, w₀, h2, h3, h4, h5.trans h8⟩
    simpa using h7

theorem Keeps.push {mem : Mem (Expr × Op)} {w : World (Expr × Op)} {l : List (Expr × Op)} (hz : 0 < ty.size)
    (h : (BinStore.stack w).Keeps ty mem l) (item : Expr × Op) :
    (∃ w', w.exec (push b ty item) = pure ((), w') ∧ (BinStore.stack w').Keeps ty mem (l ++ [item])) ∨
    ∃ f, w.exec (push b ty item) = Run.fault f ∧ (f = .abort ∨ f = .assertion) := by
  obtain ⟨h1, w₀, h2, h3, h4, h5⟩ := h
  rcases exec_push (b := b) h1 h5.fresh item (h5.sameN.trans h4) (.inl hz) with ⟨w', h6, h7, h8, -⟩ | ⟨f, h6, h7, -⟩
  · exact .inl ⟨w', h6, h7, w₀, h2, h3, h4, h5.trans h8⟩
  · refine .inr ⟨f, h6, ?_⟩
    rcases h7 with ⟨h7, -⟩ | ⟨h7, -⟩
    · exact .inl h7
    · exact .inr h7

/-- A panic in `push` drops what was pushed and leaves the stack as it was. -/
theorem Keeps.cutPush {mem : Mem (Expr × Op)} {w : World (Expr × Op)} {l : List (Expr × Op)} (hz : 0 < ty.size)
    (h : (BinStore.stack w).Keeps ty mem l) (item : Expr × Op) {later earlier : List (BinVal T Op Expr)} {c : BinCut T Op Expr}
    (hc : cutPush b ty w item later earlier = some c) :
    c.handed = [.expr item.1, .op item.2] ∧ c.later = later ∧ c.earlier = earlier ∧
      ∃ w', c.stack = some w' ∧ (BinStore.stack w').Keeps ty mem l := by
  obtain ⟨h1, w₀, h2, h3, h4, h5⟩ := h
  unfold Parcom.cutPush at hc
  obtain ⟨⟨w', h6, -⟩ | ⟨h6, -⟩ | ⟨w', h6, -⟩, -⟩ := push_rel (b := b) h1 h5.fresh item (.inl hz)
  · rw [h6] at hc; simp at hc
  · rw [h6] at hc
    simp only [Option.some.injEq] at hc
    subst hc
    refine ⟨?_, rfl, rfl, _, rfl, h1.frame fun _ _ => rfl, w₀, h2, h3, h4, h5.fresh, h5.le, h5.owns, h5.others, h5.live, h5.sameN, h5.grants⟩
    simp [World.drop, ownedPairs]
  · rw [h6] at hc; simp at hc

/-- Cut off anywhere, everything alive is dropped. -/
theorem cut_drops {mem : Mem (Expr × Op)} (hz : 0 < ty.size) (hf : Fresh mem) {st : BinState S T Op EOp ETerm Expr}
    {evs : List (BinEvent T Op Expr)} (h : st.Sound ty mk ofTerm mem evs) {c : BinCut T Op Expr}
    (hc : st.cut b ty = some c) :
    ∃ mem' vals, c.drop ty = pure (mem', vals) ∧ (∀ m, mem' = some m → ∀ q, m.blocks q = mem.blocks q) ∧
      Accounts mk ofTerm (drops evs ++ vals) (reads evs) := by
  obtain ⟨l, h1, h2⟩ := h
  suffices H : (c.stack = none ∧ l = [] ∧ (c.handed ++ c.later ++ c.earlier).Perm st.alive) ∨
      ∃ w, c.stack = some w ∧ (BinStore.stack w).Keeps ty mem l ∧ (c.handed ++ c.later ++ c.earlier).Perm st.alive by
    rcases H with ⟨h3, rfl, h4⟩ | ⟨w, h3, ⟨h4, w₀, h5, h6, -, h7⟩, h8⟩
    · refine ⟨none, c.handed ++ c.later ++ c.earlier, by simp [BinCut.drop, h3], by simp, h2.perm ?_ (.refl _)⟩
      refine List.Perm.append_left _ ?_
      simpa [ownedPairs] using h4.symm
    · subst h5
      obtain ⟨w', h9, h10, h11⟩ := exec_dropStack h4 h6 hf h7
      refine ⟨some w'.mem, c.handed ++ c.later ++ ownedPairs l ++ c.earlier, ?_, ?_, h2.perm ?_ (.refl _)⟩
      · simp [BinCut.drop, h3, h9, h11]
      · intro m hm; simp at hm; subst hm; exact h10
      · refine List.Perm.append_left _ ((List.Perm.append_right _ h8.symm).trans (perm_counts fun a => ?_))
        simp only [List.count_append]
        omega
  cases st
  case first => simp [BinState.cut] at hc; subst hc; exact .inl ⟨rfl, h1.2, by simp [BinState.alive]⟩
  case convert => simp [BinState.cut] at hc; subst hc; exact .inl ⟨rfl, h1.2, by simp [BinState.alive]⟩
  case inner => simp [BinState.cut] at hc
  case last => simp [BinState.cut] at hc
  case ret => simp [BinState.cut] at hc
  case pushBack =>
    obtain ⟨h3, h4, h5, w', h6, h7⟩ := Keeps.cutPush hz h1 _ hc
    refine .inr ⟨w', h6, h7, ?_⟩
    rw [h3, h4, h5]
    refine perm_counts fun a => ?_
    simp only [BinState.alive, List.count_append, List.count_cons, List.count_nil]
    omega
  case push =>
    obtain ⟨h3, h4, h5, w', h6, h7⟩ := Keeps.cutPush hz h1 _ hc
    refine .inr ⟨w', h6, h7, ?_⟩
    rw [h3, h4, h5]
    refine perm_counts fun a => ?_
    simp only [BinState.alive, List.count_append, List.count_cons, List.count_nil]
    omega
  all_goals
    simp only [BinState.cut, Option.some.injEq] at hc
    subst hc
    refine .inr ⟨_, rfl, h1, perm_counts fun a => ?_⟩
    simp only [BinState.alive, List.count_append, List.count_cons, List.count_nil]
    omega

variable [Operator Op] [ParseError EOp] [ParseError ETerm] {term : S → Run (PResult S T ETerm)}
  {op : S → Run (PResult S Op EOp)} {prec : Nat}

omit [Operator Op] [ParseError EOp] [ParseError ETerm] in
/-- Nothing is dropped and nothing read, and what is alive stays the same. -/
theorem Sound.same {mem : Mem (Expr × Op)} {st st' : BinState S T Op EOp ETerm Expr} {evs : List (BinEvent T Op Expr)}
    (h : st.Sound ty mk ofTerm mem evs) (hs : st'.store = st.store) (ha : st.alive.Perm st'.alive) :
    st'.Sound ty mk ofTerm mem (evs ++ []) := by
  obtain ⟨l, h1, h2⟩ := h
  refine ⟨l, hs ▸ h1, ?_⟩
  rw [List.append_nil]
  exact h2.perm (List.Perm.append_left _ (List.Perm.append_right _ ha)) (.refl _)

omit [Operator Op] [ParseError EOp] [ParseError ETerm] in
theorem leave_sound {mem : Mem (Expr × Op)} (hf : Fresh mem) {w : World (Expr × Op)} {l : List (Expr × Op)}
    {evs evs' : List (BinEvent T Op Expr)} {later : List (BinVal T Op Expr)} {rhs : Expr} {e : Either EOp ETerm}
    {r : UnknownLocation S} {st' : BinState S T Op EOp ETerm Expr} (h : (BinStore.stack w).Keeps ty mem l)
    (ha : Accounts mk ofTerm (drops evs ++ (later ++ ownedPairs l ++ [BinVal.expr rhs])) (reads evs))
    (hs : BinState.leave ty w later rhs e r = pure (st', evs')) : st'.Sound ty mk ofTerm mem (evs ++ evs') := by
  obtain ⟨h4, w₀, rfl, h6, -, h7⟩ := h
  obtain ⟨w', h9, h10, h11⟩ := exec_dropStack h4 h6 hf h7
  simp only [BinState.leave, h9, Run.pure_bind', Run.pure_inj', Prod.mk.injEq, h11] at hs
  obtain ⟨rfl, rfl⟩ := hs
  refine ⟨[], ⟨h10, rfl⟩, ?_⟩
  rw [reads_append, drops_append, reads_dropped, drops_dropped]
  simpa [BinState.alive, heldBy, fail, ownedPairs] using ha

/-- Each step keeps it so. -/
theorem step_sound {mem : Mem (Expr × Op)} (hz : 0 < ty.size) (hf : Fresh mem) {st st' : BinState S T Op EOp ETerm Expr}
    {evs evs' : List (BinEvent T Op Expr)} (h : st.Sound ty mk ofTerm mem evs)
    (hs : BinState.step b ty term op mk ofTerm prec st = pure (st', evs')) : st'.Sound ty mk ofTerm mem (evs ++ evs') := by
  cases st with
  | first m input =>
    simp only [BinState.step] at hs
    rw [Run.bind_eq_pure] at hs
    obtain ⟨res, h1, h2⟩ := hs
    cases res with
    | err e r =>
      simp only [Run.pure_eq_ret, Prod.mk.injEq] at h2
      obtain ⟨rfl, rfl⟩ := h2
      obtain ⟨l, ⟨rfl, rfl⟩, h4⟩ := h
      exact ⟨[], ⟨fun _ => rfl, rfl⟩, by simpa [BinState.alive, heldBy] using h4⟩
    | ok v rest =>
      simp only [Run.pure_eq_ret, Prod.mk.injEq] at h2
      obtain ⟨rfl, rfl⟩ := h2
      obtain ⟨l, h3, h4⟩ := h
      refine ⟨l, h3, (h4.term v).perm ?_ ?_⟩
      · rw [drops_append]
        refine perm_counts fun a => ?_
        simp only [BinState.alive, drops, List.count_append, List.count_cons, List.count_nil]
        omega
      · rw [reads_append]
        exact (List.perm_append_comm (l₁ := [Token.term v]))
  | convert m v rest =>
    obtain ⟨l, ⟨rfl, rfl⟩, h4⟩ := h
    obtain ⟨vec, h5, h6, h7, h8⟩ := new_rel (ty := ty) (mem := m)
    simp only [BinState.step, h5, Run.pure_inj', Prod.mk.injEq] at hs
    obtain ⟨rfl, rfl⟩ := hs
    refine ⟨[], ⟨h6, { vec := vec, mem := m }, rfl, h8, h7, .refl hf⟩, ?_⟩
    rw [List.append_nil]
    refine (Accounts.convert (v := v) (vals := drops evs ++ ownedPairs []) (h4.perm ?_ (.refl _))).perm ?_ (.refl _)
    all_goals
      refine perm_counts fun a => ?_
      simp only [BinState.alive, List.count_append, List.count_cons, List.count_nil]
      omega
  | atOp w rhs rest =>
    simp only [BinState.step] at hs
    rw [Run.bind_eq_pure] at hs
    obtain ⟨res, h1, h2⟩ := hs
    cases res with
    | err e r =>
      simp only [Run.pure_eq_ret, Prod.mk.injEq] at h2
      obtain ⟨rfl, rfl⟩ := h2
      exact Sound.same h rfl (.refl _)
    | ok o r =>
      simp only [Run.pure_eq_ret, Prod.mk.injEq] at h2
      obtain ⟨rfl, rfl⟩ := h2
      obtain ⟨l, h3, h4⟩ := h
      refine ⟨l, h3, (h4.op o).perm ?_ ?_⟩
      · rw [drops_append]
        refine perm_counts fun a => ?_
        simp only [BinState.alive, drops, List.count_append, List.count_cons, List.count_nil]
        omega
      · rw [reads_append]
        exact (List.perm_append_comm (l₁ := [Token.op o]))
  | gotOp w rhs anchor o r =>
    simp only [BinState.step] at hs
    split at hs
    · simp only [Run.pure_inj', Prod.mk.injEq] at hs
      obtain ⟨rfl, rfl⟩ := hs
      exact Sound.same h rfl (.refl _)
    · simp only [Run.pure_inj', Prod.mk.injEq] at hs
      obtain ⟨rfl, rfl⟩ := hs
      exact Sound.same h rfl (.refl _)
  | opFailed w rhs anchor e r =>
    simp only [BinState.step] at hs
    split at hs
    · obtain ⟨l, h3, h4⟩ := h
      refine leave_sound hf h3 (h4.perm ?_ (.refl _)) hs
      refine perm_counts fun a => ?_
      simp only [BinState.alive, List.count_append, List.count_cons, List.count_nil]
      omega
    · simp only [Run.pure_inj', Prod.mk.injEq] at hs
      obtain ⟨rfl, rfl⟩ := hs
      exact Sound.same h rfl (.refl _)
  | rewindOp w rhs anchor e r =>
    simp only [BinState.step] at hs
    rw [Run.bind_eq_pure] at hs
    obtain ⟨rest, h1, h2⟩ := hs
    simp only [Run.pure_eq_ret, Prod.mk.injEq] at h2
    obtain ⟨rfl, rfl⟩ := h2
    exact Sound.same h rfl (.refl _)
  | atTerm w rhs anchor o r =>
    simp only [BinState.step] at hs
    rw [Run.bind_eq_pure] at hs
    obtain ⟨res, h1, h2⟩ := hs
    cases res with
    | err e r =>
      simp only [Run.pure_eq_ret, Prod.mk.injEq] at h2
      obtain ⟨rfl, rfl⟩ := h2
      exact Sound.same h rfl (.refl _)
    | ok v r =>
      simp only [Run.pure_eq_ret, Prod.mk.injEq] at h2
      obtain ⟨rfl, rfl⟩ := h2
      obtain ⟨l, h3, h4⟩ := h
      refine ⟨l, h3, (h4.term v).perm ?_ ?_⟩
      · rw [drops_append]
        refine perm_counts fun a => ?_
        simp only [BinState.alive, drops, List.count_append, List.count_cons, List.count_nil]
        omega
      · rw [reads_append]
        exact (List.perm_append_comm (l₁ := [Token.term v]))
  | convertTerm w rhs o v r =>
    simp only [BinState.step, Run.pure_inj', Prod.mk.injEq] at hs
    obtain ⟨rfl, rfl⟩ := hs
    obtain ⟨l, h3, h4⟩ := h
    refine ⟨l, h3, ?_⟩
    rw [List.append_nil]
    refine (Accounts.convert (v := v) (vals := drops evs ++ ([.expr rhs, .op o] ++ ownedPairs l))
      (h4.perm ?_ (.refl _))).perm ?_ (.refl _)
    all_goals
      refine perm_counts fun a => ?_
      simp only [BinState.alive, List.count_append, List.count_cons, List.count_nil]
      omega
  | termFailed w rhs anchor o e r =>
    simp only [BinState.step] at hs
    split at hs
    · simp only [Run.pure_inj', Prod.mk.injEq] at hs
      obtain ⟨rfl, rfl⟩ := hs
      exact Sound.same h rfl (.refl _)
    · obtain ⟨l, h3, h4⟩ := h
      refine leave_sound hf h3 (h4.perm ?_ (.refl _)) hs
      refine perm_counts fun a => ?_
      simp only [BinState.alive, List.count_append, List.count_cons, List.count_nil]
      omega
  | rewindTerm w rhs anchor o e r =>
    simp only [BinState.step] at hs
    rw [Run.bind_eq_pure] at hs
    obtain ⟨rest, h1, h2⟩ := hs
    simp only [Run.pure_eq_ret, Prod.mk.injEq] at h2
    obtain ⟨rfl, rfl⟩ := h2
    obtain ⟨l, h3, h4⟩ := h
    refine ⟨l, h3, h4.perm ?_ ?_⟩
    · rw [drops_append]
      refine perm_counts fun a => ?_
      simp only [BinState.alive, drops, ownedReason, List.count_append, List.count_cons, List.count_nil]
      omega
    · rw [reads_append]
      simp [reads]
  | inner w rhs o t rest =>
    obtain ⟨l, h3, h4⟩ := h
    simp only [BinState.step] at hs
    rcases Keeps.pop h3 with ⟨rfl, w', h5, h6⟩ | ⟨l', ⟨lhs, lastOp⟩, rfl, w', h5, h6⟩
    · simp only [h5, Run.pure_bind', Run.pure_inj', Prod.mk.injEq] at hs
      obtain ⟨rfl, rfl⟩ := hs
      exact ⟨[], h6, by rw [List.append_nil]; exact h4⟩
    · simp only [h5, Run.pure_bind', Run.pure_inj', Prod.mk.injEq] at hs
      obtain ⟨rfl, rfl⟩ := hs
      refine ⟨l', h6, ?_⟩
      rw [List.append_nil]
      refine h4.perm (perm_counts fun a => ?_) (.refl _)
      simp only [BinState.alive, ownedPairs_append, List.count_append, List.count_cons, List.count_nil]
      simp only [ownedPairs, List.flatMap_cons, List.flatMap_nil, List.count_append, List.count_cons, List.count_nil]
      omega
  | compare w lhs lastOp rhs o t rest =>
    simp only [BinState.step] at hs
    rw [Run.bind_eq_pure] at hs
    obtain ⟨p, h1, h2⟩ := hs
    split at h2
    · simp only [Run.pure_eq_ret, Prod.mk.injEq] at h2
      obtain ⟨rfl, rfl⟩ := h2
      exact Sound.same h rfl (.refl _)
    · simp only [Run.pure_eq_ret, Prod.mk.injEq] at h2
      obtain ⟨rfl, rfl⟩ := h2
      exact Sound.same h rfl (.refl _)
  | pushBack w lhs lastOp rhs o t rest =>
    obtain ⟨l, h3, h4⟩ := h
    simp only [BinState.step] at hs
    rcases Keeps.push (b := b) hz h3 (lhs, lastOp) with ⟨w', h5, h6⟩ | ⟨f, h5, -⟩
    · simp only [h5, Run.pure_bind', Run.pure_inj', Prod.mk.injEq] at hs
      obtain ⟨rfl, rfl⟩ := hs
      refine ⟨_, h6, ?_⟩
      rw [List.append_nil]
      refine h4.perm (perm_counts fun a => ?_) (.refl _)
      simp only [BinState.alive, ownedPairs_append, List.count_append, List.count_cons, List.count_nil]
      simp only [ownedPairs, List.flatMap_cons, List.flatMap_nil, List.count_append, List.count_cons, List.count_nil]
      omega
    · simp [h5] at hs
  | push w rhs o t rest =>
    obtain ⟨l, h3, h4⟩ := h
    simp only [BinState.step] at hs
    rcases Keeps.push (b := b) hz h3 (rhs, o) with ⟨w', h5, h6⟩ | ⟨f, h5, -⟩
    · simp only [h5, Run.pure_bind', Run.pure_inj', Prod.mk.injEq] at hs
      obtain ⟨rfl, rfl⟩ := hs
      refine ⟨_, h6, ?_⟩
      rw [List.append_nil]
      refine h4.perm (perm_counts fun a => ?_) (.refl _)
      simp only [BinState.alive, ownedPairs_append, List.count_append, List.count_cons, List.count_nil]
      simp only [ownedPairs, List.flatMap_cons, List.flatMap_nil, List.count_append, List.count_cons, List.count_nil]
      omega
    · simp [h5] at hs
  | combine w lhs lastOp rhs o t rest =>
    simp only [BinState.step, Run.pure_inj', Prod.mk.injEq] at hs
    obtain ⟨rfl, rfl⟩ := hs
    obtain ⟨l, h3, h4⟩ := h
    refine ⟨l, h3, ?_⟩
    rw [List.append_nil]
    refine (Accounts.combine (l := lhs) (o := lastOp) (r := rhs) (vals := drops evs ++ ([.op o, .expr t] ++ ownedPairs l))
      (h4.perm ?_ (.refl _))).perm ?_ (.refl _)
    all_goals
      refine perm_counts fun a => ?_
      simp only [BinState.alive, List.count_append, List.count_cons, List.count_nil]
      omega
  | last w rhs reason rest =>
    obtain ⟨l, h3, h4⟩ := h
    simp only [BinState.step] at hs
    rcases Keeps.pop h3 with ⟨rfl, w', h5, h6⟩ | ⟨l', ⟨lhs, o⟩, rfl, w', h5, h6⟩
    · obtain ⟨h7, w₀, rfl, h8, -, h9⟩ := h6
      obtain ⟨w₂, h10, h11, h12⟩ := exec_dropStack h7 h8 hf h9
      simp only [h5, h10, h12, Run.pure_bind', Run.pure_inj', Prod.mk.injEq] at hs
      obtain ⟨rfl, rfl⟩ := hs
      refine ⟨[], ⟨h11, rfl⟩, ?_⟩
      have : (heldBy (done (rhs, reason) rest) : List (BinVal T Op Expr)) = .expr rhs :: ownedReason reason := by
        cases reason <;> rfl
      simpa [BinState.alive, this, ownedPairs] using h4
    · simp only [h5, Run.pure_bind', Run.pure_inj', Prod.mk.injEq] at hs
      obtain ⟨rfl, rfl⟩ := hs
      refine ⟨l', h6, ?_⟩
      rw [List.append_nil]
      refine h4.perm (perm_counts fun a => ?_) (.refl _)
      simp only [BinState.alive, ownedPairs_append, List.count_append, List.count_cons, List.count_nil]
      simp only [ownedPairs, List.flatMap_cons, List.flatMap_nil, List.count_append, List.count_cons, List.count_nil]
      omega
  | lastCombine w lhs o rhs reason rest =>
    simp only [BinState.step, Run.pure_inj', Prod.mk.injEq] at hs
    obtain ⟨rfl, rfl⟩ := hs
    obtain ⟨l, h3, h4⟩ := h
    refine ⟨l, h3, ?_⟩
    rw [List.append_nil]
    refine (Accounts.combine (l := lhs) (o := o) (r := rhs) (vals := drops evs ++ (ownedReason reason ++ ownedPairs l))
      (h4.perm ?_ (.refl _))).perm ?_ (.refl _)
    all_goals
      refine perm_counts fun a => ?_
      simp only [BinState.alive, List.count_append, List.count_cons, List.count_nil]
      omega
  | ret m res =>
    simp only [BinState.step, Run.pure_inj', Prod.mk.injEq] at hs
    obtain ⟨rfl, rfl⟩ := hs
    exact Sound.same h rfl (.refl _)

theorem reach_sound {mem : Mem (Expr × Op)} (hz : 0 < ty.size) (hf : Fresh mem) {s : S}
    {st : BinState S T Op EOp ETerm Expr} {evs : List (BinEvent T Op Expr)}
    (h : BinReach b ty term op mk ofTerm prec (.first mem s) st evs) : st.Sound ty mk ofTerm mem evs := by
  induction h with
  | refl => exact ⟨[], ⟨rfl, rfl⟩, accounts_nil⟩
  | step _ hs ih => exact step_sound hz hf ih hs

end
end Parcom
