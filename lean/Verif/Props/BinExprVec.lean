import Verif.Lemmas.BinExprVec
import Verif.Props.BinExpr
import Verif.Props.ShortVec
/-!
# C83, C84: the stack of binary expressions
-/
namespace Parcom
open Spec BTree

variable {S T Op EOp ETerm Expr : Type}

theorem spine_reduceAll (stack : List (BTree Op T × Op)) (rhs : BTree Op T) :
    (reduceAll node stack rhs).spine = stack.reverse ++ rhs.spine := by
  induction stack generalizing rhs with
  | nil => rfl
  | cons p stack ih =>
    obtain ⟨l, o⟩ := p
    have := ih (node l o rhs)
    simpa [reduceAll, spine] using this

theorem rightEdge_spine (t : BTree Op T) : t.rightEdge = t.spine.map Prod.snd := by
  induction t with
  | leaf => rfl
  | node l o r _ ih => simp [rightEdge, spine, ih]

section
variable [RewindSequence S] [Operator Op] [ParseError EOp] [ParseError ETerm] {b : Build} {ty : Ty}
  (mk : Expr → Op → Expr → Expr) (ofTerm : T → Expr) (pt : Parser S T ETerm) (po : Parser S Op EOp)

/-- The stack and the operand are those of the declared grouping of what was read. -/
def Spine (v : T) (r : S) (st : List (Expr × Op)) (rhs : Expr) (ps : List (Op × T)) (s : S) : Prop :=
  Chain pt.parse po.parse r ps s ∧ ∃ stack t, st = evalStack mk ofTerm stack ∧ rhs = ofTerm t ∧
    (reduceAll node stack (leaf t)).first = v ∧ (reduceAll node stack (leaf t)).tail = ps ∧
    (BelowMax Op → (reduceAll node stack (leaf t)).Grouped Declared)

omit [RewindSequence S] [ParseError EOp] [ParseError ETerm] in
theorem spine_turn (v : T) (r₀ : S) (st : List (Expr × Op)) (rhs : Expr) (ps : List (Op × T)) (s : S) (o : Op) (r : S)
    (t : T) (s' : S) (h : Spine mk ofTerm pt po v r₀ st rhs ps s) (h1 : po.parse s = pure (.ok o r))
    (h2 : pt.parse r = pure (.ok t s')) :
    (reduceFor b mk o (ofTerm t) st rhs).Ensures fun res =>
      Spine mk ofTerm pt po v r₀ res.1 res.2 (ps ++ [(o, t)]) s' := by
  obtain ⟨hc, stack, t₀, rfl, rfl, hf, ht, hg⟩ := h
  have he := reduceFor_eval b mk ofTerm o t stack (leaf t₀)
  simp only [eval] at he
  rw [he]
  refine Run.ensures_bind fun ⟨stack', rhs'⟩ hres => Run.ensures_pure.mpr ?_
  obtain ⟨h3, -, h4, h5⟩ := reduceFor_order b o t stack (leaf t₀) _ hres
  simp only at h3 h4 h5
  subst h3
  refine ⟨hc.snoc h1 h2, stack', t, rfl, rfl, h4.trans hf, by rw [h5, ht], fun hb => ?_⟩
  have hinv := grouped_inv (T := T) (b := b) (threshold (Op := Op)) (nextPrecedence_threshold hb)
  rw [decided_threshold] at hinv
  exact hinv o t stack t₀ (hg hb) _ hres

/-! ## C83 -/

/-- C83: kept in a `ShortVec`, the stack changes nothing. Whatever the parsers, the operator table, the build, the sizes
of expressions and operators (other than zero) and the state of memory: the parser does what it does on a list, returns
all memory it took, and drops nothing of what it returns; or memory runs out, and then the allocator has refused, or
operators were read that do not fit in half of the address space. -/
theorem C83_same_results (hz : 0 < ty.size) {mem : Mem (Expr × Op)} (hf : Fresh mem) (s : S) :
    (∃ res mem', binExprVec b ty pt po mk ofTerm mem s = pure (res, mem') ∧ (binExpr b pt po mk ofTerm).parse s = pure res ∧
      (∀ q, mem'.blocks q = mem.blocks q) ∧ ((∃ v r, res = .ok v r) → mem'.dropped = mem.dropped)) ∨
    (binExprVec b ty pt po mk ofTerm mem s = Run.diverge ∧ (binExpr b pt po mk ofTerm).parse s = Run.diverge) ∨
    (∃ f, binExprVec b ty pt po mk ofTerm mem s = Run.fault f ∧ (binExpr b pt po mk ofTerm).parse s = Run.fault f) ∨
    (binExprVec b ty pt po mk ofTerm mem s = Run.fault .abort ∧ ∃ k, mem.grants k = false) ∨
    (binExprVec b ty pt po mk ofTerm mem s = Run.fault .assertion ∧ ∃ v r ps s', pt.parse s = pure (.ok v r) ∧
      Chain pt.parse po.parse r ps s' ∧ ¬ allocatable ty (2 * ps.length)) := by
  have := binExprVec_tracks (b := b) (ty := ty) (small := False) (pt := pt) (po := po) (s := s) mk ofTerm hf
    (F := fun f => (f = .abort ∧ ∃ k, mem.grants k = false) ∨ (f = .assertion ∧ ∃ v r ps s', pt.parse s = pure (.ok v r) ∧
      Chain pt.parse po.parse r ps s' ∧ ¬ allocatable ty (2 * ps.length)))
    (fun _ r st _ ps s' => Chain pt.parse po.parse r ps s' ∧ st.length ≤ ps.length) (fun _ _ _ => True)
    (fun v r _ => ⟨.nil r, Nat.le_refl _⟩)
    (fun v r hv => .mk (.inl hz)
      (fun st rhs ps s o r' t s' h h1 h2 res hres => ⟨h.1.snoc h1 h2, by
        have := reduceFor_length b mk o (ofTerm t) st rhs res hres
        have := h.2
        simp only [List.length_append, List.length_singleton]
        omega⟩)
      (fun h => h.elim)
      (fun f st rhs ps s' h _ ho => by
        rcases ho.mono h.2 with h1 | ⟨h1, h2⟩
        · exact .inl h1
        · exact .inr ⟨h1, v, r, ps, s', hv, h.1, h2⟩))
    (fun _ _ _ _ _ _ _ _ _ => trivial)
  rcases this with ⟨h, h' | h'⟩ | ⟨-, h⟩ | ⟨f, h1, ⟨rfl, h2⟩ | ⟨rfl, h2⟩⟩ | h | ⟨⟨res, mem'⟩, c, h1, h2, h3, -, h4⟩
  · exact h'.elim
  · exact .inr (.inl ⟨h, h'⟩)
  · exact h.elim
  · exact .inr (.inr (.inr (.inl ⟨h1, h2⟩)))
  · exact .inr (.inr (.inr (.inr ⟨h1, h2⟩)))
  · exact .inr (.inr (.inl h))
  · simp only at h3 h4
    subst h3
    refine .inl ⟨res, mem', h1, h2, ?_, ?_⟩
    · cases res with
      | ok x y => exact h4.blocks
      | err x y =>
        rcases h4 with ⟨rfl, -⟩ | ⟨_, _, _, -, -, h4⟩
        · exact fun _ => rfl
        · exact h4.blocks
    · rintro ⟨x, y, rfl⟩
      simpa using h4.dropped

/-- C83, failing: what is dropped are the operands still waiting, that is the left operands along the right edge of the
declared grouping of what had been read, each once, from the bottom of the stack. -/
theorem C83_failure_drops (hz : 0 < ty.size) (hb : BelowMax Op) {mem mem' : Mem (Expr × Op)} (hf : Fresh mem) {s : S}
    {e : Either EOp ETerm} {u : UnknownLocation S}
    (h : binExprVec b ty pt po mk ofTerm mem s = pure (.err e u, mem')) :
    (mem' = mem ∧ ∃ e u, pt.parse s = pure (.err e u)) ∨
    ∃ v r ps s' e' u', pt.parse s = pure (.ok v r) ∧ Chain pt.parse po.parse r ps s' ∧ Breaks pt.parse po.parse s' e' u' ∧
      ∃ tree : BTree Op T, tree.first = v ∧ tree.tail = ps ∧ tree.Grouped Declared ∧
        mem'.dropped = mem.dropped ++ tree.spine.map fun p => (p.1.eval mk ofTerm, p.2) := by
  have := binExprVec_tracks (b := b) (ty := ty) (small := False) (pt := pt) (po := po) (s := s) mk ofTerm hf
    (F := fun _ => True) (Spine mk ofTerm pt po)
    (fun v r st => ∃ ps s', (∃ e u, Breaks pt.parse po.parse s' e u) ∧ ∃ rhs, Spine mk ofTerm pt po v r st rhs ps s')
    (fun v r _ => ⟨.nil r, [], v, rfl, rfl, rfl, rfl, fun _ => trivial⟩)
    (fun v r hv => .mk (.inl hz) (spine_turn mk ofTerm pt po v r) (fun h => h.elim) (fun _ _ _ _ _ _ _ _ => trivial))
    (fun v r st rhs ps s' _ h hbr => ⟨ps, s', hbr, rhs, h⟩)
  rw [h] at this
  rcases this with ⟨h, -⟩ | ⟨-, h⟩ | ⟨f, h1, -⟩ | ⟨f, h1, -⟩ | ⟨⟨res, mem''⟩, c, h1, h2, h3, -, h4⟩
  · simp at h
  · exact h.elim
  · simp at h1
  · simp at h1
  · simp at h1
    obtain ⟨rfl, rfl⟩ := h1
    simp only at h3 h4
    subst h3
    rcases h4 with h4 | ⟨v, r, st, hv, ⟨ps, s', ⟨e', u', hbr⟩, rhs, hc, stack, t, rfl, rfl, h5, h6, h7⟩, h8⟩
    · exact .inl h4
    · refine .inr ⟨v, r, ps, s', e', u', hv, hc, hbr, _, h5, h6, h7 hb, ?_⟩
      rw [h8.dropped, spine_reduceAll]
      simp [evalStack, spine]

/-- C83, within the inline buffer: if no more than four operators ever compete for an operand, that is if the right edge
of the declared grouping of anything read is never longer, then the allocator is not asked for anything, and the results
are the same whatever the sizes, zero included. -/
theorem C83_inline (hb : BelowMax Op) {mem : Mem (Expr × Op)} (hf : Fresh mem) {s : S}
    (hd : ∀ v r ps s' (tree : BTree Op T), pt.parse s = pure (.ok v r) → Chain pt.parse po.parse r ps s' →
      tree.first = v → tree.tail = ps → tree.Grouped Declared → tree.rightEdge.length ≤ 4) :
    (∃ res mem', binExprVec b ty pt po mk ofTerm mem s = pure (res, mem') ∧ (binExpr b pt po mk ofTerm).parse s = pure res ∧
      mem'.requests = mem.requests ∧ (∀ q, mem'.blocks q = mem.blocks q) ∧
      ((∃ v r, res = .ok v r) → mem'.dropped = mem.dropped)) ∨
    (binExprVec b ty pt po mk ofTerm mem s = Run.diverge ∧ (binExpr b pt po mk ofTerm).parse s = Run.diverge) ∨
    (∃ f, binExprVec b ty pt po mk ofTerm mem s = Run.fault f ∧ (binExpr b pt po mk ofTerm).parse s = Run.fault f) := by
  have := binExprVec_tracks (b := b) (ty := ty) (small := True) (pt := pt) (po := po) (s := s) mk ofTerm hf
    (F := fun _ => False)
    (fun v r st rhs ps s' => pt.parse s = pure (.ok v r) ∧ Spine mk ofTerm pt po v r st rhs ps s') (fun _ _ _ => True)
    (fun v r hv => ⟨hv, .nil r, [], v, rfl, rfl, rfl, rfl, fun _ => trivial⟩)
    (fun v r hv => .mk (.inr trivial)
      (fun st rhs ps s o r' t s' h h1 h2 res hres => ⟨hv, spine_turn mk ofTerm pt po v r st rhs ps s o r' t s' h.2 h1 h2 res hres⟩)
      (fun _ st rhs ps s' h => by
        obtain ⟨-, hc, stack, t, rfl, rfl, h5, h6, h7⟩ := h
        have := hd v r ps s' _ hv hc h5 h6 (h7 hb)
        rw [rightEdge_spine, spine_reduceAll] at this
        simpa [evalStack, spine] using this)
      (fun _ _ _ _ _ _ h _ => h trivial))
    (fun _ _ _ _ _ _ _ _ _ => trivial)
  rcases this with ⟨h, h' | h'⟩ | ⟨-, h⟩ | ⟨f, h1, h⟩ | h | ⟨⟨res, mem'⟩, c, h1, h2, h3, h5, h4⟩
  · exact h'.elim
  · exact .inr (.inl ⟨h, h'⟩)
  · exact h.elim
  · exact h.elim
  · exact .inr (.inr h)
  · simp only at h3 h4
    subst h3
    refine .inl ⟨res, mem', h1, h2, h5 trivial, ?_, ?_⟩
    · cases res with
      | ok x y => exact h4.blocks
      | err x y =>
        rcases h4 with ⟨rfl, -⟩ | ⟨_, _, _, -, -, h4⟩
        · exact fun _ => rfl
        · exact h4.blocks
    · rintro ⟨x, y, rfl⟩
      simpa using h4.dropped

omit [RewindSequence S] [ParseError EOp] [ParseError ETerm] in
/-- C83, and this is so for left-associative operators of at most four levels. -/
theorem C83_four_levels (hl : ∀ o : Op, associativity o = .left) (levels : List Nat) (h4 : levels.length ≤ 4)
    (hlev : ∀ o : Op, precedence o ∈ levels) (tree : BTree Op T) (hg : tree.Grouped Declared) :
    tree.rightEdge.length ≤ 4 := by
  have hp : ∀ tree : BTree Op T, tree.Grouped Declared → (tree.rightEdge.map precedence).Pairwise (· < ·) := by
    intro tree
    induction tree with
    | leaf => intro _; simp [rightEdge]
    | node l o r _ ihr =>
      intro hg
      have hro : ∀ o' ∈ r.rightEdge, precedence o < precedence o' := by
        obtain ⟨-, hr, -, he⟩ := hg
        have hedge : ∀ r : BTree Op T, r.Grouped Declared → (∀ o' ∈ r.leftEdge, ¬ Declared o o') →
            ∀ o' ∈ r.rightEdge, precedence o < precedence o' := by
          intro r
          induction r with
          | leaf => intro _ _ o' h; simp [rightEdge] at h
          | node l' o₁ r' _ ih =>
            intro hr he
            have h1 : precedence o < precedence o₁ := by
              have := he o₁ (by simp [leftEdge])
              simp only [Declared, hl o, not_or, and_true] at this
              omega
            intro o' ho'
            simp [rightEdge] at ho'
            rcases ho' with rfl | ho'
            · exact h1
            · refine ih hr.2.1 ?_ o' ho'
              intro o₂ ho₂ hdec
              have h2 := hr.2.2.2 o₂ ho₂
              simp only [Declared, hl o, hl o₁, and_true] at hdec h2
              omega
        exact hedge r hr he
      simp only [rightEdge, List.map_cons, List.pairwise_cons, List.mem_map, forall_exists_index, and_imp]
      exact ⟨fun _ o' ho' he => he ▸ hro o' ho', ihr hg.2.1⟩
  have hnodup : (tree.rightEdge.map precedence).Nodup := (hp tree hg).imp fun h => Nat.ne_of_lt h
  have hsub : tree.rightEdge.map precedence ⊆ levels := by
    intro n hn
    simp at hn
    obtain ⟨o, -, rfl⟩ := hn
    exact hlev o
  have := hnodup.length_le_of_subset hsub
  simp at this
  omega

/-! ## C84 -/

omit [RewindSequence S] [Operator Op] [ParseError EOp] [ParseError ETerm] in
/-- A fifth element of size zero. -/
theorem push_fifth {α : Type} {w : World α} {l : List α} (h : VecRel ty w.mem w.vec l) (hz : ty.size = 0)
    (hn : w.vec.n = 4) (hl : l.length = 4) (item : α) : w.exec (push b ty item) = Run.fault .ub := by
  have hcap : w.vec.cap = 4 := by
    rcases h.place with ⟨h1, -⟩ | ⟨-, -, h1, -⟩ <;> omega
  have hlen : w.vec.len = 4 := by rw [h.len, hl]
  have h1 : 8 ≤ isizeMax := by decide
  have h2 : 8 ≤ usizeMax := by decide
  have ha : addUsize b w.vec.len 1 w = (.ok 5, w) := by
    simp only [addUsize, hlen]; rw [if_pos (by omega)]; rfl
  have hm : mulUsize b w.vec.cap 2 w = (.ok 8, w) := by
    simp only [mulUsize, hcap]; rw [if_pos (by omega)]; rfl
  have hlay : layoutArray ty 8 w = (.ok 0, w) := by simp [layoutArray, hz]
  have hal : onMem (Mem.alloc 0) w = (.error .ub, w) := by simp [onMem, Mem.alloc]
  have hr : reserve b ty 5 w = (.error .ub, w) := by
    unfold reserve
    simp only [Act.get_bind_run]
    rw [if_neg (by omega), Act.bind_ok hm]
    unfold reserveExact
    rw [if_pos (by omega)]
    simp only [Act.get_bind_run]
    rw [if_neg (by omega)]
    rw [show max 8 5 = 8 from rfl, Act.bind_ok hlay, if_neg (by simp [SVec.isHeap, hcap, hn]), Act.bind_error hal]
  have hu : Act.onUnwind (do let len ← addUsize b w.vec.len 1; reserve b ty len) (World.drop item) w = (.error .ub, w) := by
    unfold Act.onUnwind
    rw [Act.bind_ok ha, hr]
    rfl
  unfold World.exec push
  simp only [Act.get_bind_run]
  rw [Act.bind_error hu]

omit [RewindSequence S] [ParseError EOp] [ParseError ETerm] in
/-- The inner loop that leaves a fifth. -/
theorem reduceForVec_fifth (hz : ty.size = 0) (o : Op) (t : Expr) {st st' : List (Expr × Op)} {rhs rhs' : Expr}
    {w : World (Expr × Op)} (h : VecRel ty w.mem w.vec st.reverse) (hf : Fresh w.mem) (hn : w.vec.n = 4)
    (hl : st.length ≤ 4) (hred : reduceFor b mk o t st rhs = pure (st', rhs')) (hl' : 4 < st'.length) :
    reduceForVec b ty mk o t w rhs = Run.fault .ub := by
  cases st with
  | nil =>
    simp [reduceFor, Run.pure_eq] at hred
    rw [← hred.1] at hl'
    simp at hl'
  | cons p st =>
    obtain ⟨lhs, lastOp⟩ := p
    rw [reduceFor, Run.bind_eq_pure] at hred
    obtain ⟨prec, h1, h2⟩ := hred
    by_cases hp : precedence o ≥ prec
    · rw [if_pos hp] at h2
      simp [Run.pure_eq] at h2
      rw [← h2.1] at hl'
      simp at hl hl'
      obtain ⟨w₁, h3, h4, h5, h6⟩ := exec_pop h hf
      have hl1 : ((lhs, lastOp) :: st).reverse.getLast? = some (lhs, lastOp) := by simp
      have hd : ((lhs, lastOp) :: st).reverse.dropLast = st.reverse := by simp
      rw [hd] at h4
      rw [hl1] at h3
      rw [reduceForVec, h3]
      simp only [Run.pure_bind', h1, Run.ret_bind]
      rw [if_pos hp]
      rcases exec_push (b := b) h4 h5.fresh (lhs, lastOp) (h5.sameN.trans hn) (.inr (by simp; omega)) with
        ⟨w₂, h7, h8, h9, -⟩ | ⟨f, -, -, h8⟩
      · simp only [h7, Run.pure_bind', push_fifth h8 hz (h9.sameN.trans (h5.sameN.trans hn)) (by simp; omega),
          Run.fault_bind]
      · simp at h8; omega
    · rw [if_neg hp] at h2
      have := reduceFor_length b mk o t st _ _ h2
      simp at this hl
      omega

/-- The outer loop along a chain that comes to a fifth. -/
theorem loopVec_fifth (hz : ty.size = 0) (hb : BelowMax Op) {s s' : S} {ps : List (Op × T)}
    (h : Chain pt.parse po.parse s ps s') :
    ∀ (w : World (Expr × Op)) (stack : List (BTree Op T × Op)) (t : T),
      VecRel ty w.mem w.vec (evalStack mk ofTerm stack).reverse → Fresh w.mem → w.vec.n = 4 → stack.length ≤ 4 →
      (reduceAll node stack (leaf t)).Grouped Declared →
      ∀ tree : BTree Op T, tree.Grouped Declared → tree.first = (reduceAll node stack (leaf t)).first →
        tree.tail = (reduceAll node stack (leaf t)).tail ++ ps → 4 < tree.rightEdge.length →
        binExprLoopVec b ty pt.parse po.parse mk ofTerm 0 w (ofTerm t) s = Run.fault .ub := by
  induction h with
  | nil s =>
    intro w stack t _ _ _ hl hg tree hg' hf ht hlen
    have := BTree.unique hg' hg hf (by simpa using ht)
    rw [this, rightEdge_spine, spine_reduceAll] at hlen
    simp [spine] at hlen
    omega
  | @cons s r s₁ s₂ o v ps h1 h2 _ ih =>
    intro w stack t hv hfr hn hl hg tree hg' hf ht hlen
    rw [binExprLoopVec, h1]
    simp only [Run.pure_bind', ge_iff_le, Nat.zero_le, if_true, h2]
    have hpure := reduceFor_pure (b := b) (np := threshold) o v stack (fun p _ => nextPrecedence_threshold hb p.2) (leaf t)
    obtain ⟨-, -, h4, h5⟩ := reduceFor_order b o v stack (leaf t) _ hpure
    have hinv := grouped_inv (T := T) (b := b) (threshold (Op := Op)) (nextPrecedence_threshold hb)
    rw [decided_threshold] at hinv
    have hg1 := hinv o v stack t hg _ hpure
    have he := reduceFor_eval b mk ofTerm o v stack (leaf t)
    simp only [eval, hpure, Run.pure_bind'] at he
    by_cases hl' : (reducePure threshold o stack (leaf t)).length ≤ 4
    · have hsim := reduceForVec_tracks (b := b) mk o (ofTerm v) (F := fun _ => False) (small := True) (.inr trivial)
        w.mem.grants _ w (ofTerm t) hv hfr hn rfl (fun _ _ _ h _ => h trivial)
        (fun _ res hres => by
          rw [he] at hres
          simp at hres
          rw [← hres]
          simpa [evalStack] using hl')
      rw [he] at hsim
      rcases hsim with ⟨-, h | h⟩ | ⟨-, h⟩ | ⟨f, -, h⟩ | ⟨f, -, h⟩ | ⟨⟨w', e⟩, ⟨st', e'⟩, h6, h7, h8, h9, h10, -⟩
      · exact h.elim
      · simp at h
      · exact h.elim
      · exact h.elim
      · simp at h
      · simp at h7 h8
        obtain ⟨rfl, rfl⟩ := h7
        subst h8
        rw [h6]
        simp only [Run.pure_bind']
        refine ih w' _ v h9 h10.fresh (h10.sameN.trans hn) hl' hg1 tree hg' (hf.trans h4.symm) ?_ hlen
        rw [ht]
        simp only at h5
        rw [h5]
        simp
    · rw [reduceForVec_fifth mk hz o (ofTerm v) hv hfr hn (by simpa [evalStack] using hl) he (by simp [evalStack]; omega),
        Run.fault_bind]

/-- C84, exactly: with expressions and operators of size zero, parsing is undefined behaviour as soon as five operators
compete for an operand: the stack asks the allocator for zero bytes. -/
theorem C84_exact (hz : ty.size = 0) (hb : BelowMax Op) {mem : Mem (Expr × Op)} (hf : Fresh mem) {s r s' : S} {v : T}
    {ps : List (Op × T)} (h1 : pt.parse s = pure (.ok v r)) (h2 : Chain pt.parse po.parse r ps s') (tree : BTree Op T)
    (hfirst : tree.first = v) (htail : tree.tail = ps) (hg : tree.Grouped Declared) (hlen : 4 < tree.rightEdge.length) :
    binExprVec b ty pt po mk ofTerm mem s = Run.fault .ub := by
  obtain ⟨vec, h3, h4, h5, -⟩ := new_rel (ty := ty) (mem := mem)
  unfold binExprVec binExprImplVec
  simp only [h1, Run.pure_bind', h3]
  rw [loopVec_fifth (b := b) mk ofTerm pt po hz hb h2 { vec := vec, mem := mem } [] v h4 hf h5 (by simp) trivial tree hg hfirst
    (by simpa [reduceAll, tail] using htail) hlen]
  rfl

/-- C84, what is true: no undefined behaviour of its own, unless the pairs of expression and operator have size zero and
more than four operators compete for an operand. Missing: that case, in which the statement is false. -/
theorem C84_partial [RewindLaw S] (hb : BelowMax Op) {mem : Mem (Expr × Op)} (hf : Fresh mem) {s : S}
    (h : 0 < ty.size ∨ ∀ v r ps s' (tree : BTree Op T), pt.parse s = pure (.ok v r) → Chain pt.parse po.parse r ps s' →
      tree.first = v → tree.tail = ps → tree.Grouped Declared → tree.rightEdge.length ≤ 4)
    (htd : Descends pt.parse) (hod : Descends po.parse) (ht : ∀ s, pt.parse s ≠ Run.fault .ub)
    (ho : ∀ s, po.parse s ≠ Run.fault .ub) :
    binExprVec b ty pt po mk ofTerm mem s ≠ Run.fault .ub := by
  have hlist := C40_no_panic_lawful b mk ofTerm pt po hb htd hod .ub ht ho s
  intro hub
  rcases h with h | h
  · rcases C83_same_results (b := b) mk ofTerm pt po h hf s with
      ⟨_, _, h1, -⟩ | ⟨h1, -⟩ | ⟨f, h1, h2⟩ | ⟨h1, -⟩ | ⟨h1, -⟩ <;> rw [hub] at h1 <;> simp at h1
    subst h1
    exact hlist h2
  · rcases C83_inline (b := b) (ty := ty) mk ofTerm pt po hb hf h with
      ⟨_, _, h1, -⟩ | ⟨h1, -⟩ | ⟨f, h1, h2⟩ <;> rw [hub] at h1 <;> simp at h1
    subst h1
    exact hlist h2

end

/-- C84 in full: for all types of expressions and operators. -/
def C84Statement : Prop :=
  ∀ {S T Op EOp ETerm Expr : Type} [RewindSequence S] [RewindLaw S] [Operator Op] [ParseError EOp] [ParseError ETerm]
    (b : Build) (ty : Ty) (mk : Expr → Op → Expr → Expr) (ofTerm : T → Expr) (pt : Parser S T ETerm)
    (po : Parser S Op EOp) (mem : Mem (Expr × Op)), BelowMax Op → Fresh mem → Descends pt.parse → Descends po.parse →
    (∀ s, pt.parse s ≠ Run.fault .ub) → (∀ s, po.parse s ≠ Run.fault .ub) →
    ∀ s : S, binExprVec b ty pt po mk ofTerm mem s ≠ Run.fault .ub

/-! ### Concrete expressions -/

/-- A right-associative operator. -/
structure Arrow where

instance : Operator Arrow where
  precedence _ := 3
  associativity _ := .right

/-- `>` -/
def arrowOp : Parser StrRef Arrow (Miss Unit) := (theChar '>').map fun _ => ⟨⟩

theorem arrowOp_descends : Descends arrowOp.parse := by
  have hd := (tidy_iff.mp (tidy_theChar (S := StrRef) '>')).1
  constructor
  · intro s v r h
    simp only [arrowOp, Parser.map, Run.bind_eq_pure] at h
    obtain ⟨⟨v', r'⟩ | ⟨e, u⟩, h1, h2⟩ := h
    · simp [Run.pure_eq] at h2; rw [← h2]; exact hd.ok h1
    · simp [Run.pure_eq] at h2
  · intro s e u h
    simp only [arrowOp, Parser.map, Run.bind_eq_pure] at h
    obtain ⟨⟨v', r'⟩ | ⟨e', u'⟩, h1, h2⟩ := h
    · simp [Run.pure_eq] at h2
    · simp [Run.pure_eq] at h2; rw [← h2.2]; exact hd.err h1

theorem arrow_belowMax : BelowMax Arrow := fun _ => ⟨(by decide : 3 ≤ usizeMax), fun h => by simp [associativity] at h⟩

/-- `>x>x…` -/
def arrowTail : Nat → List Char
  | 0 => []
  | n + 1 => '>' :: 'x' :: arrowTail n

/-- `x>x>x…` with `n` arrows. -/
def arrows (n : Nat) : StrRef := { alloc := 1, off := 0, text := ⟨'x' :: arrowTail n⟩ }

/-- The two parsers succeed in turn on it. -/
theorem arrows_chain (n : Nat) : ∀ s : StrRef, content s = arrowTail n →
    ∃ s', Chain xTerm.parse arrowOp.parse s (List.replicate n (⟨⟩, ())) s' ∧
      NoMore xTerm.parse arrowOp.parse s' (.first ⟨()⟩) := by
  induction n with
  | zero =>
    intro s hs
    obtain ⟨u, h6, _⟩ := (C10_the_char '>' s).2 (by rw [hs]; simp [arrowTail])
    exact ⟨s, .nil s, .op (u := u) (by simp [arrowOp, Parser.map, h6]) rfl⟩
  | succ n ih =>
    intro s hs
    obtain ⟨r, h1, c1⟩ := (C10_the_char '>' s).1 ('x' :: arrowTail n) hs
    obtain ⟨s₁, h2, c2⟩ := (C10_the_char 'x' r).1 (arrowTail n) c1
    obtain ⟨s', h3, h4⟩ := ih s₁ c2
    exact ⟨s', .cons (by simp [arrowOp, Parser.map, h1]) h2 h3, h4⟩

/-- Grouped to the right. -/
def arrowTree : Nat → BTree Arrow Unit
  | 0 => .leaf ()
  | n + 1 => .node (.leaf ()) ⟨⟩ (arrowTree n)

theorem arrowTree_spec (n : Nat) : (arrowTree n).tail = List.replicate n (⟨⟩, ()) ∧ (arrowTree n).Grouped Declared ∧
    (arrowTree n).rightEdge.length = n := by
  induction n with
  | zero => exact ⟨rfl, trivial, rfl⟩
  | succ n ih =>
    refine ⟨by simp [arrowTree, tail, ih.1, List.replicate_succ], ⟨trivial, ih.2.1, by simp [rightEdge], ?_⟩,
      by simp [arrowTree, rightEdge, ih.2.2]⟩
    intro o _ h
    rcases h with h | ⟨-, h⟩
    · exact Nat.lt_irrefl 3 h
    · simp [associativity] at h

theorem xTerm_no_ub (s : StrRef) : xTerm.parse s ≠ Run.fault .ub := by
  intro h
  by_cases hc : (content s).head? = some 'x'
  · obtain ⟨cs, hcs⟩ := List.head?_eq_some_iff.mp hc
    obtain ⟨r, h1, _⟩ := (C10_the_char 'x' s).1 cs hcs
    simp [xTerm, h1] at h
  · obtain ⟨u, h1, _⟩ := (C10_the_char 'x' s).2 hc
    simp [xTerm, h1] at h

theorem arrowOp_no_ub (s : StrRef) : arrowOp.parse s ≠ Run.fault .ub := by
  intro h
  by_cases hc : (content s).head? = some '>'
  · obtain ⟨cs, hcs⟩ := List.head?_eq_some_iff.mp hc
    obtain ⟨r, h1, _⟩ := (C10_the_char '>' s).1 cs hcs
    simp [arrowOp, Parser.map, h1] at h
  · obtain ⟨u, h1, _⟩ := (C10_the_char '>' s).2 hc
    simp [arrowOp, Parser.map, h1] at h

/-- `x>x>x>x>x>x`, recognised by a parser whose expressions and operators carry no data. -/
theorem six_terms (b : Build) (mem : Mem (Unit × Arrow)) (hf : Fresh mem) :
    binExprVec b ⟨0, 1⟩ xTerm arrowOp (fun _ _ _ => ()) (fun _ => ()) mem (arrows 5) = Run.fault .ub := by
  obtain ⟨r, h1, c1⟩ := (C10_the_char 'x' (arrows 5)).1 (arrowTail 5) rfl
  obtain ⟨s', h2, -⟩ := arrows_chain 5 r c1
  obtain ⟨h3, h4, h5⟩ := arrowTree_spec 5
  exact C84_exact _ _ xTerm arrowOp rfl arrow_belowMax hf h1 h2 (arrowTree 5) rfl h3 h4 (by omega)

/-- C84 does not hold: recognising `x>x>x>x>x>x` with a right-associative `>`, where neither expressions nor operators
carry data, is undefined behaviour. -/
theorem C84_false : ¬ C84Statement := by
  intro h
  exact h .checked ⟨0, 1⟩ (fun _ _ _ => ()) (fun _ => ()) xTerm arrowOp Mem.blank arrow_belowMax (fun _ _ => rfl)
    xTerm_descends arrowOp_descends xTerm_no_ub arrowOp_no_ub (arrows 5) (six_terms _ _ fun _ _ => rfl)

/-- Non-vacuity of C83: with trees as expressions and a stack that has to move to the heap, the tree comes out, and memory
is as before. -/
example (b : Build) : ∃ rest mem', binExprVec b ⟨8, 8⟩ xTerm arrowOp BTree.node BTree.leaf Mem.blank (arrows 5) =
    pure (.ok (arrowTree 5, .first ⟨()⟩) rest, mem') ∧ (∀ q, mem'.blocks q = none) ∧ mem'.dropped = [] := by
  obtain ⟨r, h1, c1⟩ := (C10_the_char 'x' (arrows 5)).1 (arrowTail 5) rfl
  obtain ⟨s', h2, h2'⟩ := arrows_chain 5 r c1
  obtain ⟨h3, h4, h5⟩ := arrowTree_spec 5
  have hlist := C38_returns_it b BTree.node BTree.leaf xTerm arrowOp arrow_belowMax xTerm_descends arrowOp_descends h1 h2 h2'
    (arrowTree 5) rfl h3 h4
  rcases C83_same_results (b := b) (ty := ⟨8, 8⟩) BTree.node BTree.leaf xTerm arrowOp (by decide) (mem := Mem.blank)
    (fun _ _ => rfl) (arrows 5) with ⟨res, mem', h6, h7, h8, h9⟩ | ⟨-, h7⟩ | ⟨f, -, h7⟩ | ⟨-, k, h7⟩ | ⟨-, v, r', ps, s'', h7, h8, h9⟩
  · rw [hlist] at h7
    simp at h7
    subst h7
    exact ⟨s', mem', h6, h8, h9 ⟨_, _, rfl⟩⟩
  · rw [hlist] at h7; simp at h7
  · rw [hlist] at h7; simp at h7
  · simp [Mem.blank] at h7
  · exfalso
    have hlen : ∀ {s ps s'}, Chain xTerm.parse arrowOp.parse s ps s' → 2 * ps.length ≤ (content s).length := by
      intro s ps s' h
      induction h with
      | nil => simp
      | @cons s r s₁ s₂ o v ps h1 h2 _ ih =>
        have e1 : 1 + (content r).length ≤ (content s).length := by
          by_cases hc : (content s).head? = some '>'
          · obtain ⟨cs, hcs⟩ := List.head?_eq_some_iff.mp hc
            obtain ⟨r', h3, c3⟩ := (C10_the_char '>' s).1 cs hcs
            simp [arrowOp, Parser.map, h3] at h1
            rw [← h1, c3, hcs]; simp; omega
          · obtain ⟨u, h3, _⟩ := (C10_the_char '>' s).2 hc
            simp [arrowOp, Parser.map, h3] at h1
        have e2 : 1 + (content s₁).length ≤ (content r).length := by
          by_cases hc : (content r).head? = some 'x'
          · obtain ⟨cs, hcs⟩ := List.head?_eq_some_iff.mp hc
            obtain ⟨r', h3, c3⟩ := (C10_the_char 'x' r).1 cs hcs
            simp [xTerm, h3] at h2
            rw [← h2, c3, hcs]; simp; omega
          · obtain ⟨u, h3, _⟩ := (C10_the_char 'x' r).2 hc
            simp [xTerm, h3] at h2
        simp only [List.length_cons]
        omega
    have hr : (content r').length = 10 := by
      rw [show xTerm.parse (arrows 5) = _ from h1] at h7
      simp at h7
      rw [← h7, c1]; rfl
    have := hlen h8
    apply h9
    have h10 : 80 ≤ isizeMax - 7 := by decide
    refine ⟨?_, ?_⟩
    · omega
    · show 8 * (2 * ps.length) ≤ isizeMax - 7
      omega

/-- Non-vacuity of C84: the same expression, where expressions or operators have a size. -/
example (b : Build) (ty : Ty) (hz : 0 < ty.size) (mem : Mem (Unit × Arrow)) (hf : Fresh mem) :
    binExprVec b ty xTerm arrowOp (fun _ _ _ => ()) (fun _ => ()) mem (arrows 5) ≠ Run.fault .ub :=
  C84_partial _ _ _ _ arrow_belowMax hf (.inl hz) xTerm_descends arrowOp_descends xTerm_no_ub arrowOp_no_ub

/-- Non-vacuity of C83 within the inline buffer: one left-associative level. -/
example (b : Build) (ty : Ty) (mem : Mem (BTree (Minus 3) Unit × Minus 3)) (hf : Fresh mem) :
    ∃ reason rest mem', binExprVec b ty xTerm (minusOp 3) BTree.node BTree.leaf mem threeTerms =
      pure (.ok (.node (.node (.leaf ()) ⟨⟩ (.leaf ())) ⟨⟩ (.leaf ()), reason) rest, mem') ∧
      mem'.requests = mem.requests := by
  have hbm : BelowMax (Minus 3) := fun o => ⟨(by decide : 3 ≤ usizeMax), fun _ => (by decide : 3 < usizeMax)⟩
  obtain ⟨r, r₁, s₁, r₂, s₂, reason, h1, h2, h3, h4, h5, h6⟩ := threeTerms_chain 3
  have hlist := C38_returns_it b BTree.node BTree.leaf xTerm (minusOp 3) hbm xTerm_descends
    (minusOp_descends 3) h1 (.cons h2 h3 (.cons h4 h5 (.nil _))) h6
    (.node (.node (.leaf ()) ⟨⟩ (.leaf ())) ⟨⟩ (.leaf ())) rfl rfl (by simp [Grouped, rightEdge, leftEdge, Declared,
      associativity])
  rcases C83_inline (b := b) (ty := ty) BTree.node BTree.leaf xTerm (minusOp 3) hbm hf (s := threeTerms)
    (fun v r ps s' tree _ _ _ _ hg => C83_four_levels (fun _ => rfl) [3] (by simp) (fun _ => by simp [precedence]) tree hg) with
    ⟨res, mem', h7, h8, h9, -⟩ | ⟨-, h8⟩ | ⟨f, -, h8⟩
  · rw [hlist] at h8
    simp at h8
    subst h8
    exact ⟨reason, s₂, mem', by simpa [eval] using h7, h9⟩
  · rw [hlist] at h8; simp at h8
  · rw [hlist] at h8; simp at h8

/-- `x`, and nothing else will do. -/
def xFatal : Parser StrRef Unit (Fatal Unit) := xTerm.mapErr fun _ => ⟨()⟩

/-- Non-vacuity of C83, failing: in `x>x>` the operand that is missing is fatal, and the one that waits is dropped. -/
example (b : Build) : ∃ e u mem', binExprVec b ⟨8, 8⟩ xFatal arrowOp BTree.node BTree.leaf
    Mem.blank ({ alloc := 1, off := 0, text := ⟨['x', '>', 'x', '>']⟩ } : StrRef) = pure (.err e u, mem') ∧
    mem'.dropped = [(.leaf (), ⟨⟩)] := by
  obtain ⟨r, h1, c1⟩ := (C10_the_char 'x' ({ alloc := 1, off := 0, text := ⟨['x', '>', 'x', '>']⟩ } : StrRef)).1 ['>', 'x', '>'] rfl
  obtain ⟨r₁, h2, c2⟩ := (C10_the_char '>' r).1 ['x', '>'] c1
  obtain ⟨s₁, h3, c3⟩ := (C10_the_char 'x' r₁).1 ['>'] c2
  obtain ⟨r₂, h4, c4⟩ := (C10_the_char '>' s₁).1 [] c3
  obtain ⟨u, h5, _⟩ := (C10_the_char 'x' r₂).2 (by rw [c4]; simp)
  have e1 : xFatal.parse ({ alloc := 1, off := 0, text := ⟨['x', '>', 'x', '>']⟩ } : StrRef) = pure (.ok () r) := by
    simp [xFatal, xTerm, Parser.mapErr, h1]
  have e2 : arrowOp.parse r = pure (.ok ⟨⟩ r₁) := by simp [arrowOp, Parser.map, h2]
  have e3 : xFatal.parse r₁ = pure (.ok () s₁) := by simp [xFatal, xTerm, Parser.mapErr, h3]
  have e4 : arrowOp.parse s₁ = pure (.ok ⟨⟩ r₂) := by simp [arrowOp, Parser.map, h4]
  have e5 : xFatal.parse r₂ = pure (.err ⟨()⟩ u) := by simp [xFatal, xTerm, Parser.mapErr, h5]
  refine ⟨.last ⟨()⟩, u, ?_⟩
  unfold binExprVec binExprImplVec
  rw [e1, Run.pure_bind', show SVec.withCapacity ⟨8, 8⟩ 4 0 (Mem.blank : Mem (BTree Arrow Unit × Arrow)) = (.ok { n := 4, cap := 4, len := 0, data := .stack fun _ => none }, Mem.blank) from rfl]
  simp only
  rw [binExprLoopVec, e2]
  simp only [Run.pure_bind', ge_iff_le, Nat.zero_le, if_true, e3]
  rw [reduceForVec]
  let v₀ : SVec (BTree Arrow Unit × Arrow) := { n := 4, cap := 4, len := 0, data := .stack fun _ => none }
  have hp : World.exec { vec := v₀, mem := Mem.blank } (pop ⟨8, 8⟩) = pure (none, { vec := v₀, mem := Mem.blank }) := rfl
  have hq : ∃ w, World.exec { vec := v₀, mem := Mem.blank } (push b ⟨8, 8⟩ (leaf (), ⟨⟩)) = pure ((), w) ∧
      VecRel ⟨8, 8⟩ w.mem w.vec [(leaf (), ⟨⟩)] ∧ w.mem.dropped = [] := by
    obtain ⟨vec, h6, h7, h8, -⟩ := new_rel (ty := ⟨8, 8⟩) (mem := (Mem.blank : Mem (BTree Arrow Unit × Arrow)))
    have hv : vec = v₀ := by
      have : SVec.withCapacity ⟨8, 8⟩ 4 0 (Mem.blank : Mem (BTree Arrow Unit × Arrow)) = (.ok v₀, Mem.blank) := rfl
      rw [this] at h6
      simp at h6
      exact h6.symm
    subst hv
    rcases exec_push (b := b) (w := { vec := v₀, mem := Mem.blank }) h7 (fun _ _ => rfl) (leaf (), ⟨⟩) rfl
      (.inr (by simp)) with ⟨w, h9, h10, -, h11, -⟩ | ⟨f, -, -, h⟩
    · exact ⟨w, h9, h10, h11⟩
    · simp at h
  obtain ⟨w, h6, h7, h8⟩ := hq
  obtain ⟨w', h9, h10, -⟩ := dropVec_rel h7
  rw [hp, Run.pure_bind']
  simp only [h6, Run.pure_bind']
  rw [binExprLoopVec, e4]
  simp only [Run.pure_bind', ge_iff_le, Nat.zero_le, if_true, e5]
  refine ⟨w'.mem, ?_, by rw [h10, h8]; rfl⟩
  simp [shouldTerminate, leaveVec, World.exec, h9, fail]

end Parcom
