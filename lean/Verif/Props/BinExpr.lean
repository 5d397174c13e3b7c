import Verif.Lemmas.Grouping
import Verif.Props.Primitive
import Verif.Lemmas.Descends
import Verif.Model.Combinator
/-!
# C36 to C41: binary expressions
-/
namespace Parcom
open Spec BTree

variable {S T Op EOp ETerm Expr : Type}

section
variable [RewindSequence S] [L : RewindLaw S] [Operator Op] [ParseError EOp] [ParseError ETerm] (b : Build)
  {term : S → Run (PResult S T ETerm)} {op : S → Run (PResult S Op EOp)} (mk : Expr → Op → Expr → Expr)
  (ofTerm : T → Expr)

/-- Whatever the loop returns, successes of the two parsers in turn explain it, and the tree lists them. `Inv` is any
property of trees that the inner loop keeps. -/
theorem binExprLoop_sound (ht : Descends term) (ho : Descends op) (Inv : BTree Op T → Prop)
    (hinv : ∀ o t' stack t, Inv (reduceAll node stack (leaf t)) →
      (reduceFor b node o (leaf t') stack (leaf t)).Ensures fun res => Inv (reduceAll node res.1 (leaf t')))
    (stack : List (BTree Op T × Op)) (t : T) (s : S) (h0 : Inv (reduceAll node stack (leaf t))) :
    (binExprLoop b term op mk ofTerm 0 (evalStack mk ofTerm stack) (ofTerm t) s).Ensures fun res =>
      ∃ ps s', Chain term op s ps s' ∧
        ((∃ reason tree, NoMore term op s' reason ∧ tree.first = (reduceAll node stack (leaf t)).first ∧
            tree.tail = (reduceAll node stack (leaf t)).tail ++ ps ∧ Inv tree ∧
            res = .ok (tree.eval mk ofTerm, .error reason) s') ∨
         (∃ e u, Breaks term op s' e u ∧ res = .err e u)) := by
  suffices H : ∀ st rhs s, (binExprLoop b term op mk ofTerm 0 st rhs s).Ensures fun res => ∀ stack t,
      st = evalStack mk ofTerm stack → rhs = ofTerm t → Inv (reduceAll node stack (leaf t)) →
      ∃ ps s', Chain term op s ps s' ∧
        ((∃ reason tree, NoMore term op s' reason ∧ tree.first = (reduceAll node stack (leaf t)).first ∧
            tree.tail = (reduceAll node stack (leaf t)).tail ++ ps ∧ Inv tree ∧
            res = .ok (tree.eval mk ofTerm, .error reason) s') ∨
         (∃ e u, Breaks term op s' e u ∧ res = .err e u)) from
    fun res hres => H _ _ s res hres stack t rfl rfl h0
  clear h0 stack t s
  refine binExprLoop.fixpoint_induct (b := b) (parserTerm := term) (parserOp := op) (mk := mk) (ofTerm := ofTerm)
    (prec := 0) (motive := fun g => ∀ st rhs s, Run.Ensures (g st rhs s) _) (Run.admissible_ensures₃ _) ?_
  intro g ih st rhs s
  refine Run.ensures_bind fun res h => ?_
  cases res with
  | ok o r =>
    refine Run.ensures_ite (fun _ => ?_) (fun hp => absurd (Nat.zero_le _) hp)
    refine Run.ensures_bind fun res h' => ?_
    cases res with
    | ok v r' =>
      refine Run.ensures_bind fun ⟨st', rhs'⟩ hred => ?_
      intro res hres stack t hst hrhs hI
      subst hst hrhs
      have hred : reduceFor b mk o (ofTerm v) (evalStack mk ofTerm stack) ((leaf t).eval mk ofTerm) = _ := hred
      rw [reduceFor_eval, Run.bind_eq_pure] at hred
      obtain ⟨⟨stack', rhs''⟩, h1, h2⟩ := hred
      obtain ⟨h3, -, h4, h5⟩ := reduceFor_order b o v stack (leaf t) _ h1
      have h6 := hinv o v stack t hI _ h1
      simp only at h3 h4 h5 h6
      subst h3
      simp [Run.pure_eq] at h2
      obtain ⟨h7, h8⟩ := h2
      obtain ⟨ps, s', hc, hd⟩ := ih _ _ _ res hres stack' v h7.symm h8.symm h6
      refine ⟨(o, v) :: ps, s', .cons h h' hc, ?_⟩
      rcases hd with ⟨reason, tree, h9, h10, h11, h12, h13⟩ | hd
      · exact .inl ⟨reason, tree, h9, h10.trans h4, by rw [h11, h5]; simp, h12, h13⟩
      · exact .inr hd
    | err e u =>
      refine Run.ensures_ite (fun he => ?_) (fun he => ?_)
      · have hw : u.rewind (anchor s) = pure s := L.rewind (L.trans (ho.ok h) (ht.err h'))
        rw [hw, Run.pure_bind', Run.ensures_pure]
        intro stack t hst hrhs hI
        subst hst hrhs
        refine ⟨[], s, .nil s, .inl ⟨_, _, .term h h' (by simpa using he), rfl, by simp, hI, ?_⟩⟩
        have := reduceAll_eval mk ofTerm stack (leaf t)
        simp only [eval] at this
        rw [this]; rfl
      · rw [Run.ensures_pure]
        intro stack t _ _ _
        exact ⟨[], s, .nil s, .inr ⟨_, u, .term h h' (by simpa using he), rfl⟩⟩
  | err e u =>
    refine Run.ensures_ite (fun he => ?_) (fun he => ?_)
    · rw [Run.ensures_pure]
      intro stack t _ _ _
      exact ⟨[], s, .nil s, .inr ⟨_, u, .op h he, rfl⟩⟩
    · have hw : u.rewind (anchor s) = pure s := L.rewind (ho.err h)
      rw [hw, Run.pure_bind', Run.ensures_pure]
      intro stack t hst hrhs hI
      subst hst hrhs
      refine ⟨[], s, .nil s, .inl ⟨_, _, .op h (by simpa using he), rfl, by simp, hI, ?_⟩⟩
      have := reduceAll_eval mk ofTerm stack (leaf t)
      simp only [eval] at this
      rw [this]; rfl

/-- The same for the whole parser. -/
theorem binExpr_sound {pt : Parser S T ETerm} {po : Parser S Op EOp} (ht : Descends pt.parse) (ho : Descends po.parse)
    (Inv : BTree Op T → Prop) (hleaf : ∀ v, Inv (leaf v))
    (hinv : ∀ o t' stack t, Inv (reduceAll node stack (leaf t)) →
      (reduceFor b node o (leaf t') stack (leaf t)).Ensures fun res => Inv (reduceAll node res.1 (leaf t'))) (s : S) :
    ((binExpr b pt po mk ofTerm).parse s).Ensures fun res =>
      (∃ e u, pt.parse s = pure (.err e u) ∧ res = .err (.last e) u) ∨
      ∃ v r ps s', pt.parse s = pure (.ok v r) ∧ Chain pt.parse po.parse r ps s' ∧
        ((∃ reason tree, NoMore pt.parse po.parse s' reason ∧ tree.first = v ∧ tree.tail = ps ∧ Inv tree ∧
            res = .ok (tree.eval mk ofTerm, reason) s') ∨
         (∃ e u, Breaks pt.parse po.parse s' e u ∧ res = .err e u)) := by
  refine Run.ensures_bind fun res h => ?_
  rw [binExprImpl, Run.bind_eq_pure] at h
  obtain ⟨⟨v, r⟩ | ⟨e, u⟩, h1, h2⟩ := h
  · obtain ⟨ps, s', hc, hd⟩ := binExprLoop_sound b mk ofTerm ht ho Inv hinv [] v r (hleaf v) res h2
    rcases hd with ⟨reason, tree, h3, h4, h5, h6, rfl⟩ | ⟨e, u, h3, rfl⟩
    · exact Run.ensures_pure.mpr (.inr ⟨v, r, ps, s', h1, hc, .inl ⟨reason, tree, h3, h4, h5, h6, rfl⟩⟩)
    · exact Run.ensures_pure.mpr (.inr ⟨v, r, ps, s', h1, hc, .inr ⟨e, u, h3, rfl⟩⟩)
  · simp [Run.pure_eq] at h2
    subst h2
    exact Run.ensures_pure.mpr (.inl ⟨e, u, h1, rfl⟩)

/-! ## C36 -/

variable (pt : Parser S T ETerm) (po : Parser S Op EOp)

/-- C36: the returned expression is built from a tree which, read in order, lists the terms and operators that were
parsed one after the other, and the rest is where the last operand ended. For every operator table and every build. -/
theorem C36_in_order (ht : Descends pt.parse) (ho : Descends po.parse) (s s' : S) (e : Expr) (reason : Either EOp ETerm)
    (h : (binExpr b pt po mk ofTerm).parse s = pure (.ok (e, reason) s')) :
    ∃ v r ps, pt.parse s = pure (.ok v r) ∧ Chain pt.parse po.parse r ps s' ∧
      ∃ tree : BTree Op T, tree.first = v ∧ tree.tail = ps ∧ e = tree.eval mk ofTerm := by
  rcases binExpr_sound b mk ofTerm ht ho (fun _ => True) (fun _ => trivial) (fun _ _ _ _ _ _ _ => trivial) s _ h with
    ⟨e, u, -, h2⟩ | ⟨v, r, ps, s'', h1, hc, ⟨reason', tree, -, h4, h5, -, h6⟩ | ⟨e, u, -, h6⟩⟩
  · simp at h2
  · simp at h6
    obtain ⟨⟨rfl, rfl⟩, rfl⟩ := h6
    exact ⟨v, r, ps, h1, hc, tree, h4, h5, rfl⟩
  · simp at h6

/-- C36, read out: with lists of terms and operators as expressions, the result is the list that was parsed. -/
theorem C36_listing (ht : Descends pt.parse) (ho : Descends po.parse) (s s' : S) (l : T × List (Op × T))
    (reason : Either EOp ETerm)
    (h : (binExpr b pt po (fun l o r => (l.1, l.2 ++ (o, r.1) :: r.2)) (fun v => (v, []))).parse s =
      pure (.ok (l, reason) s')) :
    ∃ r, pt.parse s = pure (.ok l.1 r) ∧ Chain pt.parse po.parse r l.2 s' := by
  obtain ⟨v, r, ps, h1, h2, tree, h3, h4, h5⟩ := C36_in_order b _ _ pt po ht ho s s' l reason h
  have h6 : ∀ tree : BTree Op T, tree.eval (fun l o r => (l.1, l.2 ++ (o, r.1) :: r.2)) (fun v => (v, [])) =
      (tree.first, tree.tail) := by
    intro tree
    induction tree with
    | leaf => rfl
    | node l o r ihl ihr => simp [eval, ihl, ihr, first, tail]
  rw [h6, h3, h4] at h5
  subst h5
  exact ⟨r, h1, h2⟩

/-! ## C37, C38 -/

/-- No left-associative operator has precedence `usize::MAX` (C41 is about those). -/
def BelowMax (Op : Type) [Operator Op] : Prop :=
  ∀ o : Op, precedence o ≤ usizeMax ∧ (associativity o = .left → precedence o < usizeMax)

theorem nextPrecedence_threshold {b : Build} (hb : BelowMax Op) (o : Op) :
    nextPrecedence b o = pure (threshold o) := by
  obtain ⟨h1, h2⟩ := hb o
  unfold nextPrecedence threshold
  cases ha : associativity o with
  | left =>
    have := h2 ha
    simp only
    unfold usizeAdd
    rw [if_pos (by omega)]
  | right => rfl

theorem grouped_inv {b : Build} (np : Op → Nat) (hnp : ∀ o, nextPrecedence b o = pure (np o)) (o : Op) (t' : T)
    (stack : List (BTree Op T × Op)) (t : T) (h : (reduceAll node stack (leaf t)).Grouped (Decided np)) :
    (reduceFor b node o (leaf t') stack (leaf t)).Ensures fun res =>
      (reduceAll node res.1 (leaf t')).Grouped (Decided np) := by
  rw [reduceFor_pure o t' stack (fun p _ => hnp p.2), Run.ensures_pure]
  exact reducePure_step np o t' stack (leaf t) h (by simp [rightEdge])

/-- C37: the tree is grouped as declared. -/
theorem C37_grouped_as_declared (hb : BelowMax Op) (ht : Descends pt.parse) (ho : Descends po.parse) (s s' : S) (e : Expr)
    (reason : Either EOp ETerm) (h : (binExpr b pt po mk ofTerm).parse s = pure (.ok (e, reason) s')) :
    ∃ v r ps, pt.parse s = pure (.ok v r) ∧ Chain pt.parse po.parse r ps s' ∧ NoMore pt.parse po.parse s' reason ∧
      ∃ tree : BTree Op T, tree.first = v ∧ tree.tail = ps ∧ tree.Grouped Declared ∧ e = tree.eval mk ofTerm := by
  have hinv := grouped_inv (T := T) (b := b) (threshold (Op := Op)) (nextPrecedence_threshold hb)
  rw [decided_threshold] at hinv
  rcases binExpr_sound b mk ofTerm ht ho (fun t => t.Grouped Declared) (fun _ => trivial) hinv s _ h with
    ⟨e, u, -, h2⟩ | ⟨v, r, ps, s'', h1, hc, ⟨reason', tree, h3, h4, h5, h7, h6⟩ | ⟨e, u, -, h6⟩⟩
  · simp at h2
  · simp at h6
    obtain ⟨⟨rfl, rfl⟩, rfl⟩ := h6
    exact ⟨v, r, ps, h1, hc, h3, tree, h4, h5, h7, rfl⟩
  · simp at h6

omit [RewindSequence S] L [ParseError EOp] [ParseError ETerm] in
/-- C38, about expressions alone: exactly one grouping is as declared, for any precedences whatever. -/
theorem C38_unique_grouping (v : T) (ps : List (Op × T)) :
    ∃ tree : BTree Op T, (tree.first = v ∧ tree.tail = ps ∧ tree.Grouped Declared) ∧
      ∀ tree' : BTree Op T, tree'.first = v → tree'.tail = ps → tree'.Grouped Declared → tree' = tree := by
  obtain ⟨t, h1, h2, h3⟩ := grouping_exists v ps
  exact ⟨t, ⟨h2, h3, h1⟩, fun t' h4 h5 h6 => BTree.unique h6 h1 (h4.trans h2.symm) (h5.trans h3.symm)⟩

omit L in
/-- One pair unrolls the loop. -/
theorem binExprLoop_cons {np : Op → Nat} (hnp : ∀ o, nextPrecedence b o = pure (np o)) {s r s' : S} {o : Op} {v : T}
    (h1 : op s = pure (.ok o r)) (h2 : term r = pure (.ok v s')) (stack : List (BTree Op T × Op)) (t : T) :
    binExprLoop b term op mk ofTerm 0 (evalStack mk ofTerm stack) (ofTerm t) s =
      binExprLoop b term op mk ofTerm 0 (evalStack mk ofTerm (reducePure np o stack (leaf t))) (ofTerm v) s' := by
  rw [binExprLoop, h1]
  simp only [Run.pure_bind', ge_iff_le, Nat.zero_le, if_true, h2]
  have := reduceFor_eval b mk ofTerm o v stack (leaf t)
  simp only [eval] at this
  rw [this, reduceFor_pure o v stack (fun p _ => hnp p.2)]
  rfl

omit L in
theorem binExprLoop_chain {np : Op → Nat} (hnp : ∀ o, nextPrecedence b o = pure (np o)) {s s' : S} {ps : List (Op × T)}
    (h : Chain term op s ps s') (stack : List (BTree Op T × Op)) (t : T) :
    ∃ stack' t', binExprLoop b term op mk ofTerm 0 (evalStack mk ofTerm stack) (ofTerm t) s =
      binExprLoop b term op mk ofTerm 0 (evalStack mk ofTerm stack') (ofTerm t') s' := by
  induction h generalizing stack t with
  | nil s => exact ⟨stack, t, rfl⟩
  | cons h1 h2 _ ih =>
    obtain ⟨stack', t', h⟩ := ih (reducePure np _ stack (leaf t)) _
    exact ⟨stack', t', (binExprLoop_cons b mk ofTerm hnp h1 h2 stack t).trans h⟩

/-- At the end of the chain the loop returns. -/
theorem binExprLoop_end (ht : Descends term) (ho : Descends op) {s : S} {reason : Either EOp ETerm}
    (h : NoMore term op s reason) (stack : List (Expr × Op)) (rhs : Expr) :
    binExprLoop b term op mk ofTerm 0 stack rhs s = pure (.ok (reduceAll mk stack rhs, .error reason) s) := by
  rw [binExprLoop]
  cases h with
  | op h he =>
    have hw : UnknownLocation.rewind _ (anchor s) = pure s := L.rewind (ho.err h)
    rw [h]
    simp [he, hw, done]
  | term h h' he =>
    have hw : UnknownLocation.rewind _ (anchor s) = pure s := L.rewind (L.trans (ho.ok h) (ht.err h'))
    rw [h]
    simp [h', he, hw, done]

/-- C38: and it is the one returned. Whenever the parsers succeed in turn and then stop recoverably, `parse` returns the
one correct tree. -/
theorem C38_returns_it (hb : BelowMax Op) (ht : Descends pt.parse) (ho : Descends po.parse) {s r s' : S} {v : T}
    {ps : List (Op × T)} {reason : Either EOp ETerm} (h1 : pt.parse s = pure (.ok v r))
    (h2 : Chain pt.parse po.parse r ps s') (h3 : NoMore pt.parse po.parse s' reason)
    (tree : BTree Op T) (hf : tree.first = v) (hl : tree.tail = ps) (hg : tree.Grouped Declared) :
    (binExpr b pt po mk ofTerm).parse s = pure (.ok (tree.eval mk ofTerm, reason) s') := by
  obtain ⟨stack, t, h4⟩ := binExprLoop_chain b mk ofTerm (nextPrecedence_threshold hb) h2 [] v
  have h5 := h4.trans (binExprLoop_end b mk ofTerm ht ho h3 _ _)
  have hinv := grouped_inv (T := T) (b := b) (threshold (Op := Op)) (nextPrecedence_threshold hb)
  rw [decided_threshold] at hinv
  obtain ⟨ps', s'', hc, hd⟩ := binExprLoop_sound b mk ofTerm ht ho (fun t => t.Grouped Declared) hinv [] v r trivial _ h5
  have hdet : ∀ {r ps ps' s' s''}, Chain pt.parse po.parse r ps s' → NoMore pt.parse po.parse s' reason →
      Chain pt.parse po.parse r ps' s'' → s' = s'' → ps = ps' := by
    intro r ps ps' s' s'' hc hn hc' he
    subst he
    induction hc generalizing ps' with
    | nil s =>
      cases hc' with
      | nil => rfl
      | cons a b _ =>
        cases hn with
        | op h _ => rw [h] at a; simp at a
        | term h h' _ => rw [h] at a; simp at a; obtain ⟨rfl, rfl⟩ := a; rw [h'] at b; simp at b
    | @cons s r s₁ s₂ o w qs a b c ih =>
      cases hc' with
      | nil =>
        cases hn with
        | op h _ => rw [h] at a; simp at a
        | term h h' _ => rw [h] at a; simp at a; obtain ⟨rfl, rfl⟩ := a; rw [h'] at b; simp at b
      | cons a' b' c' =>
        rw [a] at a'; simp at a'; obtain ⟨rfl, rfl⟩ := a'
        rw [b] at b'; simp at b'; obtain ⟨rfl, rfl⟩ := b'
        rw [ih hn c']
  rcases hd with ⟨reason', tree', h6, h7, h8, h9, h10⟩ | ⟨e, u, -, h10⟩
  · simp at h10
    obtain ⟨⟨h10, rfl⟩, rfl⟩ := h10
    have hps : ps = ps' := hdet h2 h3 hc rfl
    have htree : tree' = tree := by
      refine BTree.unique h9 hg ?_ ?_
      · rw [h7, hf]; rfl
      · rw [h8, hl, hps]; rfl
    subst htree
    have h5 : binExprLoop b pt.parse po.parse mk ofTerm 0 [] (ofTerm v) r = _ := h5
    show (binExprImpl b pt.parse po.parse mk ofTerm s 0 >>= _) = _
    rw [binExprImpl, h1, Run.pure_bind']
    simp only [h5, h10]
    rfl
  · simp at h10

/-! ## C39 -/

/-- C39: where parsing stops. If at the end of the operands the operator fails recoverably, or the operator succeeds but
its operand fails recoverably, the rest is the place before that operator, and the reason is that failure. -/
theorem C39_dangling_operator (ht : Descends pt.parse) (ho : Descends po.parse) (s s' : S) (e : Expr)
    (reason : Either EOp ETerm) (h : (binExpr b pt po mk ofTerm).parse s = pure (.ok (e, reason) s')) :
    (∃ e u, po.parse s' = pure (.err e u) ∧ shouldTerminate e = false ∧ reason = .first e) ∨
    (∃ o r e u, po.parse s' = pure (.ok o r) ∧ pt.parse r = pure (.err e u) ∧ shouldTerminate e = false ∧
      reason = .last e) := by
  rcases binExpr_sound b mk ofTerm ht ho (fun _ => True) (fun _ => trivial) (fun _ _ _ _ _ _ _ => trivial) s _ h with
    ⟨e, u, -, h2⟩ | ⟨v, r, ps, s'', h1, hc, ⟨reason', tree, h3, h4, h5, -, h6⟩ | ⟨e, u, -, h6⟩⟩
  · simp at h2
  · simp at h6
    obtain ⟨⟨rfl, rfl⟩, rfl⟩ := h6
    cases h3 with
    | op hq he => exact .inl ⟨_, _, hq, he, rfl⟩
    | term hq h' he => exact .inr ⟨_, _, _, _, hq, h', he, rfl⟩
  · simp at h6

/-- C39: failures. `parse` fails exactly as the first operand does, or as the operator or operand that failed fatally. -/
theorem C39_failures (ht : Descends pt.parse) (ho : Descends po.parse) (s : S) (e : Either EOp ETerm)
    (u : UnknownLocation S) (h : (binExpr b pt po mk ofTerm).parse s = pure (.err e u)) :
    (∃ e', pt.parse s = pure (.err e' u) ∧ e = .last e') ∨
    (∃ v r ps s', pt.parse s = pure (.ok v r) ∧ Chain pt.parse po.parse r ps s' ∧ Breaks pt.parse po.parse s' e u) := by
  rcases binExpr_sound b mk ofTerm ht ho (fun _ => True) (fun _ => trivial) (fun _ _ _ _ _ _ _ => trivial) s _ h with
    ⟨e, u, h1, h2⟩ | ⟨v, r, ps, s'', h1, hc, ⟨reason', tree, h3, h4, h5, -, h6⟩ | ⟨e, u, h3, h6⟩⟩
  · simp at h2
    obtain ⟨rfl, rfl⟩ := h2
    exact .inl ⟨_, h1, rfl⟩
  · simp at h6
  · simp at h6
    obtain ⟨rfl, rfl⟩ := h6
    exact .inr ⟨v, r, ps, s'', h1, hc, h3⟩

/-! ## C40 -/

omit [RewindSequence S] L [ParseError EOp] [ParseError ETerm] in
theorem reduceFor_no_fault {bad : Fault → Prop} (hbad : bad .overflow → BelowMax Op) (o : Op) (t : Expr)
    (stack : List (Expr × Op)) (rhs : Expr) : (reduceFor b mk o t stack rhs).Avoids bad := by
  induction stack generalizing rhs with
  | nil => exact Run.avoids_pure
  | cons p stack ih =>
    obtain ⟨l, o'⟩ := p
    refine Run.avoids_bind ?_ fun _ _ => Run.avoids_ite (fun _ => Run.avoids_pure) (fun _ => ih _)
    by_cases hb : bad .overflow
    · rw [nextPrecedence_threshold (hbad hb)]; exact Run.avoids_pure
    unfold nextPrecedence
    cases associativity o' with
    | left =>
      simp only
      unfold usizeAdd
      refine Run.avoids_ite (fun _ => Run.avoids_pure) (fun _ => ?_)
      cases b with
      | checked => exact Run.avoids_fault.mpr hb
      | wrapping => exact Run.avoids_pure
    | right => exact Run.avoids_pure

omit L in
theorem binExpr_avoids {bad : Fault → Prop} (hbad : bad .overflow → BelowMax Op) (ht : ∀ s, (pt.parse s).Avoids bad)
    (ho : ∀ s, (po.parse s).Avoids bad)
    (ar : ∀ s e u, po.parse s = pure (.err e u) → (u.rewind (anchor s)).Avoids bad)
    (ar' : ∀ s o r e u, po.parse s = pure (.ok o r) → pt.parse r = pure (.err e u) → (u.rewind (anchor s)).Avoids bad)
    (s : S) : ((binExpr b pt po mk ofTerm).parse s).Avoids bad := by
  have hloop : ∀ st rhs s, (binExprLoop b pt.parse po.parse mk ofTerm 0 st rhs s).Avoids bad := by
    refine binExprLoop.fixpoint_induct (b := b) (parserTerm := pt.parse) (parserOp := po.parse) (mk := mk)
      (ofTerm := ofTerm) (prec := 0) (motive := fun g => ∀ st rhs s, Run.Avoids bad (g st rhs s))
      Run.admissible_avoids₃ ?_
    intro g ih st rhs s
    refine Run.avoids_bind (ho s) fun res hop => ?_
    cases res with
    | ok o r =>
      refine Run.avoids_ite (fun _ => ?_) (fun _ => Run.avoids_pure)
      refine Run.avoids_bind (ht r) fun res hterm => ?_
      cases res with
      | ok v r' => exact Run.avoids_bind (reduceFor_no_fault b mk hbad _ _ _ _) fun ⟨_, _⟩ _ => ih _ _ _
      | err e u =>
        exact Run.avoids_ite (fun _ => Run.avoids_bind (ar' _ _ _ _ _ hop hterm) fun _ _ => Run.avoids_pure)
          (fun _ => Run.avoids_pure)
    | err e u =>
      exact Run.avoids_ite (fun _ => Run.avoids_pure)
        (fun _ => Run.avoids_bind (ar _ _ _ hop) fun _ _ => Run.avoids_pure)
  have hok : ∀ st rhs s, (binExprLoop b pt.parse po.parse mk ofTerm 0 st rhs s).Ensures fun res =>
      ∀ e x s', res ≠ .ok (e, .ok x) s' := by
    refine binExprLoop.fixpoint_induct (b := b) (parserTerm := pt.parse) (parserOp := po.parse) (mk := mk)
      (ofTerm := ofTerm) (prec := 0) (motive := fun g => ∀ st rhs s, Run.Ensures (g st rhs s) _)
      (Run.admissible_ensures₃ _) ?_
    intro g ih st rhs s
    refine Run.ensures_bind fun res _ => ?_
    cases res with
    | ok o r =>
      refine Run.ensures_ite (fun _ => ?_) (fun hp => absurd (Nat.zero_le _) hp)
      refine Run.ensures_bind fun res _ => ?_
      cases res with
      | ok v r' => exact Run.ensures_bind fun ⟨_, _⟩ _ => ih _ _ _
      | err e u =>
        refine Run.ensures_ite (fun _ => Run.ensures_bind fun _ _ => Run.ensures_pure.mpr ?_)
          (fun _ => Run.ensures_pure.mpr ?_) <;> (intro e x s' h; simp [done, fail] at h)
    | err e u =>
      refine Run.ensures_ite (fun _ => Run.ensures_pure.mpr ?_)
        (fun _ => Run.ensures_bind fun _ _ => Run.ensures_pure.mpr ?_) <;> (intro e x s' h; simp [done, fail] at h)
  have himpl : (binExprImpl b pt.parse po.parse mk ofTerm s 0).Avoids bad := by
    refine Run.avoids_bind (ht s) fun res _ => ?_
    cases res with
    | ok v r => exact hloop _ _ _
    | err e u => exact Run.avoids_pure
  have himpl' : (binExprImpl b pt.parse po.parse mk ofTerm s 0).Ensures fun res => ∀ e x s', res ≠ .ok (e, .ok x) s' := by
    refine Run.ensures_bind fun res _ => ?_
    cases res with
    | ok v r => exact hok _ _ _
    | err e u => exact Run.ensures_pure.mpr (by intro e x s' h; simp at h)
  refine Run.avoids_bind himpl (fun res h => ?_)
  rcases res with ⟨⟨e, x | x⟩, s'⟩ | ⟨e, u⟩
  · exact Run.avoids_pure
  · exact absurd rfl (himpl' _ h e x s')
  · exact Run.avoids_pure

omit L in
/-- C40: `unreachable!()` is dead code, for every operator table and both builds: if `parse` ends with that panic, it is
one of the given parsers, or rewinding, that does. -/
theorem C40_unreachable_is_dead (ht : ∀ s, pt.parse s ≠ Run.fault .unreachable)
    (ho : ∀ s, po.parse s ≠ Run.fault .unreachable)
    (hr : ∀ (s : S) a, RewindSequence.rewind s a ≠ Run.fault .unreachable) (s : S) :
    (binExpr b pt po mk ofTerm).parse s ≠ Run.fault .unreachable :=
  binExpr_avoids b mk ofTerm pt po (bad := (· = .unreachable)) (by simp) (fun s f hf h => ht s (by rw [h, hf]))
    (fun s f hf h => ho s (by rw [h, hf])) (fun s _ u _ f hf h => hr u.val (anchor s) (by rw [← hf, ← h]; rfl))
    (fun s _ _ _ u _ _ f hf h => hr u.val (anchor s) (by rw [← hf, ← h]; rfl)) s _ rfl

omit L in
/-- C40: and unless a left-associative operator has precedence `usize::MAX` (C41), it adds no panic of any kind. -/
theorem C40_no_panic_of_its_own (hb : BelowMax Op) (f : Fault) (ht : ∀ s, pt.parse s ≠ Run.fault f)
    (ho : ∀ s, po.parse s ≠ Run.fault f) (hr : ∀ (s : S) a, RewindSequence.rewind s a ≠ Run.fault f) (s : S) :
    (binExpr b pt po mk ofTerm).parse s ≠ Run.fault f :=
  binExpr_avoids b mk ofTerm pt po (bad := (· = f)) (fun _ => hb) (fun s f hf h => ht s (by rw [h, hf]))
    (fun s f hf h => ho s (by rw [h, hf])) (fun s _ u _ f hf h => hr u.val (anchor s) (by rw [← hf, ← h]; rfl))
    (fun s _ _ _ u _ _ f hf h => hr u.val (anchor s) (by rw [← hf, ← h]; rfl)) s _ rfl

/-- C40: the same on a sequence that keeps the rewinding contract, where nothing need be assumed of rewinding to foreign
anchors: it rewinds only to where it has been. -/
theorem C40_no_panic_lawful (hb : BelowMax Op) (htd : Descends pt.parse) (hod : Descends po.parse) (f : Fault)
    (ht : ∀ s, pt.parse s ≠ Run.fault f) (ho : ∀ s, po.parse s ≠ Run.fault f) (s : S) :
    (binExpr b pt po mk ofTerm).parse s ≠ Run.fault f :=
  binExpr_avoids b mk ofTerm pt po (bad := (· = f)) (fun _ => hb) (fun s f hf h => ht s (by rw [h, hf]))
    (fun s f hf h => ho s (by rw [h, hf]))
    (fun s e u h => by
      have hw : u.rewind (anchor s) = pure s := L.rewind (hod.err h)
      rw [hw]; exact Run.avoids_pure)
    (fun s o r e u h h' => by
      have hw : u.rewind (anchor s) = pure s := L.rewind (L.trans (hod.ok h) (htd.err h'))
      rw [hw]; exact Run.avoids_pure) s _ rfl

/-! ## C41 -/

end

/-- The full claim of C41, for a build: the declared grouping for every `usize` precedence. -/
def C41Statement (b : Build) : Prop :=
  ∀ {S T Op EOp ETerm Expr : Type} [RewindSequence S] [RewindLaw S] [Operator Op] [ParseError EOp] [ParseError ETerm]
    (mk : Expr → Op → Expr → Expr) (ofTerm : T → Expr) (pt : Parser S T ETerm) (po : Parser S Op EOp),
    (∀ o : Op, precedence o ≤ usizeMax) → Descends pt.parse → Descends po.parse →
    ∀ (s r s' : S) (v : T) (ps : List (Op × T)) (reason : Either EOp ETerm), pt.parse s = pure (.ok v r) →
      Chain pt.parse po.parse r ps s' → NoMore pt.parse po.parse s' reason →
    ∃ tree : BTree Op T, tree.first = v ∧ tree.tail = ps ∧ tree.Grouped Declared ∧
      (binExpr b pt po mk ofTerm).parse s = pure (.ok (tree.eval mk ofTerm, reason) s')

section
variable [RewindSequence S] [L : RewindLaw S] [Operator Op] [ParseError EOp] [ParseError ETerm]
  (mk : Expr → Op → Expr → Expr) (ofTerm : T → Expr) (pt : Parser S T ETerm) (po : Parser S Op EOp)

/-- C41, partial: all precedences except `usize::MAX` on left-associative operators. Missing: those, for which the
statement is false. -/
theorem C41_partial (b : Build) (hb : BelowMax Op) (ht : Descends pt.parse) (ho : Descends po.parse) (s r s' : S) (v : T)
    (ps : List (Op × T)) (reason : Either EOp ETerm) (h1 : pt.parse s = pure (.ok v r))
    (h2 : Chain pt.parse po.parse r ps s') (h3 : NoMore pt.parse po.parse s' reason) :
    ∃ tree : BTree Op T, tree.first = v ∧ tree.tail = ps ∧ tree.Grouped Declared ∧
      (binExpr b pt po mk ofTerm).parse s = pure (.ok (tree.eval mk ofTerm, reason) s') := by
  obtain ⟨tree, ⟨hf, hl, hg⟩, -⟩ := C38_unique_grouping v ps
  exact ⟨tree, hf, hl, hg, C38_returns_it b mk ofTerm pt po hb ht ho h1 h2 h3 tree hf hl hg⟩

/-- The threshold of the wrapping build. -/
def wrappedThreshold (o : Op) : Nat := match associativity o with
  | .left => if precedence o = usizeMax then 0 else precedence o + 1
  | .right => precedence o

omit [RewindSequence S] L [ParseError EOp] [ParseError ETerm] in
theorem nextPrecedence_wrapped (hb : ∀ o : Op, precedence o ≤ usizeMax) (o : Op) :
    nextPrecedence .wrapping o = pure (wrappedThreshold o) := by
  have h1 := hb o
  unfold nextPrecedence wrappedThreshold
  cases ha : associativity o with
  | left =>
    simp only
    unfold usizeAdd
    by_cases h : precedence o = usizeMax
    · rw [if_neg (by omega), if_pos h, h]
      simp
    · rw [if_pos (by omega), if_neg h]
  | right => rfl

/-- C41, exactly, without overflow checks: a left-associative operator of precedence `usize::MAX` never takes the operand
to its right from a following operator (as if it were right-associative of precedence 0); all others group as declared. -/
theorem C41_exact_wrapping (hb : ∀ o : Op, precedence o ≤ usizeMax) (ht : Descends pt.parse) (ho : Descends po.parse)
    (s s' : S) (e : Expr) (reason : Either EOp ETerm)
    (h : (binExpr .wrapping pt po mk ofTerm).parse s = pure (.ok (e, reason) s')) :
    ∃ v r ps, pt.parse s = pure (.ok v r) ∧ Chain pt.parse po.parse r ps s' ∧
      ∃ tree : BTree Op T, tree.first = v ∧ tree.tail = ps ∧ e = tree.eval mk ofTerm ∧
        tree.Grouped fun o₁ o₂ => Declared o₁ o₂ ∧ ¬ (associativity o₁ = .left ∧ precedence o₁ = usizeMax) := by
  have hinv := grouped_inv (T := T) (b := .wrapping) (wrappedThreshold (Op := Op)) (nextPrecedence_wrapped hb)
  have hdec : (Decided wrappedThreshold : Op → Op → Prop) =
      fun o₁ o₂ => Declared o₁ o₂ ∧ ¬ (associativity o₁ = .left ∧ precedence o₁ = usizeMax) := by
    funext o₁ o₂
    apply propext
    have h1 := hb o₂
    simp only [Decided, wrappedThreshold, Declared]
    cases associativity o₁ with
    | left => by_cases h : precedence o₁ = usizeMax <;> simp [h] <;> omega
    | right => simp <;> omega
  rw [hdec] at hinv
  rcases binExpr_sound .wrapping mk ofTerm ht ho _ (fun _ => trivial) hinv s _ h with
    ⟨e, u, -, h2⟩ | ⟨v, r, ps, s'', h1, hc, ⟨reason', tree, h3, h4, h5, h7, h6⟩ | ⟨e, u, -, h6⟩⟩
  · simp at h2
  · simp at h6
    obtain ⟨⟨rfl, rfl⟩, rfl⟩ := h6
    exact ⟨v, r, ps, h1, hc, tree, h4, h5, rfl, h7⟩
  · simp at h6

omit L in
/-- C41, exactly, with overflow checks: `parse` panics as soon as an operator and its operand follow a left-associative
operator of precedence `usize::MAX`. -/
theorem C41_exact_checked {s r s₁ s₂ : S} {v w w' : T} {ps : List (Op × T)} {o o' : Op} {r' r'' : S}
    (hb : ∀ p ∈ ps, associativity p.1 = .left → precedence p.1 < usizeMax)
    (h1 : pt.parse s = pure (.ok v r)) (h2 : Chain pt.parse po.parse r ps s₁)
    (h3 : po.parse s₁ = pure (.ok o r')) (h4 : pt.parse r' = pure (.ok w s₂))
    (h5 : po.parse s₂ = pure (.ok o' r'')) {s₃ : S} (h6 : pt.parse r'' = pure (.ok w' s₃))
    (ha : associativity o = .left) (hm : precedence o = usizeMax) :
    (binExpr .checked pt po mk ofTerm).parse s = Run.fault .overflow := by
  have hthr : ∀ p : Op × T, (associativity p.1 = .left → precedence p.1 < usizeMax) →
      nextPrecedence .checked p.1 = pure (threshold p.1) := by
    intro p hp
    unfold nextPrecedence threshold
    cases ha : associativity p.1 with
    | left => have := hp ha; simp only; unfold usizeAdd; rw [if_pos (by omega)]
    | right => rfl
  have hstep : ∀ {s r s' : S} {o : Op} {v : T} (stack : List (BTree Op T × Op)) (t : T),
      po.parse s = pure (.ok o r) → pt.parse r = pure (.ok v s') →
      (∀ p ∈ stack, nextPrecedence .checked p.2 = pure (threshold p.2)) →
      binExprLoop .checked pt.parse po.parse mk ofTerm 0 (evalStack mk ofTerm stack) (ofTerm t) s =
        binExprLoop .checked pt.parse po.parse mk ofTerm 0
          (evalStack mk ofTerm (reducePure threshold o stack (leaf t))) (ofTerm v) s' := by
    intro s r s' o v stack t h1 h2 hs
    rw [binExprLoop, h1]
    simp only [Run.pure_bind', ge_iff_le, Nat.zero_le, if_true, h2]
    have := reduceFor_eval .checked mk ofTerm o v stack (leaf t)
    simp only [eval] at this
    rw [this, reduceFor_pure o v stack hs]
    rfl
  have hmem : ∀ (o : Op) (stack : List (BTree Op T × Op)) (rhs : BTree Op T) p, p ∈ reducePure threshold o stack rhs →
      p.2 = o ∨ ∃ q ∈ stack, p.2 = q.2 := by
    intro o stack
    induction stack with
    | nil => intro rhs p hp; simp [reducePure] at hp; exact .inl (by rw [hp])
    | cons q stack ih =>
      intro rhs p hp
      rw [reducePure] at hp
      by_cases hq : precedence o ≥ threshold q.2
      · rw [if_pos hq] at hp
        simp at hp
        rcases hp with rfl | rfl | hp
        · exact .inl rfl
        · exact .inr ⟨_, List.mem_cons_self .., rfl⟩
        · exact .inr ⟨p, List.mem_cons_of_mem _ hp, rfl⟩
      · rw [if_neg hq] at hp
        rcases ih _ p hp with h | ⟨q', h, h'⟩
        · exact .inl h
        · exact .inr ⟨q', List.mem_cons_of_mem _ h, h'⟩
  have htop : ∀ (o : Op) (stack : List (BTree Op T × Op)) (rhs : BTree Op T),
      ∃ l st, reducePure threshold o stack rhs = (l, o) :: st := by
    intro o stack
    induction stack with
    | nil => intro rhs; exact ⟨_, _, rfl⟩
    | cons q stack ih =>
      intro rhs
      rw [reducePure]
      by_cases hq : precedence o ≥ threshold q.2
      · rw [if_pos hq]; exact ⟨_, _, rfl⟩
      · rw [if_neg hq]; exact ih _
  have hchain : ∀ {r s₁ : S} {ps : List (Op × T)}, Chain pt.parse po.parse r ps s₁ →
      (∀ p ∈ ps, associativity p.1 = .left → precedence p.1 < usizeMax) →
      ∀ (stack : List (BTree Op T × Op)) t, (∀ p ∈ stack, nextPrecedence .checked p.2 = pure (threshold p.2)) →
      ∃ stack' t', (∀ p ∈ stack', nextPrecedence .checked p.2 = pure (threshold p.2)) ∧
        binExprLoop .checked pt.parse po.parse mk ofTerm 0 (evalStack mk ofTerm stack) (ofTerm t) r =
        binExprLoop .checked pt.parse po.parse mk ofTerm 0 (evalStack mk ofTerm stack') (ofTerm t') s₁ := by
    intro r s₁ ps h
    induction h with
    | nil s => intro _ stack t hs; exact ⟨stack, t, hs, rfl⟩
    | @cons s r s' t₀ o v ps a c _ ih =>
      intro hb stack t hs
      obtain ⟨stack', t', h1, h2⟩ := ih (fun p hp => hb p (by simp [hp])) (reducePure threshold o stack (leaf t)) v (by
        intro p hp
        rcases hmem o stack (leaf t) p hp with h | ⟨q, h, h'⟩
        · rw [h]; exact hthr (o, v) (hb (o, v) (by simp))
        · rw [h']; exact hs q h)
      exact ⟨stack', t', h1, (hstep stack t a c hs).trans h2⟩
  obtain ⟨stack, t, hs, hl⟩ := hchain h2 hb [] v (by simp)
  obtain ⟨l, st, htp⟩ := htop o stack (leaf t)
  have hl2 := hl.trans (hstep stack t h3 h4 hs)
  rw [htp] at hl2
  have hover : nextPrecedence .checked o = Run.fault .overflow := by
    unfold nextPrecedence
    rw [ha]
    simp only
    unfold usizeAdd
    rw [if_neg (by omega)]
  have hl3 : binExprLoop .checked pt.parse po.parse mk ofTerm 0 (evalStack mk ofTerm ((l, o) :: st)) (ofTerm w) s₂ =
      Run.fault .overflow := by
    rw [binExprLoop, h5]
    simp only [Run.pure_bind', ge_iff_le, Nat.zero_le, if_true, h6]
    simp [evalStack, reduceFor, hover]
  have hl4 : binExprLoop .checked pt.parse po.parse mk ofTerm 0 [] (ofTerm v) r = Run.fault .overflow := hl2.trans hl3
  show (binExprImpl .checked pt.parse po.parse mk ofTerm s 0 >>= _) = _
  rw [binExprImpl, h1, Run.pure_bind']
  simp only [hl4]
  rfl

end

/-! ### Concrete expressions -/

/-- An operator type with its declarations. -/
structure Minus (prec : Nat) where

instance {prec : Nat} : Operator (Minus prec) where
  precedence _ := prec
  associativity _ := .left

/-- `x` -/
def xTerm : Parser StrRef Unit (Miss Unit) := theChar 'x'
/-- `-` -/
def minusOp (prec : Nat) : Parser StrRef (Minus prec) (Miss Unit) := (theChar '-').map fun _ => ⟨⟩

theorem xTerm_descends : Descends xTerm.parse := (tidy_iff.mp (tidy_theChar (S := StrRef) 'x')).1
theorem minusOp_descends (prec : Nat) : Descends (minusOp prec).parse := by
  have hd := (tidy_iff.mp (tidy_theChar (S := StrRef) '-')).1
  constructor
  · intro s v r h
    simp only [minusOp, Parser.map, Run.bind_eq_pure] at h
    obtain ⟨⟨v', r'⟩ | ⟨e, u⟩, h1, h2⟩ := h
    · simp [Run.pure_eq] at h2; rw [← h2]; exact hd.ok h1
    · simp [Run.pure_eq] at h2
  · intro s e u h
    simp only [minusOp, Parser.map, Run.bind_eq_pure] at h
    obtain ⟨⟨v', r'⟩ | ⟨e', u'⟩, h1, h2⟩ := h
    · simp [Run.pure_eq] at h2
    · simp [Run.pure_eq] at h2; rw [← h2.2]; exact hd.err h1

/-- `x-x-x` -/
def threeTerms : StrRef := { alloc := 1, off := 0, text := ⟨['x', '-', 'x', '-', 'x']⟩ }

/-- The two parsers succeed in turn on it. -/
theorem threeTerms_chain (prec : Nat) : ∃ r r₁ s₁ r₂ s₂ reason, xTerm.parse threeTerms = pure (.ok () r) ∧
    (minusOp prec).parse r = pure (.ok ⟨⟩ r₁) ∧ xTerm.parse r₁ = pure (.ok () s₁) ∧
    (minusOp prec).parse s₁ = pure (.ok ⟨⟩ r₂) ∧ xTerm.parse r₂ = pure (.ok () s₂) ∧
    NoMore xTerm.parse (minusOp prec).parse s₂ reason := by
  obtain ⟨r, h1, c1⟩ := (C10_the_char 'x' threeTerms).1 ['-', 'x', '-', 'x'] rfl
  obtain ⟨r₁, h2, c2⟩ := (C10_the_char '-' r).1 ['x', '-', 'x'] c1
  obtain ⟨s₁, h3, c3⟩ := (C10_the_char 'x' r₁).1 ['-', 'x'] c2
  obtain ⟨r₂, h4, c4⟩ := (C10_the_char '-' s₁).1 ['x'] c3
  obtain ⟨s₂, h5, c5⟩ := (C10_the_char 'x' r₂).1 [] c4
  obtain ⟨u, h6, _⟩ := (C10_the_char '-' s₂).2 (by rw [c5]; simp)
  refine ⟨r, r₁, s₁, r₂, s₂, .first ⟨()⟩, h1, ?_, h3, ?_, h5, .op (u := u) ?_ rfl⟩
  · simp [minusOp, Parser.map, h2]
  · simp [minusOp, Parser.map, h4]
  · simp [minusOp, Parser.map, h6]

/-- Non-vacuity of C36 to C39: `x-x-x` with a left-associative `-` is `(x-x)-x`. -/
example (b : Build) : ∃ reason rest, (binExpr b xTerm (minusOp 3) BTree.node BTree.leaf).parse threeTerms =
    pure (.ok (.node (.node (.leaf ()) ⟨⟩ (.leaf ())) ⟨⟩ (.leaf ()), reason) rest) := by
  obtain ⟨r, r₁, s₁, r₂, s₂, reason, h1, h2, h3, h4, h5, h6⟩ := threeTerms_chain 3
  have := C38_returns_it b BTree.node BTree.leaf xTerm (minusOp 3) (fun o => ⟨(by decide : 3 ≤ usizeMax), fun _ => (by decide : 3 < usizeMax)⟩) xTerm_descends
    (minusOp_descends 3) h1 (.cons h2 h3 (.cons h4 h5 (.nil _))) h6
    (.node (.node (.leaf ()) ⟨⟩ (.leaf ())) ⟨⟩ (.leaf ())) rfl rfl (by simp [Grouped, rightEdge, leftEdge, Declared,
      associativity])
  exact ⟨reason, s₂, by simpa [eval] using this⟩

/-- Non-vacuity of C40. -/
example (b : Build) (s : StrRef) :
    (binExpr b xTerm (minusOp usizeMax) BTree.node BTree.leaf).parse s ≠ Run.fault .unreachable := by
  refine C40_unreachable_is_dead b _ _ _ _ ?_ ?_ ?_ s
  · intro s h
    by_cases hc : (content s).head? = some 'x'
    · obtain ⟨cs, hcs⟩ := List.head?_eq_some_iff.mp hc
      obtain ⟨r, h1, _⟩ := (C10_the_char 'x' s).1 cs hcs
      simp [xTerm, h1] at h
    · obtain ⟨u, h1, _⟩ := (C10_the_char 'x' s).2 hc
      simp [xTerm, h1] at h
  · intro s h
    by_cases hc : (content s).head? = some '-'
    · obtain ⟨cs, hcs⟩ := List.head?_eq_some_iff.mp hc
      obtain ⟨r, h1, _⟩ := (C10_the_char '-' s).1 cs hcs
      simp [minusOp, Parser.map, h1] at h
    · obtain ⟨u, h1, _⟩ := (C10_the_char '-' s).2 hc
      simp [minusOp, Parser.map, h1] at h
  · intro s a h
    simp only [RewindSequence.rewind, StrRef.rewind] at h
    split at h <;> (try split at h) <;> simp at h

/-- C41 does not hold for the code, in either build: with a left-associative `-` of precedence `usize::MAX`, `x-x-x`
panics, or comes out as `x-(x-x)`. -/
theorem C41_false (b : Build) : ¬ C41Statement b := by
  intro h
  obtain ⟨r, r₁, s₁, r₂, s₂, reason, h1, h2, h3, h4, h5, h6⟩ := threeTerms_chain usizeMax
  obtain ⟨tree, hf, hl, hg, hres⟩ := h BTree.node BTree.leaf xTerm (minusOp usizeMax) (fun o => Nat.le_refl _) xTerm_descends
    (minusOp_descends usizeMax) threeTerms r s₂ () _ reason h1 (.cons h2 h3 (.cons h4 h5 (.nil _))) h6
  cases b with
  | checked =>
    rw [C41_exact_checked BTree.node BTree.leaf xTerm (minusOp usizeMax) (ps := []) (by simp) h1 (.nil _) h2 h3 h4 h5 rfl rfl] at hres
    simp at hres
  | wrapping =>
    obtain ⟨v', r', ps', -, -, tree', -, -, h10, h11⟩ := C41_exact_wrapping BTree.node BTree.leaf xTerm (minusOp usizeMax)
      (fun o => Nat.le_refl _) xTerm_descends (minusOp_descends usizeMax) _ _ _ _ hres
    have hid : ∀ t : BTree (Minus usizeMax) Unit, t.eval BTree.node BTree.leaf = t := by
      intro t
      induction t with
      | leaf => rfl
      | node l o r ihl ihr => simp [eval, ihl, ihr]
    rw [hid, hid] at h10
    subst h10
    cases tree with
    | leaf => simp [tail] at hl
    | node l o rr =>
      cases l with
      | leaf =>
        cases rr with
        | leaf => simp [tail] at hl
        | node rl ro rr => exact hg.2.2.2 ro (by simp [leftEdge]) (.inr ⟨rfl, rfl⟩)
      | node ll lo lr => exact (h11.2.2.1 lo (by simp [rightEdge])).2 ⟨rfl, rfl⟩

end Parcom
