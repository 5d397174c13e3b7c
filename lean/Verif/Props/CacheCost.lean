import Verif.Props.CalcCost
import Verif.Props.Cache
/-!
# C110: how much the grammar of the cache example asks of its input
-/
namespace Parcom.Cache
open Spec Spec.Cache Sequence

variable {S : Type} [Sequence S Str] [RewindSequence S] [LS : LawfulSequence S] [L : LawfulRewind S]

/-! ## The leaves -/

theorem op_counted (k : Nat) (s : Counted S) (hk : FewSegments k s.inner) :
    Run.Within (op s) fun res => Pays (k + 3) (k + 3) s (left res) ∧
      match res with
      | .ok _ r => ahead r + 1 = ahead s
      | .err _ _ => True := by
  obtain ⟨res, h1, h2, h3, h4, h5⟩ := takes_any k s hk
  simp only [Peg.toll] at h4
  rw [op, Parser.andThen]
  simp only [h1, Run.pure_bind']
  cases res with
  | err e u =>
    refine Run.within_pure ⟨⟨h2, ?_⟩, trivial⟩
    have := Nat.mul_le_mul_left (k + 3) h2.shorter
    simp only [left] at h4 this ⊢
    unfold ahead
    omega
  | ok c r =>
    have hl : ahead r + 1 = ahead s := by
      unfold ahead
      revert h5
      show Peg.any.Matches (content s.inner) (some (content r.inner)) → _
      generalize content s.inner = cs
      generalize content r.inner = ds
      intro h5
      cases h5
      rfl
    have hp : Pays (k + 3) (k + 3) s r := by
      refine ⟨h2, ?_⟩
      rw [← hl, Nat.mul_add]
      simp only [left] at h4
      omega
    simp only
    split
    · exact Run.within_pure ⟨hp, hl⟩
    · exact Run.within_pure ⟨hp, trivial⟩

theorem zero_counted (k : Nat) (s : Counted S) (hk : FewSegments k s.inner) :
    Run.Within (zero s) fun res => match res with
      | .ok _ r => Pays (k + 3) 0 s r ∧ ahead r + 1 ≤ ahead s
      | .err e u => shouldTerminate e = false ∧ Leads s.inner u.val.inner ∧ u.val.calls ≤ s.calls + (k + 3) := by
  obtain ⟨res, h1, h2, h3, h4, h5⟩ := takes_char '0' k s hk
  simp only [Peg.toll] at h4
  rw [zero, h1]
  refine Run.within_pure ?_
  cases res with
  | err e u => exact ⟨h5.1, h2, h4⟩
  | ok c r =>
    have hl : ahead r + 1 = ahead s := by
      unfold ahead
      revert h5
      show (Peg.char '0').Matches (content s.inner) (some (content r.inner)) → _
      generalize content s.inner = cs
      generalize content r.inner = ds
      intro h5
      cases h5
      rfl
    refine ⟨⟨h2, ?_⟩, by omega⟩
    rw [← hl, Nat.mul_add]
    simp only [left] at h4
    omega

/-- An operator with its spaces: what it takes, and that it moves only over a text that begins with a space. -/
theorem spacedOp_counted (k : Nat) (s : Counted S) (hk : FewSegments k s.inner) :
    Run.Within (spacedOp.parse s) fun res => Pays (k + 3) (3 * k + 11) s (left res) ∧
      match res with
      | .ok _ r => ahead r + 3 ≤ ahead s ∧ (content s.inner).head? = some ' '
      | .err e u => shouldTerminate e = false ∧
          (content u.val.inner = content s.inner ∨ (content s.inner).head? = some ' ') := by
  have hspace := fun (r : Counted S) (hr : FewSegments k r.inner) => within_ret (α := PResult (Counted S) Unit (Miss Unit)) (x := space r) (Parcom.space_counted k r hr)
  refine within_map _ (within_join (Q₀ := fun res => match res with
    | .ok _ t => Pays (k + 3) (2 * k + 7) s t ∧ ahead t + 2 ≤ ahead s ∧ (content s.inner).head? = some ' '
    | .err e u => Pays (k + 3) (3 * k + 11) s u.val ∧ shouldTerminate e = false ∧
        (content u.val.inner = content s.inner ∨ (content s.inner).head? = some ' '))
    (within_join (hspace s hk) ?_ ?_) ?_ ?_)
  · rintro e u ⟨h2, h3⟩
    exact ⟨h2.more (by omega), rfl, .inl h3⟩
  · rintro v r ⟨h2, h3⟩
    refine Run.within_mono (op_counted k r (fewSegments_desc hk h2.1)) ?_
    rintro (⟨o, t⟩ | ⟨e, u⟩) ⟨g2, g3⟩
    · exact ⟨((h2.trans g2).more (by omega) : Pays _ (2 * k + 7) s t),
        (by have := h3.1; omega : ahead t + 2 ≤ ahead s), h3.2⟩
    · exact ⟨(h2.trans g2).more (by omega), rfl, .inr h3.2⟩
  · rintro e u h
    exact h
  · rintro v r ⟨h2, h3, h4⟩
    refine Run.within_mono (hspace r (fewSegments_desc hk h2.1)) ?_
    rintro (⟨o, t⟩ | ⟨e, u⟩) ⟨g2, g3⟩
    · have := g3.1
      exact ⟨(h2.trans g2).more (by omega), by show ahead t + 3 ≤ _; omega, h4⟩
    · exact ⟨(h2.trans g2).more (by omega), rfl, .inr h4⟩

/-- What a `term` may take, up to this length. -/
def TermCost (k n : Nat) (term : Counted S → Run (PResult (Counted S) Term (Miss Unit))) : Prop :=
  ∀ s, FewSegments k s.inner → ahead s ≤ n → Run.Within (term s) fun res => match res with
    | .ok _ r => Pays (5 * k + 19) 0 s r ∧ ahead r + 1 ≤ ahead s
    | .err _ u => Capped k s u.val

/-- What an `expr` may take: either it ends at the furthest place it has looked at, or it stands before a space. -/
def ExprCost (k n : Nat) (expr : Counted S → Run (PResult (Counted S) Expr (Miss Unit))) : Prop :=
  ∀ s, FewSegments k s.inner → ahead s ≤ n → Run.Within (expr s) fun res => match res with
    | .ok _ r => Pays (5 * k + 19) (4 * k + 16) s r ∨ (Capped k s r ∧ (content r.inner).head? = some ' ')
    | .err _ u => Capped k s u.val

/-- A term takes its time, if the expressions in it do. -/
theorem termOf_counted (k n : Nat) {expr : Counted S → Run (PResult (Counted S) Expr (Miss Unit))}
    (hE : ∀ m, m < n → ExprCost k m expr) : TermCost k n (termOf expr) := by
  intro s hk hn
  refine within_mapErr _ (within_map _ (within_or (zero_counted k s hk) ?_ ?_))
  · rintro v r ⟨h1, h2⟩
    exact ⟨h1.dear h2 (by omega), h2⟩
  · rintro e u ⟨h1, h2, hc⟩
    refine ⟨h1, h2, ?_⟩
    generalize u.val.calls = c at hc
    clear h1 h2 u
    have hs' : ahead (⟨s.inner, c + 1⟩ : Counted S) = ahead s := rfl
    refine within_map _ (within_join (Q₀ := fun res => match res with
      | .ok _ t => Leads s.inner t.inner ∧ ahead t + 1 ≤ ahead s ∧
          (t.calls + (5 * k + 19) * ahead t + (4 * k + 16) ≤ s.calls + (k + 4) + (5 * k + 19) * ahead s + (4 * k + 16) ∨
            (t.calls + (4 * k + 16) ≤ s.calls + (k + 4) + (5 * k + 19) * ahead s + (4 * k + 16) ∧
              (content t.inner).head? = some ' '))
      | .err _ u => Capped k s u.val)
      (within_join (atom_counted '(' rfl k ⟨s.inner, c + 1⟩ hk) ?_ ?_) ?_ ?_)
    · rintro e u ⟨-, h2, h3⟩
      refine ⟨h2.1, ?_⟩
      have := h2.2
      rw [ahead_same (s := ⟨s.inner, c + 1⟩) (r := u.val) h3] at this
      simp only at this
      omega
    · rintro _ r ⟨h2, h3, -⟩
      have hsl := h2.slack (by omega)
      rw [hs'] at hsl h3
      simp only at hsl
      refine Run.within_mono (hE (ahead r) (by omega) r (fewSegments_desc hk h2.1) (Nat.le_refl _)) ?_
      rintro (⟨x, t⟩ | ⟨e, u⟩) g
      · rcases g with g | ⟨g, gs⟩
        · have := g.2
          have : ahead t ≤ ahead r := g.1.shorter
          exact ⟨h2.1.trans g.1, by omega, .inl (by omega)⟩
        · have := g.2
          have : ahead t ≤ ahead r := g.1.shorter
          exact ⟨h2.1.trans g.1, by omega, .inr ⟨by omega, gs⟩⟩
      · have := g.2
        exact ⟨h2.1.trans g.1, by omega⟩
    · rintro e u h
      exact ⟨by cases e with | first e => cases e <;> rfl | last e => rfl, h⟩
    · rintro x t ⟨h2, h3, h4⟩
      refine Run.within_mono (atom_counted ')' rfl k t (fewSegments_desc hk h2)) ?_
      rintro (⟨_, q⟩ | ⟨e, u⟩) g
      · obtain ⟨g1, g2, g3⟩ := g
        have hsl := g1.slack (by omega)
        rcases h4 with h4 | ⟨-, h4⟩
        · exact ⟨⟨h2.trans g1.1, by omega⟩, by omega⟩
        · rw [g3] at h4; simp at h4
      · obtain ⟨g1, g2, g3⟩ := g
        refine ⟨by rfl, h2.trans g2.1, ?_⟩
        have := g2.2
        rw [ahead_same g3] at this
        rcases h4 with h4 | ⟨h4, -⟩ <;> omega

/-- The loop of the expression, from a place where a term has ended. -/
theorem loop_counted (k n : Nat) (b : Build) {term : Counted S → Run (PResult (Counted S) Term (Miss Unit))}
    (hT : TermCost k n term) (m : Nat) (s : Counted S) (hk : FewSegments k s.inner) (hm : ahead s = m) (hn : m ≤ n)
    (stack : List (Expr × Op)) (rhs : Expr) :
    Run.Within (binExprLoop b term spacedOp.parse (fun l o r => Expr.binOp l o r) Expr.term 0 stack rhs s)
      fun res => ∃ e reason r, res = .ok (e, .error reason) r ∧
        (Pays (5 * k + 19) (4 * k + 16) s r ∨ (Capped k s r ∧ (content r.inner).head? = some ' ')) := by
  induction m using Nat.strongRecOn generalizing s stack rhs with
  | ind m ih =>
    rw [binExprLoop]
    refine Run.within_bind (spacedOp_counted k s hk) ?_
    rintro (⟨o, r⟩ | ⟨e, u⟩) ⟨h2, h3⟩
    · simp only [left] at h2 h3
      simp only [ge_iff_le, Nat.zero_le, if_true]
      have hp : Pays (5 * k + 19) 0 s r := h2.dear h3.1 (by omega)
      refine Run.within_bind (hT r (fewSegments_desc hk h2.1) (by omega)) ?_
      rintro (⟨t, q⟩ | ⟨e, u⟩) g
      · obtain ⟨g1, g2⟩ := g
        refine Run.within_bind (Q := fun _ => True) ?_ ?_
        · cases hred : reduceFor b (fun l o r => Expr.binOp l o r) o (Expr.term t) stack rhs using Run.casesRun with
          | ret a => exact .inl ⟨a, rfl, trivial⟩
          | fault f => exact .inr ⟨f, rfl⟩
          | diverge => exact absurd hred (reduceFor_returns b _ o _ stack rhs)
        · rintro ⟨stack', rhs'⟩ -
          refine Run.within_mono (ih (ahead q) (by omega) q (fewSegments_desc hk (h2.1.trans g1.1)) rfl (by omega) stack' rhs') ?_
          rintro res ⟨e, reason, x, rfl, h | ⟨h, h'⟩⟩
          · exact ⟨e, reason, x, rfl, .inl (((hp.trans g1).trans h).more (by omega))⟩
          · exact ⟨e, reason, x, rfl, .inr ⟨hp.then_capped (g1.then_capped h), h'⟩⟩
      · have hw : u.rewind (anchor s) = pure ⟨s.inner, u.val.calls + 1⟩ := counted_rewind (L.rewind (h2.1.trans g.1).desc)
        have he : shouldTerminate e = false := rfl
        simp only [he, hw, Run.pure_bind', Bool.false_eq_true, not_false_eq_true, if_true]
        refine Run.within_pure ⟨_, _, _, rfl, .inr ⟨⟨.here, ?_⟩, h3.2⟩⟩
        have h4 := h2.slack' h3.1
        have h5 := g.2
        show u.val.calls + 1 ≤ _
        omega
    · simp only [left] at h2 h3
      have hw : u.rewind (anchor s) = pure ⟨s.inner, u.val.calls + 1⟩ := counted_rewind (L.rewind h2.1.desc)
      simp only [h3.1, hw, Run.pure_bind', Bool.false_eq_true, if_false]
      refine Run.within_pure ⟨_, _, _, rfl, ?_⟩
      rcases h3.2 with h4 | h4
      · left
        refine ⟨.here, ?_⟩
        have h5 := h2.2
        rw [ahead_same h4] at h5
        show u.val.calls + 1 + (5 * k + 19) * ahead s ≤ _
        omega
      · right
        refine ⟨⟨.here, ?_⟩, h4⟩
        have h5 := h2.slack' (m := 0) h2.1.shorter
        show u.val.calls + 1 ≤ _
        omega

/-- An expression takes its time, if the terms in it do. -/
theorem exprOf_counted (k n : Nat) (b : Build) {term : Counted S → Run (PResult (Counted S) Term (Miss Unit))}
    (hT : TermCost k n term) : ExprCost k n (exprOf b term) := by
  intro s hk hn
  refine within_mapErr _ (within_map _ (Run.within_bind (Q := fun res => match res with
    | .ok (_, .error _) r => Pays (5 * k + 19) (4 * k + 16) s r ∨ (Capped k s r ∧ (content r.inner).head? = some ' ')
    | .ok (_, .ok _) _ => False
    | .err _ u => Capped k s u.val) (Run.within_bind (hT s hk hn) ?_) ?_))
  · rintro (⟨t, r⟩ | ⟨e, u⟩) h
    · obtain ⟨h1, h2⟩ := h
      refine Run.within_mono (loop_counted k n b hT _ r (fewSegments_desc hk h1.1) rfl (by omega) [] (Expr.term t)) ?_
      rintro res ⟨e, reason, x, rfl, h | ⟨h, h'⟩⟩
      · exact .inl ((h1.trans h).more (by omega))
      · exact .inr ⟨h1.then_capped h, h'⟩
    · exact Run.within_pure h
  · rintro (⟨⟨e, reason | _⟩, r⟩ | ⟨e, u⟩) h
    · exact Run.within_pure h
    · exact absurd h id
    · exact Run.within_pure h

theorem cache_counted (k : Nat) (b : Build) (n : Nat) :
    TermCost (S := S) k n (term b) ∧ ExprCost (S := S) k n (expr b) := by
  induction n using Nat.strongRecOn with
  | ind n ih =>
    have hT : TermCost (S := S) k n (term b) := by
      intro s hk hn
      rw [term]
      exact termOf_counted k n (fun m hm => (ih m hm).2) s hk hn
    refine ⟨hT, ?_⟩
    intro s hk hn
    rw [expr]
    exact exprOf_counted k n b hT s hk hn

/-! ## Counting changes nothing -/

section
variable {S : Type} [Sequence S Str] [RewindSequence S]

theorem sim_anyCharLoop (st : Stream (Counted S)) :
    Run.Sim (anyCharLoop (S := Counted S) st) (anyCharLoop st.1) (SameResult fun r r' => r.inner = r' ∧ True) := by
  revert st
  refine anyCharLoop.fixpoint_induct (S := Counted S) (motive := fun g => ∀ st : Stream (Counted S),
    Run.Sim (g st) (anyCharLoop st.1) (SameResult fun r r' => r.inner = r' ∧ True)) ?_ ?_
  · exact Run.admissible_fun (fun (st : Stream (Counted S)) x => Run.Sim x (anyCharLoop st.1)
      (SameResult fun (r : Counted S) r' => r.inner = r' ∧ True)) fun _ => Run.sim_diverge
  · intro g ih st
    rw [anyCharLoop]
    refine Run.sim_bind (sim_counted_next st _) ?_
    rintro ⟨o, st'⟩ ⟨_, _⟩ ⟨rfl, rfl⟩
    cases o with
    | none => exact Run.sim_pure (.err ⟨rfl, trivial⟩)
    | some e =>
      simp only
      cases e.chars.head? with
      | none => exact ih st'
      | some d => exact Run.sim_bind (sim_counted_advance _ _) fun a b h => Run.sim_pure (.ok ⟨h, trivial⟩)

theorem sim_op : SimParse (counting (S := S)) op op := by
  have hc : SimParse (counting (S := S)) anyChar.parse anyChar.parse := by
    rintro s _ rfl
    exact sim_anyCharLoop (segments s)
  refine sim_relabel hc ?_
  intro Q a b hab
  cases hab with
  | err h => exact Run.sim_pure (.err h)
  | ok h =>
    simp only
    split
    · exact Run.sim_pure (.ok h)
    · exact Run.sim_pure (.err h)

theorem sim_zero : SimParse (counting (S := S)) zero zero := by
  rintro s _ rfl
  exact sim_theCharLoop '0' (segments s)

theorem sim_space : SimParse (counting (S := S)) space space := Parcom.sim_space

/-- The grammar on a counted sequence does what it does on the sequence in it, or does not come back. -/
theorem sim_expr (b : Build) : SimParse (counting (S := S)) (expr b) (expr b) := by
  refine expr.fixpoint_induct (S := Counted S) b
    (fun f => SimParse (counting (S := S)) f (expr b)) (fun f => SimParse (counting (S := S)) f (term b)) ?_ ?_ ?_ ?_
  · exact Run.admissible_fun (fun s x => ∀ s', (counting (S := S)).Similar s s' → Run.Sim x (expr b s')
      (SameResult (counting.Both s s'))) fun _ _ _ => Run.sim_diverge
  · exact Run.admissible_fun (fun s x => ∀ s', (counting (S := S)).Similar s s' → Run.Sim x (term b s')
      (SameResult (counting.Both s s'))) fun _ _ _ => Run.sim_diverge
  · intro t ht s s' hs
    rw [expr]
    exact sim_mapErr (sim_map (sim_binExpr b (term := Parser.ofFn t) (term' := Parser.ofFn (term b)) _ _ ht
      (sim_map (sim_join (sim_join sim_space sim_op) sim_space) _)) _) _ s s' hs
  · intro e he s s' hs
    rw [term]
    exact sim_mapErr (sim_map (sim_or sim_zero
      (sim_map (sim_join (sim_join (sim_atom _) (q := Parser.ofFn e) (q' := Parser.ofFn (expr b)) he) (sim_atom _)) _)) _) _
      s s' hs

end

/-! ## C110 -/

/-- C110: the grammar makes a number of calls of its input that is linear in the number of chars ahead, however deeply
parentheses are nested, and whether it finds an expression or not. `k` bounds the pieces the text comes in. Counting does
not change what it does: with the counter, it returns what it returns without. -/
theorem _root_.Parcom.C110 (k : Nat) (b : Build) (s : Counted S) (hk : FewSegments k s.inner) :
    (∃ res res', expr b s = pure res ∧ expr b s.inner = pure res' ∧ SameResult (fun r r' => r.inner = r') res res' ∧
      (left res).calls ≤ s.calls + (5 * k + 19) * (content s.inner).length + (4 * k + 16)) ∨
    ∃ f, expr b s = Run.fault f ∧ expr b s.inner = Run.fault f := by
  have h := (cache_counted (S := S) k b (ahead s)).2 s hk (Nat.le_refl _)
  rcases sim_expr b s s.inner rfl with ⟨res, res', h1, h2, h3⟩ | ⟨f, h1, h2⟩ | h1
  · left
    refine ⟨res, res', h1, h2, h3.mono fun _ _ h => h.1, ?_⟩
    rcases h with ⟨a, g1, g2⟩ | ⟨f, g1⟩
    · rw [h1] at g1
      have g1 := Run.pure_inj'.mp g1
      subst g1
      cases res with
      | ok v r =>
        rcases g2 with g2 | g2
        · exact Nat.le_trans (Nat.le_add_right _ _) g2.2
        · exact g2.1.2
      | err e u => exact g2.2
    · rw [h1] at g1; cases g1
  · exact .inr ⟨f, h1, h2⟩
  · rcases h with ⟨a, g1, g2⟩ | ⟨f, g1⟩ <;> rw [h1] at g1 <;> cases g1

/-- On a `&str` without traps: at most 24 calls a char, and 20. -/
theorem _root_.Parcom.C110_str (b : Build) (s : Counted StrRef) (hs : ¬ Trap s.inner.text.chars) :
    ∃ res, expr b s = pure res ∧ (left res).calls ≤ s.calls + 24 * s.inner.text.chars.length + 20 := by
  rcases C110 1 b s (strRef_few _) with ⟨res, -, h, -, -, h2⟩ | ⟨f, -, h⟩
  · exact ⟨res, h, h2⟩
  · exact absurd ((C109_panics b s.inner).mp ⟨f, h⟩) hs

/-- The inputs of `main`, on a `&str`: the number of calls is linear in the depth. -/
theorem _root_.Parcom.C110_inputs (b : Build) (d : Nat) :
    ∃ r, expr b (⟨⟨0, 0, ⟨input d⟩⟩, 0⟩ : Counted StrRef) = pure (.ok (nestedExpr d) r) ∧ r.calls ≤ 48 * d + 44 := by
  obtain ⟨s', h1, h2⟩ := C108_inputs b (s := (⟨0, 0, ⟨input d⟩⟩ : StrRef)) d rfl
  rcases C110 1 b (⟨⟨0, 0, ⟨input d⟩⟩, 0⟩ : Counted StrRef) (strRef_few _) with ⟨res, res', g1, g2, g3, g4⟩ | ⟨f, -, h⟩
  · have g2 : expr b (⟨0, 0, ⟨input d⟩⟩ : StrRef) = pure res' := g2
    rw [h1] at g2
    have g2 := Run.pure_inj'.mp g2
    subst g2
    cases g3 with
    | ok h =>
      refine ⟨_, g1, Nat.le_trans g4 ?_⟩
      have : (content (⟨0, 0, ⟨input d⟩⟩ : StrRef)).length = 2 * d + 1 := by
        show (input d).length = _
        simp [input]; omega
      show 0 + _ * (content (⟨0, 0, ⟨input d⟩⟩ : StrRef)).length + _ ≤ _
      rw [this]
      omega
  · exact nomatch h1.symm.trans h

/-- `((0` is no expression; nothing is tried again. -/
example (b : Build) : ∃ res, expr b (⟨⟨0, 0, ⟨['(', '(', '0']⟩⟩, 0⟩ : Counted StrRef) = pure res ∧ (left res).calls ≤ 92 := by
  refine C110_str b _ ?_
  rintro ⟨p, c, rest, h, hw, -⟩
  have h : ['(', '(', '0'] = p ++ c :: rest := h
  have hm : c ∈ ['(', '(', '0'] := by rw [h]; simp
  simp at hm
  rcases hm with rfl | rfl <;> revert hw <;> decide

end Parcom.Cache
