import Verif.Model.CalcStack
import Verif.Spec.CalcStack
import Verif.Lemmas.CalcTrap
/-!
# How deep the calculator calls itself
-/
namespace Parcom.Calc
open Spec Spec.Calc BTree
variable {d : Nat}

theorem nesting_lt_height : ∀ e : Expr, nesting e < height e
  | .binOp l _ r => by
    have := nesting_lt_height l
    have := nesting_lt_height r
    simp only [nesting, height]
    omega
  | .term (.parenthesized e) => by
    have := nesting_lt_height e
    simp only [nesting, height]
    omega
  | .term (.integer _) => by simp [nesting, height]

/-- Dropping an expression needs as many calls as the expression has expressions inside one another. -/
theorem dropIn_eq : ∀ (n : Nat) (e : Expr), dropIn n e = if height e ≤ n then pure () else Run.fault .abort
  | 0, e => by
    have := nesting_lt_height e
    rw [if_neg (by omega)]; rfl
  | n + 1, .binOp l op r => by
    rw [dropIn, dropIn_eq n l, dropIn_eq n r]
    by_cases hl : height l ≤ n
    · rw [if_pos hl]
      simp only [Run.pure_bind']
      by_cases hr : height r ≤ n
      · rw [if_pos hr, if_pos (by simp only [height]; omega)]
      · rw [if_neg hr, if_neg (by simp only [height]; omega)]
    · rw [if_neg hl]
      exact (if_neg (by simp only [height]; omega)).symm
  | n + 1, .term (.parenthesized e) => by
    rw [dropIn, dropIn_eq n e]
    simp only [height, Nat.add_le_add_iff_right]
  | n + 1, .term (.integer m) => by
    rw [dropIn, if_pos (by simp [height])]

mutual
/-- `term` with room for `n` calls of `expr` and `d` of the destructor runs out of it. -/
inductive DeepTerm (d : Nat) : Nat → List Char → Prop where
  | unclosed {n : Nat} {cs rest : List Char} {e : Expr} : ExprAt cs (.ok e rest) → ¬ Wide rest → rest.head? ≠ some ')' →
      d < height e → DeepTerm d n ('(' :: cs)
  | opened {n : Nat} {cs : List Char} : DeepExpr d n cs → DeepTerm d n ('(' :: cs)
/-- `expr` with room for `n` calls, itself included, runs out of it. -/
inductive DeepExpr (d : Nat) : Nat → List Char → Prop where
  | zero {cs : List Char} : DeepExpr d 0 cs
  | first {n : Nat} {cs : List Char} : DeepTerm d n cs → DeepExpr d (n + 1) cs
  | tail {n : Nat} {cs rest : List Char} {t : Term} : TermAt cs (.ok t rest) → DeepTail d n rest → DeepExpr d (n + 1) cs
/-- One of the operands after the first runs out of it. -/
inductive DeepTail (d : Nat) : Nat → List Char → Prop where
  | here {n : Nat} {o : Op} {cs ds : List Char} : OpBefore o cs ds → DeepTerm d n ds → DeepTail d n cs
  | later {n : Nat} {o : Op} {cs ds rest : List Char} {t : Term} : OpBefore o cs ds → TermAt ds (.ok t rest) →
      DeepTail d n rest → DeepTail d n cs
end

section
variable {S : Type} [Sequence S Str] [RewindSequence S] [LawfulSequence S] [L : LawfulRewind S] [Gapless S]

/-- Before an opening parenthesis, `term` calls `expr` once, behind the parenthesis, and then looks for the closing one. -/
theorem term_opened {s : S} {cs : List Char} (h : content s = '(' :: cs) :
    ∃ r : S, content r = cs ∧ ∀ (d : Nat) (f g : S → Run (PResult S Expr (Miss Unit))), f r = g r →
      (∀ e, f r = Run.fault e → termIn d f s = Run.fault e ∧ termOf g s = Run.fault e) ∧
      (∀ e u, f r = pure (.err e u) → termIn d f s = termOf g s) ∧
      (∀ e r', f r = pure (.ok e r') → Wide (content r') ∨ (content r').head? = some ')' → termIn d f s = termOf g s) ∧
      (∀ e r', f r = pure (.ok e r') → ¬ Wide (content r') → (content r').head? ≠ some ')' →
        termIn d f s = dropIn d e >>= fun _ => termOf g s) := by
  have hi := integer_at (s := s) (ds := []) (rest := '(' :: cs) h (by simp) StartsDigit.not_paren
  obtain ⟨e, u, h1, h2⟩ : ∃ e u, integer s = pure (.err e u) ∧ L.Desc s u.val := hi
  have hw : u.rewind (anchor s) = pure s := L.rewind h2
  obtain ⟨r, hr1, hr2, hr3⟩ := atom_ok (s := s) (c := '(') rfl h
  have hm : shouldTerminate e = false := rfl
  refine ⟨r, hr2, fun d f g hfg => ⟨fun e hf => ?_, fun e u hf => ?_, fun e r' hf hr => ?_, fun e r' hf hnw hnp => ?_⟩⟩ <;>
    have hg := hfg.symm.trans hf
  · simp only [termOf, termIn, Parser.joinDropping, Parser.mapErr, Parser.map, Parser.or, Parser.join, Parser.ofFn, h1,
      Run.pure_bind', hw, hr1, hm, hf, hg, Bool.false_eq_true, not_false_eq_true, if_true, Run.fault_bind, and_self]
  · simp only [termOf, termIn, Parser.joinDropping, Parser.mapErr, Parser.map, Parser.or, Parser.join, Parser.ofFn, h1,
      Run.pure_bind', hw, hr1, hm, hf, hg, Bool.false_eq_true, not_false_eq_true, if_true]
    rfl
  · rcases hr with hr | hr
    · obtain ⟨err, ha⟩ := atom_panic (s := r') (c := ')') rfl hr
      simp only [termOf, termIn, Parser.joinDropping, Parser.mapErr, Parser.map, Parser.or, Parser.join, Parser.ofFn, h1, done,
        Run.pure_bind', hw, hr1, hm, hf, hg, ha, Bool.false_eq_true, not_false_eq_true, if_true, Run.fault_bind]
    · obtain ⟨rest, hc⟩ := head_split hr
      obtain ⟨r₂, ha, -⟩ := atom_ok (s := r') (c := ')') rfl hc
      simp only [termOf, termIn, Parser.joinDropping, Parser.mapErr, Parser.map, Parser.or, Parser.join, Parser.ofFn, h1, done,
        Run.pure_bind', hw, hr1, hm, hf, hg, ha, Bool.false_eq_true, not_false_eq_true, if_true]
  · obtain ⟨err, u₂, ha, -⟩ := atom_miss (s := r') (c := ')') rfl hnw hnp
    have hm₂ : ∀ x : Either (Either (Miss Unit) (Miss Unit)) (Miss Unit), shouldTerminate x = false := by
      rintro ((_ | _) | _) <;> rfl
    rw [dropIn_eq]
    by_cases hh : height e ≤ d
    · simp only [termOf, termIn, Parser.joinDropping, Parser.mapErr, Parser.map, Parser.or, Parser.join, Parser.ofFn, h1, done,
        Run.pure_bind', hw, hr1, hm, hf, hg, ha, dropIn_eq, if_pos hh, Bool.false_eq_true, not_false_eq_true, if_true]
      rfl
    · simp only [termOf, termIn, Parser.joinDropping, Parser.mapErr, Parser.map, Parser.or, Parser.join, Parser.ofFn, h1, done,
        Run.pure_bind', hw, hr1, hm, hf, hg, ha, dropIn_eq, if_neg hh, Bool.false_eq_true, not_false_eq_true, if_true,
        Run.fault_bind]

/-- Elsewhere it makes no difference which `expr` there is to call. -/
theorem term_other {s : S} (h : (content s).head? ≠ some '(') (d : Nat) (f g : S → Run (PResult S Expr (Miss Unit))) :
    termIn d f s = termOf g s := by
  obtain ⟨ds, rest, h1, h2, h3⟩ := digits_split (content s)
  have hi := integer_at h1 h2 h3
  by_cases hn : ds = []
  · rw [if_pos hn] at hi
    obtain ⟨e, u, h1, h2⟩ : ∃ e u, integer s = pure (.err e u) ∧ L.Desc s u.val := hi
    have hw : u.rewind (anchor s) = pure s := L.rewind h2
    have hm : shouldTerminate e = false := rfl
    by_cases hwide : Wide (content s)
    · obtain ⟨e, ha⟩ := atom_panic (s := s) (c := '(') rfl hwide
      simp only [termOf, termIn, Parser.joinDropping, Parser.mapErr, Parser.map, Parser.or, Parser.join, Parser.ofFn, h1,
        Run.pure_bind', hw, ha, hm, Bool.false_eq_true, not_false_eq_true, if_true, Run.fault_bind]
    · obtain ⟨e, u, ha, -⟩ := atom_miss (s := s) (c := '(') rfl hwide h
      simp only [termOf, termIn, Parser.joinDropping, Parser.mapErr, Parser.map, Parser.or, Parser.join, Parser.ofFn, h1,
        Run.pure_bind', hw, ha, hm, Bool.false_eq_true, not_false_eq_true, if_true]
      rfl
  · rw [if_neg hn] at hi
    split at hi
    · obtain ⟨s', h1, -⟩ := hi
      simp only [termOf, termIn, Parser.mapErr, Parser.map, Parser.or, Parser.ofFn, h1, Run.pure_bind']
      rfl
    · obtain ⟨e, h1⟩ := hi
      simp only [termOf, termIn, Parser.mapErr, Parser.map, Parser.or, Parser.ofFn, h1, Run.fault_bind]

/-- The limits make `term` run out of room on the texts that reach them, and no difference on the others. -/
theorem term_limited {b : Build} {d n : Nat}
    (h : ∀ r : S, (DeepExpr d n (content r) → exprIn b d n r = Run.fault .abort) ∧
      (¬ DeepExpr d n (content r) → exprIn b d n r = expr b r)) (s : S) :
    (DeepTerm d n (content s) → termIn d (exprIn b d n) s = Run.fault .abort) ∧
    (¬ DeepTerm d n (content s) → termIn d (exprIn b d n) s = term b s) := by
  rw [term]
  by_cases hp : (content s).head? = some '('
  · obtain ⟨cs, hc⟩ := head_split hp
    obtain ⟨r, h1, h2⟩ := term_opened hc
    rw [hc]
    by_cases hx : DeepExpr d n cs
    · have := ((h2 d (exprIn b d n) (exprIn b d n) rfl).1 .abort ((h r).1 (h1 ▸ hx))).1
      exact ⟨fun _ => this, fun hd => absurd (.opened hx) hd⟩
    · have hf := (h r).2 (h1 ▸ hx)
      obtain ⟨g1, g2, g3, g4⟩ := h2 d (exprIn b d n) (fun s => expr b s) hf
      obtain ⟨out, k1, k2, -⟩ := (calc_at b r).2
      rw [h1] at k1
      have hun : ∀ {e rest}, ExprAt cs (.ok e rest) → out = .ok e rest := fun hy => (at_unique _).2.1 _ _ k1 hy
      cases out with
      | miss =>
        obtain ⟨e, u, k4, -⟩ := k2
        refine ⟨fun hd => ?_, fun _ => g2 _ _ (hf.trans k4)⟩
        cases hd with
        | unclosed hy => cases hun hy
        | opened hy => exact absurd hy hx
      | panic =>
        obtain ⟨e, k4⟩ := k2
        obtain ⟨g5, g6⟩ := g1 _ (hf.trans k4)
        refine ⟨fun hd => ?_, fun _ => g5.trans g6.symm⟩
        cases hd with
        | unclosed hy => cases hun hy
        | opened hy => exact absurd hy hx
      | ok e rest =>
        obtain ⟨s', k4, k5, -⟩ := k2
        by_cases hw : Wide rest ∨ rest.head? = some ')'
        · refine ⟨fun hd => ?_, fun _ => g3 _ _ (hf.trans k4) (k5 ▸ hw)⟩
          cases hd with
          | unclosed hy hy1 hy2 =>
            cases hun hy
            rcases hw with hw | hw
            · exact absurd hw hy1
            · exact absurd hw hy2
          | opened hy => exact absurd hy hx
        · have := g4 _ _ (hf.trans k4) (by rw [k5]; exact fun h => hw (.inl h)) (by rw [k5]; exact fun h => hw (.inr h))
          rw [dropIn_eq] at this
          by_cases hh : height e ≤ d
          · rw [if_pos hh] at this
            refine ⟨fun hd => ?_, fun _ => this⟩
            cases hd with
            | unclosed hy _ _ hy3 =>
              cases hun hy
              omega
            | opened hy => exact absurd hy hx
          · rw [if_neg hh] at this
            refine ⟨fun _ => this, fun hd => absurd (.unclosed k1 (fun h => hw (.inl h)) (fun h => hw (.inr h)) (by omega)) hd⟩
  · refine ⟨fun hd => ?_, fun _ => term_other hp d _ _⟩
    generalize content s = cs at hd hp
    cases hd <;> simp at hp

theorem tail_limited {b : Build} {d n : Nat} {f : S → Run (PResult S Term (Miss Unit))}
    (h : ∀ s : S, (DeepTerm d n (content s) → f s = Run.fault .abort) ∧ (¬ DeepTerm d n (content s) → f s = term b s))
    (s : S) (stack : List (BTree Op Term × Op)) (t : Term) :
    (DeepTail d n (content s) → binExprLoop b f (spacedOp (S := S)).parse Expr.binOp Expr.term 0
      (evalStack Expr.binOp Expr.term stack) (Expr.term t) s = Run.fault .abort) ∧
    (¬ DeepTail d n (content s) → binExprLoop b f (spacedOp (S := S)).parse Expr.binOp Expr.term 0
      (evalStack Expr.binOp Expr.term stack) (Expr.term t) s =
        binExprLoop b (fun s => term b s) (spacedOp (S := S)).parse Expr.binOp Expr.term 0
          (evalStack Expr.binOp Expr.term stack) (Expr.term t) s) := by
  generalize hn : (content s).length = m
  induction m using Nat.strongRecOn generalizing s stack t with
  | _ m ih =>
    subst hn
    rcases spacedOp_at s with ⟨o, ds, h1, r, h2, h3, h4⟩ | ⟨h1, e, u, h2, h3⟩
    · have hlen := h1.shorter
      have honly : ∀ {o' ds'}, OpBefore o' (content s) ds' → o' = o ∧ ds' = ds := fun h' => by
        have := h'.unique h1
        exact this
      obtain ⟨out, k1, k2, k3⟩ := (calc_at b r).1
      by_cases hd : DeepTerm d n (content r)
      · have hf := (h r).1 hd
        constructor
        · intro _
          rw [binExprLoop, h2]
          simp only [Run.pure_bind', ge_iff_le, Nat.zero_le, if_true, hf, Run.fault_bind]
        · intro hx
          exact absurd (.here h1 (h3 ▸ hd)) hx
      · have hf := (h r).2 hd
        cases out with
        | miss =>
          obtain ⟨e, u, k4, k5⟩ := k2
          constructor
          · intro hx
            exfalso
            cases hx with
            | here g1 g2 =>
              obtain ⟨rfl, rfl⟩ := honly g1
              exact hd (h3 ▸ g2)
            | later g1 g2 g3 =>
              obtain ⟨rfl, rfl⟩ := honly g1
              cases (at_unique _).1 _ _ (h3 ▸ k1) g2
          · intro _
            rw [binExprLoop, binExprLoop, h2]
            simp only [Run.pure_bind', ge_iff_le, Nat.zero_le, if_true, hf, k4]
        | panic =>
          obtain ⟨e, k4⟩ := k2
          constructor
          · intro hx
            exfalso
            cases hx with
            | here g1 g2 =>
              obtain ⟨rfl, rfl⟩ := honly g1
              exact hd (h3 ▸ g2)
            | later g1 g2 g3 =>
              obtain ⟨rfl, rfl⟩ := honly g1
              cases (at_unique _).1 _ _ (h3 ▸ k1) g2
          · intro _
            rw [binExprLoop, binExprLoop, h2]
            simp only [Run.pure_bind', ge_iff_le, Nat.zero_le, if_true, hf, k4, Run.fault_bind]
        | ok v rest =>
          obtain ⟨s', k4, k5, k6⟩ := k2
          have hlen' := k3 _ _ rfl
          have hstep := binExprLoop_cons b Expr.binOp Expr.term (nextPrecedence_threshold calc_belowMax) h2 k4 stack t
          have hstep' := binExprLoop_cons b Expr.binOp Expr.term (nextPrecedence_threshold calc_belowMax) h2 (hf.trans k4)
            stack t
          have hrec := ih (content s').length (by rw [k5]; rw [h3] at hlen'; omega) s'
            (reducePure threshold o stack (leaf t)) v rfl
          rw [hstep, hstep']
          constructor
          · intro hx
            refine hrec.1 ?_
            cases hx with
            | here g1 g2 =>
              obtain ⟨rfl, rfl⟩ := honly g1
              exact absurd (h3 ▸ g2) hd
            | later g1 g2 g3 =>
              obtain ⟨rfl, rfl⟩ := honly g1
              cases (at_unique _).1 _ _ (h3 ▸ k1) g2
              rw [k5]; exact g3
          · intro hx
            refine hrec.2 fun hy => hx ?_
            rw [k5] at hy
            exact .later h1 (h3 ▸ k1) hy
    · constructor
      · intro hx
        exfalso
        cases hx with
        | here g1 => exact h1 _ _ g1
        | later g1 => exact h1 _ _ g1
      · intro _
        rw [binExprLoop, binExprLoop, h2]
        simp only [Run.pure_bind']

/-- The limit makes `expr` run out of room on the texts that reach it, and no difference on the others. -/
theorem expr_limited (b : Build) (d n : Nat) (s : S) :
    (DeepExpr d n (content s) → exprIn b d n s = Run.fault .abort) ∧ (¬ DeepExpr d n (content s) → exprIn b d n s = expr b s) := by
  induction n generalizing s with
  | zero => exact ⟨fun _ => rfl, fun h => absurd .zero h⟩
  | succ n ih =>
    have hT := term_limited ih
    rw [exprIn, expr]
    obtain ⟨out, k1, k2, k3⟩ := (calc_at b s).1
    have hE : ∀ (f : S → Run (PResult S Term (Miss Unit))) (e : Fault),
        binExprImpl b f (spacedOp (S := S)).parse Expr.binOp Expr.term s 0 = Run.fault e → exprOf b f s = Run.fault e := by
      intro f e h
      show (((binExprImpl b f (spacedOp (S := S)).parse Expr.binOp Expr.term s 0 >>= _) >>= _) >>= _) = _
      rw [h]; rfl
    have hE' : ∀ (f g : S → Run (PResult S Term (Miss Unit))),
        binExprImpl b f (spacedOp (S := S)).parse Expr.binOp Expr.term s 0 =
        binExprImpl b g (spacedOp (S := S)).parse Expr.binOp Expr.term s 0 → exprOf b f s = exprOf b g s := by
      intro f g h
      show (((binExprImpl b f (spacedOp (S := S)).parse Expr.binOp Expr.term s 0 >>= _) >>= _) >>= _) = _
      rw [h]; rfl
    by_cases hd : DeepTerm d n (content s)
    · refine ⟨fun _ => hE _ _ ?_, fun hx => absurd (.first hd) hx⟩
      rw [binExprImpl, (hT s).1 hd]; rfl
    · have hf := (hT s).2 hd
      cases out with
      | miss =>
        obtain ⟨e, u, k4, -⟩ := k2
        refine ⟨fun hx => ?_, fun _ => hE' _ _ ?_⟩
        · cases hx with
          | first h => exact absurd h hd
          | tail h h' => cases (at_unique _).1 _ _ k1 h
        · rw [binExprImpl, binExprImpl, hf]
          simp only [k4, Run.pure_bind']
      | panic =>
        obtain ⟨e, k4⟩ := k2
        refine ⟨fun hx => ?_, fun _ => hE' _ _ ?_⟩
        · cases hx with
          | first h => exact absurd h hd
          | tail h h' => cases (at_unique _).1 _ _ k1 h
        · rw [binExprImpl, binExprImpl, hf]
          simp only [k4, Run.fault_bind]
      | ok t rest =>
        obtain ⟨r, k4, k5, k6⟩ := k2
        have hrec := tail_limited hT r [] t
        refine ⟨fun hx => hE _ _ ?_, fun hx => hE' _ _ ?_⟩
        · rw [binExprImpl, hf, k4]
          simp only [Run.pure_bind']
          refine hrec.1 ?_
          cases hx with
          | first h => exact absurd h hd
          | tail h h' => cases (at_unique _).1 _ _ k1 h; rw [k5]; exact h'
        · rw [binExprImpl, binExprImpl, hf]
          simp only [k4, Run.pure_bind']
          exact hrec.2 fun hy => hx (.tail k1 (k5 ▸ hy))

end

/-! ## Where a text gets so deep -/

/-- Every text has an outcome. -/
theorem expr_outcome (cs : List Char) : ∃ out, ExprAt cs out := by
  obtain ⟨out, h, -⟩ := (calc_at .checked (⟨0, 0, ⟨cs⟩⟩ : StrRef)).2
  exact ⟨out, h⟩

/-- `expr` accepts the longest expression, unless it panics. -/
theorem expr_ok_iff {cs rest : List Char} {e : Expr} : ExprAt cs (.ok e rest) ↔ ∃ w, cs = w ++ rest ∧ ExprText e w ∧
    (∀ e' w' rest', cs = w' ++ rest' → ExprText e' w' → w'.length ≤ w.length) ∧ ¬ Trap cs := by
  constructor
  · intro h
    obtain ⟨w, rfl, hw⟩ := h.sound
    refine ⟨w, rfl, hw, fun e' w' rest' he h' => ?_, fun ht => ?_⟩
    · rcases h'.longest (he ▸ h) with ho | ⟨e'', rest'', ho, hl⟩
      · cases ho
      · cases ho
        have := congrArg List.length he
        simp only [List.length_append] at this
        omega
    · cases (at_unique _).2.1 _ _ h (panic_iff.mpr ht)
  · rintro ⟨w, rfl, hw, hlong, ht⟩
    obtain ⟨out, ho⟩ := expr_outcome (w ++ rest)
    rcases hw.longest ho with rfl | ⟨e', rest', rfl, hl⟩
    · exact absurd (panic_iff.mp ho) ht
    · obtain ⟨w', he, hw'⟩ := ho.sound
      have h1 := hlong e' w' rest' he hw'
      have h2 := congrArg List.length he
      simp only [List.length_append] at h2
      obtain ⟨rfl, rfl⟩ := List.append_inj he (by omega)
      have a := expr_reads (k := []) hw' not_starts_nil (tail_stops (.inl rfl))
      have a' := expr_reads (k := []) hw not_starts_nil (tail_stops (.inl rfl))
      cases (at_unique _).2.1 _ _ a a'
      exact ho

theorem not_wide {rest : List Char} : (¬ Wide rest ∧ rest.head? ≠ some ')') ↔ ∀ c, rest.head? = some c → c ≠ ')' ∧ c.utf8Size ≤ 1 := by
  constructor
  · rintro ⟨h1, h2⟩ c hc
    refine ⟨fun h => h2 (h ▸ hc), Nat.not_lt.mp fun h => h1 ⟨c, hc, h⟩⟩
  · intro h
    refine ⟨?_, fun h1 => (h _ h1).1 rfl⟩
    rintro ⟨c, hc, hw⟩
    have := (h c hc).2
    omega

mutual
theorem DeepTerm.reaches : ∀ {n : Nat} {cs : List Char}, DeepTerm d n cs → ∀ {k : Nat} {p : List Char}, OperandNext k p →
    Reaches (k + (n + 1)) (p ++ cs) ∨ Spills d (p ++ cs)
  | n, _, .opened h, k, p, hp => by
    have := h.reaches (.opened hp)
    rw [show k + 1 + n = k + (n + 1) by omega] at this
    simpa using this
  | n, _, .unclosed (cs := cs) (rest := rest) (e := e) h h1 h2 h3, k, p, hp => by
    obtain ⟨w, rfl, g1, g2, g3⟩ := expr_ok_iff.mp h
    exact .inr ⟨k, p, w, rest, e, rfl, hp, g1, g2, g3, not_wide.mp ⟨h1, h2⟩, h3⟩
theorem DeepExpr.reaches : ∀ {n : Nat} {cs : List Char}, DeepExpr d n cs → ∀ {k : Nat} {p : List Char}, OperandNext k p →
    Reaches (k + n) (p ++ cs) ∨ Spills d (p ++ cs)
  | _, _, .zero, _, _, hp => .inl ⟨_, _, rfl, hp⟩
  | _, _, .first h, _, _, hp => h.reaches hp
  | _, _, .tail h h', _, _, hp => by
    have := fun {w t} (ht : TermText t w) => h'.reaches (.operand hp ht)
    obtain ⟨w, rfl, hw⟩ := h.sound
    simpa using this hw
theorem DeepTail.reaches : ∀ {n : Nat} {cs : List Char}, DeepTail d n cs → ∀ {k : Nat} {p : List Char}, OperandRead k p →
    Reaches (k + (n + 1)) (p ++ cs) ∨ Spills d (p ++ cs)
  | _, _, .here (o := o) ⟨sp, sp', h1, h2, _, he⟩ h', _, _, hp => by
    have := h'.reaches (.operator (o := o) hp h1 h2)
    rw [he]
    simpa using this
  | _, _, .later (o := o) ⟨sp, sp', h1, h2, _, he⟩ h' h'', _, _, hp => by
    have := fun {w t} (ht : TermText t w) => h''.reaches (.operand (.operator (o := o) hp h1 h2) ht)
    obtain ⟨w, rfl, hw⟩ := h'.sound
    rw [he]
    simpa using this hw
end

mutual
/-- With less room it runs out all the more. -/
theorem DeepTerm.less : ∀ {m : Nat} {cs : List Char}, DeepTerm d m cs → ∀ {n : Nat}, m = n + 1 → DeepTerm d n cs
  | _, _, .opened h, _, hm => .opened (h.less hm)
  | _, _, .unclosed h h1 h2 h3, _, _ => .unclosed h h1 h2 h3
theorem DeepExpr.less : ∀ {m : Nat} {cs : List Char}, DeepExpr d m cs → ∀ {n : Nat}, m = n + 1 → DeepExpr d n cs
  | _, _, _, 0, _ => .zero
  | _, _, .first h, _ + 1, hm => .first (h.less (Nat.succ.inj hm))
  | _, _, .tail h h', _ + 1, hm => .tail h (h'.less (Nat.succ.inj hm))
theorem DeepTail.less : ∀ {m : Nat} {cs : List Char}, DeepTail d m cs → ∀ {n : Nat}, m = n + 1 → DeepTail d n cs
  | _, _, .here h h', _, hm => .here h (h'.less hm)
  | _, _, .later h h' h'', _, hm => .later h h' (h''.less hm)
end

theorem DeepTerm.not_space {n : Nat} {q : List Char} (h : DeepTerm d n q) : q.head? ≠ some ' ' := by
  cases h <;> simp

theorem DeepExpr.after {n : Nat} {q sp sp' w : List Char} {o : Op} {t : Term} (h : DeepExpr d n q) (ht : TermText t w)
    (h1 : Spaces sp) (h2 : Spaces sp') : DeepExpr d n (w ++ (sp ++ symbol o :: (sp' ++ q))) := by
  have ht : TermAt (w ++ (sp ++ symbol o :: (sp' ++ q))) (.ok t (sp ++ symbol o :: (sp' ++ q))) :=
    term_reads ht (Spaces.not_digit h1)
  cases h with
  | zero => exact .zero
  | first h => exact .tail ht (.here ⟨sp, sp', h1, h2, h.not_space, rfl⟩ h)
  | tail h h' =>
    have hs : q.head? ≠ some ' ' := by
      obtain ⟨w, rfl, hw⟩ := h.sound
      exact hw.not_space
    exact .tail ht (.later ⟨sp, sp', h1, h2, hs, rfl⟩ h h')

mutual
theorem _root_.Parcom.Spec.Calc.OperandNext.deep {k : Nat} {p : List Char} : OperandNext k p → ∀ {n : Nat} {q : List Char},
    DeepExpr d n q → DeepExpr d (n + k) (p ++ q)
  | .start, _, _, h => h
  | .opened (k := k) (p := p) h', n, q, h => by
    have : DeepExpr d (n + 1 + k) (p ++ ('(' :: q)) := h'.deep (.first (.opened h))
    rw [show n + 1 + k = n + (k + 1) by omega] at this
    simpa using this
  | .operator (p := p) (sp := sp) (sp' := sp') (o := o) h' h1 h2, n, q, h => by
    have := h'.deep (n := n) (r := sp ++ symbol o :: (sp' ++ q)) fun _ w ht => h.after ht h1 h2
    simpa using this
theorem _root_.Parcom.Spec.Calc.OperandRead.deep {k : Nat} {p : List Char} : OperandRead k p → ∀ {n : Nat} {r : List Char},
    (∀ t w, TermText t w → DeepExpr d n (w ++ r)) → DeepExpr d (n + k) (p ++ r)
  | .operand (p := p) (w := w) h ht, n, r, hr => by
    have := h.deep (hr _ _ ht)
    simpa using this
end

theorem deep_iff {n : Nat} {cs : List Char} : DeepExpr d n cs ↔ Reaches n cs ∨ Spills d cs := by
  constructor
  · intro h
    have := h.reaches (k := 0) (p := []) .start
    simpa using this
  · rintro (⟨p, rest, rfl, hp⟩ | ⟨k, p, w, rest, e, rfl, hp, g1, g2, g3, g4, g5⟩)
    · have := hp.deep (n := 0) (q := rest) (d := d) .zero
      simpa using this
    · obtain ⟨h1, h2⟩ := not_wide.mpr g4
      have key : ∀ m, DeepExpr d (m + 1 + k) (p ++ '(' :: (w ++ rest)) := fun m =>
        hp.deep (.first (.unclosed (expr_ok_iff.mpr ⟨w, rfl, g1, g2, g3⟩) h1 h2 g5))
      have down : ∀ m n, DeepExpr d (n + m) (p ++ '(' :: (w ++ rest)) → DeepExpr d n (p ++ '(' :: (w ++ rest)) := by
        intro m
        induction m with
        | zero => exact fun n h => h
        | succ m ih => exact fun n h => ih n (h.less rfl)
      refine down (1 + k) n ?_
      have := key n
      rwa [Nat.add_assoc] at this

/-! ## How deep the text of an expression is -/

/-- How many parentheses lie inside one another in an operand. -/
def termNesting : Term → Nat
  | .parenthesized e => nesting e + 1
  | .integer _ => 0

theorem nesting_term (t : Term) : nesting (.term t) = termNesting t := by cases t <;> rfl

theorem nesting_tree (tree : BTree Op Term) (n : Nat) : n < nesting (tree.eval Expr.binOp Expr.term) ↔
    n < termNesting tree.first ∨ ∃ p ∈ tree.tail, n < termNesting p.2 := by
  induction tree with
  | leaf t => simp [BTree.eval, first, tail, nesting_term]
  | node l o r ihl ihr =>
    have : nesting ((node l o r).eval Expr.binOp Expr.term) =
      max (nesting (l.eval Expr.binOp Expr.term)) (nesting (r.eval Expr.binOp Expr.term)) := rfl
    rw [this, show ∀ x y : Nat, (n < max x y ↔ n < x ∨ n < y) from fun x y => by omega, ihl, ihr]
    simp only [first, tail, List.mem_append, List.mem_cons]
    constructor
    · rintro ((h | ⟨p, h, h'⟩) | (h | ⟨p, h, h'⟩))
      · exact .inl h
      · exact .inr ⟨p, .inl h, h'⟩
      · exact .inr ⟨_, .inr (.inl rfl), h⟩
      · exact .inr ⟨p, .inr (.inr h), h'⟩
    · rintro (h | ⟨p, h | rfl | h, h'⟩)
      · exact .inl (.inl h)
      · exact .inl (.inr ⟨p, h, h'⟩)
      · exact .inr (.inl h')
      · exact .inr (.inr ⟨p, h, h'⟩)

theorem chain_deep {n N : Nat} (hT : ∀ t w k, w.length ≤ N → TermText t w → (DeepTerm d n (w ++ k) ↔ n < termNesting t))
    {ps : List (Op × Term)} {w k : List Char} (h : ChainText ps w) (hl : w.length ≤ N) (hk : k = [] ∨ k.head? = some ')') :
    DeepTail d n (w ++ k) ↔ ∃ p ∈ ps, n < termNesting p.2 := by
  have hkd : ¬ StartsDigit k := by
    rintro ⟨c, h1, h2⟩
    rcases hk with rfl | hk
    · simp at h1
    · rw [hk] at h1; simp at h1; subst h1; revert h2; decide
  induction h with
  | nil =>
    simp only [List.nil_append, List.not_mem_nil, false_and, exists_false, iff_false]
    intro h
    have : ∀ {o ds}, ¬ OpBefore o k ds := by
      rintro o ds ⟨sp, sp', ⟨h1, h2⟩, -, -, rfl⟩
      cases sp with
      | nil => exact h1 rfl
      | cons c sp =>
        have := h2 c (by simp)
        subst this
        rcases hk with hk | hk <;> simp at hk
    cases h with
    | here h => exact this h
    | later h => exact this h
  | @cons o t ps sp sp' w w' h1 h2 h3 h4 ih =>
    have hop : OpBefore o (sp ++ symbol o :: (sp' ++ (w ++ w')) ++ k) (w ++ (w' ++ k)) :=
      ⟨sp, sp', h1, h2, h3.not_space, by simp⟩
    simp only [List.length_append, List.length_cons] at hl
    have hd : ¬ StartsDigit (w' ++ k) := h4.not_digit fun _ => hkd
    have hr := term_reads h3 hd
    simp only [List.mem_cons, exists_eq_or_imp]
    have ih' : DeepTail d n (w' ++ k) ↔ ∃ p ∈ ps, n < termNesting p.2 := ih (by omega)
    rw [← ih', ← hT t w (w' ++ k) (by omega) h3]
    constructor
    · intro h
      cases h with
      | here g1 g2 => obtain ⟨rfl, rfl⟩ := hop.unique g1; exact .inl g2
      | later g1 g2 g3 =>
        obtain ⟨rfl, rfl⟩ := hop.unique g1
        cases (at_unique _).1 _ _ hr g2
        exact .inr g3
    · rintro (h | h)
      · exact .here hop h
      · exact .later hop hr h

theorem text_deep (N : Nat) :
    (∀ n t w k, w.length ≤ N → TermText t w → (DeepTerm d n (w ++ k) ↔ n < termNesting t)) ∧
    (∀ n e w k, w.length ≤ N → ExprText e w → (k = [] ∨ k.head? = some ')') → (DeepExpr d n (w ++ k) ↔ n ≤ nesting e)) := by
  induction N using Nat.strongRecOn with
  | _ N ih =>
    have hT : ∀ n t w k, w.length ≤ N → TermText t w → (DeepTerm d n (w ++ k) ↔ n < termNesting t) := by
      intro n t w k hl h
      cases h with
      | integer h1 h2 h3 h4 =>
        simp only [termNesting, Nat.not_lt_zero, iff_false]
        intro h
        have hs := starts_digits (rest := k) h1 h2
        generalize w ++ k = cs at h hs
        cases h <;> exact StartsDigit.not_paren hs
      | @parens e w h =>
        simp only [List.length_append, List.length_cons, List.length_nil] at hl
        have := (ih (N - 1) (by omega)).2 n e w (')' :: k) (by omega) h (.inr rfl)
        rw [termNesting, Nat.lt_succ_iff, ← this]
        have he : '(' :: w ++ [')'] ++ k = '(' :: (w ++ ')' :: k) := by simp
        rw [he]
        constructor
        · intro h
          cases h with
          | opened h => exact h
          | unclosed g1 g2 g3 =>
            have hp : ¬ StartsDigit (')' :: k) := by rintro ⟨c, h1, h2⟩; simp at h1; subst h1; revert h2; decide
            cases (at_unique _).2.1 _ _ (expr_reads h (k := ')' :: k) hp (tail_stops (.inr rfl))) g1
            exact absurd rfl g3
        · exact .opened
    refine ⟨hT, ?_⟩
    intro n e w k hl h hk
    obtain ⟨tree, w₁, w₂, rfl, hg, rfl, h1, h2, -, -⟩ := h.flat
    rw [List.length_append] at hl
    cases n with
    | zero => exact ⟨fun _ => Nat.zero_le _, fun _ => .zero⟩
    | succ n =>
      have hkd : ¬ StartsDigit k := by
        rintro ⟨c, h1, h2⟩
        rcases hk with rfl | hk
        · simp at h1
        · rw [hk] at h1; simp at h1; subst h1; revert h2; decide
      have hd : ¬ StartsDigit (w₂ ++ k) := h2.not_digit fun _ => hkd
      have hr := term_reads h1 hd
      rw [Nat.succ_le_iff, nesting_tree, ← hT n _ w₁ (w₂ ++ k) (by omega) h1, ← chain_deep (hT n) h2 (by omega) hk,
        List.append_assoc]
      constructor
      · intro h
        cases h with
        | first h => exact .inl h
        | tail h h' => cases (at_unique _).1 _ _ hr h; exact .inr h'
      · rintro (h | h)
        · exact .first h
        · exact .tail hr h

/-- In the text of an expression an operand is due inside as many parentheses as the expression has inside one another. -/
theorem reaches_text {n : Nat} {e : Expr} {w k : List Char} (h : ExprText e w) (hk : k = [] ∨ k.head? = some ')') :
    Reaches n (w ++ k) ∨ Spills d (w ++ k) ↔ n ≤ nesting e := by
  rw [← deep_iff]
  exact (text_deep w.length).2 n e w k (Nat.le_refl _) h hk

/-! ## How deep expressions are -/

/-- Evaluating never ends the process. -/
theorem eval_not_abort (b : Build) : ∀ e : Expr, eval b e ≠ Run.fault .abort
  | .binOp l op r => by
    have hl := eval_not_abort b l
    have hr := eval_not_abort b r
    rw [eval]
    cases hx : eval b l using Run.casesRun with
    | fault f => intro h; exact hl (hx.trans h)
    | diverge => intro h; cases h
    | ret x =>
      cases hy : eval b r using Run.casesRun with
      | fault f => intro h; exact hr (hy.trans h)
      | diverge => intro h; cases h
      | ret y =>
        simp only [Run.ret_bind]
        cases op <;> simp only [usizeAdd, usizeSub, usizeMul, usizeDiv] <;> repeat' split
        all_goals intro h; cases h
  | .term (.parenthesized e) => by
    rw [eval, evalTerm]; exact eval_not_abort b e
  | .term (.integer n) => by
    rw [eval, evalTerm]; intro h; cases h

/-- Evaluating always comes back. -/
theorem eval_comes_back (b : Build) : ∀ e : Expr, eval b e ≠ Run.diverge
  | .binOp l op r => by
    have hl := eval_comes_back b l
    have hr := eval_comes_back b r
    rw [eval]
    cases hx : eval b l using Run.casesRun with
    | fault f => intro h; cases h
    | diverge => exact absurd hx hl
    | ret x =>
      cases hy : eval b r using Run.casesRun with
      | fault f => intro h; cases h
      | diverge => exact absurd hy hr
      | ret y =>
        simp only [Run.ret_bind]
        cases op <;> simp only [usizeAdd, usizeSub, usizeMul, usizeDiv] <;> repeat' split
        all_goals intro h; cases h
  | .term (.parenthesized e) => by
    rw [eval, evalTerm]; exact eval_comes_back b e
  | .term (.integer n) => by
    rw [eval, evalTerm]; intro h; cases h

end Parcom.Calc
