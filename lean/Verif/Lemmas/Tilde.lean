import Verif.Spec.Tilde
import Verif.Lemmas.Calc
/-!
# What the grammar of the unit tests of `bin_expr` does on every text

`TermAt`, `ExprAt` and `TailAt` describe, on texts alone, what the parsers of `Model/Tilde.lean` do, as those of
`Lemmas/Calc.lean` do for the calculator.
-/
namespace Parcom.Tilde
open Spec Spec.Tilde BTree Sequence
open Calc (Wide Agrees agrees_advance agrees_fails atom_ok atom_miss atom_panic spaces_split spaces_unique join_first_miss
  join_first_panic join_step join_then map_agrees mapErr_agrees or_first or_last or_panic)

/-- The text begins with an operator between spaces, followed by `ds`. -/
def OpBefore (o : Op) (cs ds : List Char) : Prop :=
  ∃ sp sp', Spaces sp ∧ Spaces sp' ∧ ds.head? ≠ some ' ' ∧ cs = sp ++ symbol o :: (sp' ++ ds)

mutual
inductive TermAt : List Char → Calc.Outcome Term → Prop where
  | zero {rest : List Char} : TermAt ('0' :: rest) (.ok .zero rest)
  | wide {cs : List Char} : Wide cs → TermAt cs .panic
  | none {cs : List Char} : ¬ Wide cs → cs.head? ≠ some '0' → cs.head? ≠ some '(' → TermAt cs .miss
  | parens {cs rest : List Char} {e : Expr} : ExprAt cs (.ok e (')' :: rest)) →
      TermAt ('(' :: cs) (.ok (.parenthesized e) rest)
  | parensMiss {cs : List Char} : ExprAt cs .miss → TermAt ('(' :: cs) .miss
  | parensPanic {cs : List Char} : ExprAt cs .panic → TermAt ('(' :: cs) .panic
  | unclosed {cs rest : List Char} {e : Expr} : ExprAt cs (.ok e rest) → ¬ Wide rest → rest.head? ≠ some ')' →
      TermAt ('(' :: cs) .miss
  | unclosedWide {cs rest : List Char} {e : Expr} : ExprAt cs (.ok e rest) → Wide rest → TermAt ('(' :: cs) .panic
inductive ExprAt : List Char → Calc.Outcome Expr → Prop where
  | miss {cs : List Char} : TermAt cs .miss → ExprAt cs .miss
  | panic {cs : List Char} : TermAt cs .panic → ExprAt cs .panic
  | ok {cs rest rest' : List Char} {t : Term} {ps : List (Op × Term)} {tree : BTree Op Term} : TermAt cs (.ok t rest) →
      TailAt rest (.ok ps rest') → tree.first = t → tree.tail = ps → tree.Grouped Declared →
      ExprAt cs (.ok (tree.eval Expr.binOp Expr.term) rest')
  | tailPanic {cs rest : List Char} {t : Term} : TermAt cs (.ok t rest) → TailAt rest .panic → ExprAt cs .panic
inductive TailAt : List Char → Calc.Outcome (List (Op × Term)) → Prop where
  | stop {cs : List Char} : (∀ o ds, ¬ OpBefore o cs ds) → TailAt cs (.ok [] cs)
  | dangling {cs ds : List Char} {o : Op} : OpBefore o cs ds → TermAt ds .miss → TailAt cs (.ok [] cs)
  | panic {cs ds : List Char} {o : Op} : OpBefore o cs ds → TermAt ds .panic → TailAt cs .panic
  | more {cs ds rest rest' : List Char} {o : Op} {t : Term} {ps : List (Op × Term)} : OpBefore o cs ds →
      TermAt ds (.ok t rest) → TailAt rest (.ok ps rest') → TailAt cs (.ok ((o, t) :: ps) rest')
  | morePanic {cs ds rest : List Char} {o : Op} {t : Term} : OpBefore o cs ds → TermAt ds (.ok t rest) →
      TailAt rest .panic → TailAt cs .panic
end

section
variable {S : Type} [Sequence S Str] [RewindSequence S] [LawfulSequence S] [L : LawfulRewind S]

theorem op_found {s : S} {o : Op} {ds : List Char} (h : content s = symbol o :: ds) : Agrees s (op s) (.ok o ds) := by
  obtain ⟨s', h1, h2⟩ := (C09_any_char s).1 _ _ h
  refine ⟨s', ?_, h2, (tidy_iff.mp tidy_anyChar).1.ok h1⟩
  show (anyChar.parse s >>= _) = _
  rw [h1]
  cases o <;> rfl

theorem op_missing {s : S} (h : ∀ o, (content s).head? ≠ some (symbol o)) : Agrees s (op s) .miss := by
  cases hc : content s with
  | nil =>
    obtain ⟨u, h1, h2⟩ := (C09_any_char s).2 hc
    refine ⟨⟨()⟩, u, ?_, (tidy_iff.mp tidy_anyChar).1.err h1⟩
    show (anyChar.parse s >>= _) = _
    rw [h1]; rfl
  | cons c cs =>
    obtain ⟨s', h1, h2⟩ := (C09_any_char s).1 _ _ hc
    refine ⟨⟨()⟩, ⟨s'⟩, ?_, (tidy_iff.mp tidy_anyChar).1.ok h1⟩
    show (anyChar.parse s >>= _) = _
    rw [h1]
    rw [hc] at h
    have ha := h .add
    have hb := h .sub
    have hc := h .mul
    have hd := h .div
    have he := h .til
    simp [symbol] at ha hb hc hd he
    simp only [Run.pure_bind']
    rfl

theorem zero_ok {s : S} {ds : List Char} (h : content s = '0' :: ds) : Agrees s (zero s) (.ok () ds) := atom_ok rfl h

theorem zero_miss {s : S} (hw : ¬ Wide (content s)) (h : (content s).head? ≠ some '0') : Agrees s (zero s) .miss :=
  atom_miss rfl hw h

theorem zero_panic {s : S} (hw : Wide (content s)) : Agrees s (zero s) .panic := atom_panic rfl hw

theorem space_at {s : S} {sp ds : List Char} (hsp : ∀ c ∈ sp, c = ' ') (hd : ds.head? ≠ some ' ')
    (hc : content s = sp ++ ds) : Agrees s (space s) (if sp = [] then .miss else .ok () ds) :=
  Calc.space_at hsp hd hc

end

theorem symbol_ne_space (o : Op) : symbol o ≠ ' ' := by cases o <;> decide

theorem symbol_inj {o o' : Op} (h : symbol o = symbol o') : o = o' := by
  cases o <;> cases o' <;> first | rfl | (revert h; decide)

theorem OpBefore.unique {o o' : Op} {cs ds ds' : List Char} (h : OpBefore o cs ds) (h' : OpBefore o' cs ds') :
    o = o' ∧ ds = ds' := by
  obtain ⟨sp, sp', ⟨h1, h2⟩, ⟨h3, h4⟩, h5, rfl⟩ := h
  obtain ⟨tp, tp', ⟨g1, g2⟩, ⟨g3, g4⟩, g5, he⟩ := h'
  obtain ⟨rfl, h6⟩ := spaces_unique he h2 g2 (by simpa using symbol_ne_space o) (by simpa using symbol_ne_space o')
  simp at h6
  obtain ⟨h7, h8⟩ := h6
  obtain ⟨-, h9⟩ := spaces_unique h8 h4 g4 h5 g5
  exact ⟨symbol_inj h7, h9⟩

theorem OpBefore.shorter {o : Op} {cs ds : List Char} (h : OpBefore o cs ds) : ds.length + 3 ≤ cs.length := by
  obtain ⟨sp, sp', ⟨h1, h2⟩, ⟨h3, h4⟩, h5, rfl⟩ := h
  have := List.length_pos_iff.mpr h1
  have := List.length_pos_iff.mpr h3
  simp; omega

section
variable {S : Type} [Sequence S Str] [RewindSequence S] [LawfulSequence S] [L : LawfulRewind S]

theorem spacedOp_at (s : S) :
    (∃ o ds, OpBefore o (content s) ds ∧ Agrees s ((spacedOp (S := S)).parse s) (.ok o ds)) ∨
    ((∀ o ds, ¬ OpBefore o (content s) ds) ∧ Agrees s ((spacedOp (S := S)).parse s) .miss) := by
  obtain ⟨sp, ds, h1, h2, h3⟩ := spaces_split (content s)
  have hA := space_at h2 h3 h1
  by_cases hn : sp = []
  · right
    rw [if_pos hn] at hA
    refine ⟨?_, map_agrees _ (join_first_miss (join_first_miss hA))⟩
    rintro o ds' ⟨tp, tp', ⟨g1, g2⟩, -, -, g4⟩
    rw [h1] at g4
    obtain ⟨rfl, -⟩ := spaces_unique g4 h2 g2 h3 (by simpa using symbol_ne_space o)
    exact g1 hn
  · rw [if_neg hn] at hA
    by_cases ho : ∃ o, ds.head? = some (symbol o)
    · obtain ⟨o, ho⟩ := ho
      obtain ⟨ds', rfl⟩ : ∃ ds', ds = symbol o :: ds' := by
        cases ds with
        | nil => simp at ho
        | cons c ds => simp at ho; exact ⟨ds, by rw [ho]⟩
      obtain ⟨sp', ds'', k1, k2, k3⟩ := spaces_split ds'
      have hB : Agrees s (((Parser.ofFn space).join (Parser.ofFn op)).parse s) (.ok ((), o) ds') :=
        join_then (out := .ok o ds') hA fun r hr _ => op_found hr
      have hC := join_then (q := Parser.ofFn space) hB fun r hr _ => space_at (s := r) k2 k3 (hr.trans k1)
      have hD := map_agrees (fun ((_, op), _) => op : (Unit × Op) × Unit → Op) hC
      by_cases hn' : sp' = []
      · right
        rw [if_pos hn'] at hD
        refine ⟨?_, hD⟩
        rintro o' ds₁ ⟨tp, tp', ⟨g1, g2⟩, ⟨g3, g5⟩, g6, g4⟩
        rw [h1] at g4
        obtain ⟨rfl, g7⟩ := spaces_unique g4 h2 g2 h3 (by simpa using symbol_ne_space o')
        simp at g7
        obtain ⟨-, g7⟩ := g7
        rw [k1] at g7
        obtain ⟨rfl, -⟩ := spaces_unique g7 k2 g5 k3 g6
        exact g3 hn'
      · left
        rw [if_neg hn'] at hD
        exact ⟨o, ds'', ⟨sp, sp', ⟨hn, h2⟩, ⟨hn', k2⟩, k3, by rw [h1, k1]⟩, hD⟩
    · right
      have hB : Agrees s (((Parser.ofFn space).join (Parser.ofFn op)).parse s) .miss :=
        join_then (out := .miss) hA fun r hr _ => op_missing (by rw [hr]; exact fun o h => ho ⟨o, h⟩)
      refine ⟨?_, map_agrees _ (join_first_miss hB)⟩
      rintro o' ds₁ ⟨tp, tp', ⟨g1, g2⟩, ⟨g3, g5⟩, g6, g4⟩
      rw [h1] at g4
      obtain ⟨rfl, g7⟩ := spaces_unique g4 h2 g2 h3 (by simpa using symbol_ne_space o')
      exact ho ⟨o', by rw [g7]; rfl⟩

theorem term_at {expr : S → Run (PResult S Expr (Miss Unit))} (s : S)
    (h : ∀ r, (content r).length < (content s).length →
      ∃ out, ExprAt (content r) out ∧ Agrees r (expr r) out ∧ out.Short (content r)) :
    ∃ out, TermAt (content s) out ∧ Agrees s (termOf expr s) out ∧ out.Short (content s) := by
  by_cases hz : (content s).head? = some '0'
  · obtain ⟨cs, hcs⟩ : ∃ cs, content s = '0' :: cs := by
      cases hc : content s with
      | nil => rw [hc] at hz; simp at hz
      | cons c cs => rw [hc] at hz; simp at hz; exact ⟨cs, by rw [hz]⟩
    have hi := zero_ok hcs
    refine ⟨.ok .zero cs, by rw [hcs]; exact .zero, ?_, ?_⟩
    · exact mapErr_agrees _ (map_agrees (fun e : Either Unit Expr => match e with
        | .first _ => Term.zero
        | .last e => Term.parenthesized e) (or_first (p := Parser.ofFn zero) hi))
    · intro v rest h
      injection h with _ h'
      subst h'
      rw [hcs]; simp
  · by_cases hw : Wide (content s)
    · exact ⟨.panic, .wide hw, mapErr_agrees _ (map_agrees _ (or_panic (p := Parser.ofFn zero) (zero_panic hw))),
        by intro _ _ h; cases h⟩
    have hi := zero_miss hw hz
    have key : ∀ {out : Calc.Outcome Expr}, Agrees s ((((atom (⟨['(']⟩ : Str)).join (Parser.ofFn expr)).join
        (atom (⟨[')']⟩ : Str))).map (fun ((_, e), _) => e : (Unit × Expr) × Unit → Expr) |>.parse s) out →
        Agrees s (termOf expr s) (out.map Term.parenthesized) := by
      intro out hq
      have := mapErr_agrees (fun _ => (⟨()⟩ : Miss Unit)) (map_agrees (fun e : Either Unit Expr => match e with
        | .first _ => Term.zero
        | .last e => Term.parenthesized e) (or_last (p := Parser.ofFn zero) (fun _ => rfl) hi hq))
      cases out <;> exact this
    by_cases hp : (content s).head? = some '('
    · obtain ⟨cs, hcs⟩ : ∃ cs, content s = '(' :: cs := by
        cases hc : content s with
        | nil => rw [hc] at hp; simp at hp
        | cons c cs => rw [hc] at hp; simp at hp; exact ⟨cs, by rw [hp]⟩
      have ha := atom_ok (c := '(') rfl hcs
      obtain ⟨r, hr1, hr2, hr3⟩ := ha
      obtain ⟨out, ho1, ho2, ho3⟩ := h r (by rw [hr2, hcs]; simp)
      rw [hr2] at ho1 ho3
      have hj : Agrees s (((atom (⟨['(']⟩ : Str)).join (Parser.ofFn expr)).parse s) (out.pair ()) :=
        join_step hr1 hr3 ho2
      rw [hcs]
      cases out with
      | miss => exact ⟨.miss, .parensMiss ho1, key (out := .miss) (map_agrees _ (join_first_miss hj)), by intro _ _ h; cases h⟩
      | panic =>
        exact ⟨.panic, .parensPanic ho1, key (out := .panic) (map_agrees _ (join_first_panic hj)), by intro _ _ h; cases h⟩
      | ok e rest' =>
        by_cases hw' : Wide rest'
        · exact ⟨.panic, .unclosedWide ho1 hw', key (out := .panic) (map_agrees _ (join_then (out := .panic) hj
            fun r' hr' _ => atom_panic rfl (by rw [hr']; exact hw'))), by intro _ _ h; cases h⟩
        · by_cases hc : rest'.head? = some ')'
          · obtain ⟨rest'', rfl⟩ : ∃ cs, rest' = ')' :: cs := by
              cases rest' with
              | nil => simp at hc
              | cons c cs => simp at hc; exact ⟨cs, by rw [hc]⟩
            refine ⟨.ok (.parenthesized e) rest'', .parens ho1, key (out := .ok e rest'') (map_agrees _
              (join_then (out := .ok () rest'') hj fun r' hr' _ => atom_ok rfl hr')), ?_⟩
            intro v rest h
            injection h with h1 h2
            subst h2
            have := ho3 _ _ rfl
            simp at this ⊢
            omega
          · exact ⟨.miss, .unclosed ho1 hw' hc, key (out := .miss) (map_agrees _ (join_then (out := .miss) hj
              fun r' hr' _ => atom_miss rfl (by rw [hr']; exact hw') (by rw [hr']; exact hc))), by intro _ _ h; cases h⟩
    · exact ⟨.miss, .none hw hz hp, key (out := .miss) (map_agrees _ (join_first_miss (join_first_miss (atom_miss rfl hw hp)))),
        by intro _ _ h; cases h⟩

theorem op_belowMax : BelowMax Op := by
  intro o
  have h : (2 : Nat) < usizeMax := by decide
  cases o <;> refine ⟨?_, fun _ => ?_⟩ <;> simp only [precedence] <;> omega

theorem tail_at (b : Build) {term : S → Run (PResult S Term (Miss Unit))} (s : S)
    (h : ∀ r, (content r).length < (content s).length →
      ∃ out, TermAt (content r) out ∧ Agrees r (term r) out ∧ out.Short (content r))
    (stack : List (BTree Op Term × Op)) (t : Term) (hg : (reduceAll node stack (leaf t)).Grouped Declared) :
    (∃ (ps : List (Op × Term)) (rest : List Char) (s' : S) (reason : _) (tree : BTree Op Term), TailAt (content s) (.ok ps rest) ∧ rest.length ≤ (content s).length ∧ content s' = rest ∧
      L.Desc s s' ∧ tree.first = (reduceAll node stack (leaf t)).first ∧
      tree.tail = (reduceAll node stack (leaf t)).tail ++ ps ∧ tree.Grouped Declared ∧
      binExprLoop b term (spacedOp (S := S)).parse Expr.binOp Expr.term 0 (evalStack Expr.binOp Expr.term stack)
        (Expr.term t) s = pure (.ok (tree.eval Expr.binOp Expr.term, .error reason) s')) ∨
    (∃ f, TailAt (content s) .panic ∧
      binExprLoop b term (spacedOp (S := S)).parse Expr.binOp Expr.term 0 (evalStack Expr.binOp Expr.term stack)
        (Expr.term t) s = Run.fault f) := by
  generalize hn : (content s).length = n
  induction n using Nat.strongRecOn generalizing s stack t with
  | _ n ih =>
    subst hn
    rcases spacedOp_at s with ⟨o, ds, h1, r, h2, h3, h4⟩ | ⟨h1, e, u, h2, h3⟩
    · have hlen := h1.shorter
      obtain ⟨out, k1, k2, k3⟩ := h r (by rw [h3]; omega)
      rw [h3] at k1 k3
      cases out with
      | miss =>
        left
        obtain ⟨e, u, k4, k5⟩ := k2
        have hw : u.rewind (anchor s) = pure s := L.rewind (L.trans h4 k5)
        refine ⟨[], content s, s, .last e, reduceAll node stack (leaf t), .dangling h1 k1, Nat.le_refl _, rfl, L.refl s, rfl,
          by simp, hg, ?_⟩
        rw [binExprLoop, h2]
        simp only [Run.pure_bind', ge_iff_le, Nat.zero_le, if_true, k4]
        have hx : shouldTerminate e = false := rfl
        rw [if_pos (by simp [hx]), hw]
        simp only [Run.pure_bind']
        rw [show Expr.term t = (leaf t : BTree Op Term).eval Expr.binOp Expr.term from rfl, reduceAll_eval]
        rfl
      | panic =>
        right
        obtain ⟨f, k4⟩ := k2
        refine ⟨f, .panic h1 k1, ?_⟩
        rw [binExprLoop, h2]
        simp only [Run.pure_bind', ge_iff_le, Nat.zero_le, if_true, k4]
        rfl
      | ok v rest =>
        obtain ⟨s', k4, k5, k6⟩ := k2
        have hlen' := k3 _ _ rfl
        have hstep := binExprLoop_cons b Expr.binOp Expr.term (nextPrecedence_threshold op_belowMax) h2 k4 stack t
        have hg' := grouped_inv (T := Term) (b := b) (threshold (Op := Op)) (nextPrecedence_threshold op_belowMax) o v
          stack t (by rw [decided_threshold]; exact hg)
        rw [reduceFor_pure o v stack (fun p _ => nextPrecedence_threshold op_belowMax p.2), Run.ensures_pure,
          decided_threshold] at hg'
        have hord := reduceFor_order b o v stack (leaf t)
        rw [reduceFor_pure o v stack (fun p _ => nextPrecedence_threshold op_belowMax p.2), Run.ensures_pure] at hord
        obtain ⟨-, -, ho1, ho2⟩ := hord
        simp only at ho1 ho2 hg'
        rcases ih (content s').length (by rw [k5]; omega) s' (fun r' hr' => h r' (by rw [k5] at hr'; omega))
          (reducePure threshold o stack (leaf t)) v hg' rfl with
          ⟨ps, rest', s'', reason, tree, m1, m2, m3, m4, m5, m6, m7, m8⟩ | ⟨f, m1, m2⟩
        · left
          refine ⟨(o, v) :: ps, rest', s'', reason, tree, .more h1 k1 (k5 ▸ m1), by rw [k5] at m2; omega, m3,
            L.trans h4 (L.trans k6 m4), m5.trans ho1, ?_, m7, hstep.trans m8⟩
          rw [m6, ho2]; simp
        · right
          exact ⟨f, .morePanic h1 k1 (k5 ▸ m1), hstep.trans m2⟩
    · left
      have hw : u.rewind (anchor s) = pure s := L.rewind h3
      refine ⟨[], content s, s, .first e, reduceAll node stack (leaf t), .stop h1, Nat.le_refl _, rfl, L.refl s, rfl,
        by simp, hg, ?_⟩
      rw [binExprLoop, h2]
      have hx : shouldTerminate e = false := by
        rcases e with (⟨⟨⟩⟩ | ⟨⟨⟩⟩) | ⟨⟨⟩⟩ <;> rfl
      simp only [Run.pure_bind', hx]
      rw [if_neg (by simp), hw]
      simp only [Run.pure_bind']
      rw [show Expr.term t = (leaf t : BTree Op Term).eval Expr.binOp Expr.term from rfl, reduceAll_eval]
      rfl

/-- On every text the grammar does what the outcome of the text says. -/
theorem tilde_at (b : Build) (s : S) :
    (∃ out, TermAt (content s) out ∧ Agrees s (term b s) out ∧ out.Short (content s)) ∧
    (∃ out, ExprAt (content s) out ∧ Agrees s (expr b s) out ∧ out.Short (content s)) := by
  generalize hn : (content s).length = n
  induction n using Nat.strongRecOn generalizing s with
  | _ n ih =>
    subst hn
    have ht : ∃ out, TermAt (content s) out ∧ Agrees s (term b s) out ∧ out.Short (content s) := by
      have := term_at (expr := fun s => expr b s) s fun r hr => (ih _ hr r rfl).2
      rw [term]; exact this
    refine ⟨ht, ?_⟩
    obtain ⟨out, h1, h2, h3⟩ := ht
    have hE : ∀ {out : Calc.Outcome (Expr × Either (Either (Either (Miss Unit) (Miss Unit)) (Miss Unit)) (Miss Unit))},
        Agrees s ((binExpr b (Parser.ofFn (fun s => term b s)) (spacedOp (S := S)) (fun l o r => Expr.binOp l o r)
          Expr.term).parse s) out → Agrees s (expr b s) (out.map (fun (e, _) => e)) := by
      intro out hq
      rw [expr]
      exact mapErr_agrees (fun _ => (⟨()⟩ : Miss Unit)) (map_agrees _ hq)
    cases out with
    | miss =>
      obtain ⟨e, u, k1, k2⟩ := h2
      refine ⟨.miss, .miss h1, hE (out := .miss) ⟨.last e, u, ?_, k2⟩, by intro _ _ h; cases h⟩
      have hi : binExprImpl b (fun s => term b s) (spacedOp (S := S)).parse Expr.binOp Expr.term s 0 = pure (.err (.last e) u) := by
        rw [binExprImpl, k1]; rfl
      show (binExprImpl b (fun s => term b s) (spacedOp (S := S)).parse Expr.binOp Expr.term s 0 >>= _) = _
      rw [hi]; rfl
    | panic =>
      obtain ⟨f, k1⟩ := h2
      refine ⟨.panic, .panic h1, hE (out := .panic) ⟨f, ?_⟩, by intro _ _ h; cases h⟩
      have hi : binExprImpl b (fun s => term b s) (spacedOp (S := S)).parse Expr.binOp Expr.term s 0 = Run.fault f := by
        rw [binExprImpl, k1]; rfl
      show (binExprImpl b (fun s => term b s) (spacedOp (S := S)).parse Expr.binOp Expr.term s 0 >>= _) = _
      rw [hi]; rfl
    | ok t rest =>
      obtain ⟨r, k1, k2, k3⟩ := h2
      have hlt := h3 _ _ rfl
      have hi : binExprImpl b (fun s => term b s) (spacedOp (S := S)).parse Expr.binOp Expr.term s 0 =
          binExprLoop b (fun s => term b s) (spacedOp (S := S)).parse Expr.binOp Expr.term 0 [] (Expr.term t) r := by
        rw [binExprImpl, k1]; rfl
      rcases tail_at b r (term := fun s => term b s) (fun r' hr' => (ih (content r').length
        (by rw [k2] at hr'; omega) r' rfl).1) [] t trivial with
        ⟨ps, rest', s'', reason, tree, m1, m2, m3, m4, m5, m6, m7, m8⟩ | ⟨f, m1, m2⟩
      · have m8 : binExprLoop b (fun s => term b s) (spacedOp (S := S)).parse Expr.binOp Expr.term 0 [] (Expr.term t) r = _ := m8
        refine ⟨_, .ok h1 (k2 ▸ m1) m5 (by simpa [tail, reduceAll] using m6) m7,
          hE (out := .ok (_, reason) rest') ⟨s'', ?_, m3, L.trans k3 m4⟩, ?_⟩
        · show (binExprImpl b (fun s => term b s) (spacedOp (S := S)).parse Expr.binOp Expr.term s 0 >>= _) = _
          rw [hi, m8]; rfl
        · intro v rest h
          injection h with _ h'
          subst h'
          rw [k2] at m2
          omega
      · have m2 : binExprLoop b (fun s => term b s) (spacedOp (S := S)).parse Expr.binOp Expr.term 0 [] (Expr.term t) r = _ := m2
        refine ⟨.panic, .tailPanic h1 (k2 ▸ m1), hE (out := .panic) ⟨f, ?_⟩, by intro _ _ h; cases h⟩
        show (binExprImpl b (fun s => term b s) (spacedOp (S := S)).parse Expr.binOp Expr.term s 0 >>= _) = _
        rw [hi, m2]; rfl

end

end Parcom.Tilde
