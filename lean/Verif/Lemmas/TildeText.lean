import Verif.Lemmas.Tilde
/-!
# The texts of the unit tests of `bin_expr` and what their grammar does on them
-/
namespace Parcom.Tilde
open Spec Spec.Tilde BTree
open Calc (Wide)

/-! ## Chains: an expression's text is that of its first operand followed by the chain of the others -/

inductive ChainText : List (Op × Term) → List Char → Prop where
  | nil : ChainText [] []
  | cons {o : Op} {t : Term} {ps : List (Op × Term)} {sp sp' w w' : List Char} : Spaces sp → Spaces sp' → TermText t w →
      ChainText ps w' → ChainText ((o, t) :: ps) (sp ++ symbol o :: (sp' ++ (w ++ w')))

theorem ChainText.append {ps qs : List (Op × Term)} {w w' : List Char} (h : ChainText ps w) (h' : ChainText qs w') :
    ChainText (ps ++ qs) (w ++ w') := by
  induction h with
  | nil => exact h'
  | @cons o _ _ _ _ _ _ h1 h2 h3 _ ih =>
    have := ChainText.cons (o := o) h1 h2 h3 ih
    simpa using this

theorem ChainText.split {ps qs : List (Op × Term)} {w : List Char} (h : ChainText (ps ++ qs) w) :
    ∃ w₁ w₂, w = w₁ ++ w₂ ∧ ChainText ps w₁ ∧ ChainText qs w₂ := by
  induction ps generalizing w with
  | nil => exact ⟨[], w, rfl, .nil, h⟩
  | cons p ps ih =>
    cases h with
    | cons h1 h2 h3 h4 =>
      obtain ⟨w₁, w₂, rfl, g1, g2⟩ := ih h4
      exact ⟨_, w₂, by simp, .cons h1 h2 h3 g1, g2⟩

theorem precedence_rank (o : Op) : precedence o + 1 = rank o := by cases o <;> rfl

theorem associativity_iff (o : Op) : associativity o = .left ↔ o ≠ .til := by cases o <;> simp [associativity]

theorem declared_rank {o o' : Op} : Declared o o' ↔ rank o' < rank o ∨ (rank o = rank o' ∧ o ≠ .til) := by
  have h := precedence_rank o
  have h' := precedence_rank o'
  rw [Declared, associativity_iff]
  constructor <;> rintro (g | ⟨g, k⟩) <;> first | exact .inl (by omega) | exact .inr ⟨by omega, k⟩

theorem rank_le (o : Op) : rank o ≤ 3 := by cases o <;> decide

theorem rank_til {o : Op} : rank o ≤ 1 ↔ o = .til := by cases o <;> decide

theorem fits_iff {l r : Expr} {op : Op} : Fits l op r ↔
    (op = .til ∧ 1 < level l ∧ 1 ≤ level r) ∨ (op ≠ .til ∧ rank op ≤ level l ∧ rank op < level r) := by
  cases op <;> simp [Fits, rank]

theorem level_eval (t : BTree Op Term) :
    (t.leftEdge.head? = none ∧ t.rightEdge.head? = none ∧ level (t.eval Expr.binOp Expr.term) = 4) ∨
    (∃ o, o ∈ t.leftEdge ∧ o ∈ t.rightEdge ∧ level (t.eval Expr.binOp Expr.term) = rank o) := by
  cases t with
  | leaf t => exact .inl ⟨rfl, rfl, rfl⟩
  | node l o r => exact .inr ⟨o, by simp [leftEdge], by simp [rightEdge], rfl⟩

/-- An expression's text, flattened. -/
theorem _root_.Parcom.Spec.Tilde.ExprText.flat : ∀ {e : Expr} {w : List Char}, ExprText e w → ∃ (tree : BTree Op Term) (w₁ w₂ : List Char),
    tree.eval Expr.binOp Expr.term = e ∧ tree.Grouped Declared ∧ w = w₁ ++ w₂ ∧ TermText tree.first w₁ ∧
    ChainText tree.tail w₂ ∧ (∀ o ∈ tree.leftEdge, level e ≤ rank o) ∧ (∀ o ∈ tree.rightEdge, level e ≤ rank o)
  | _, _, .term h => ⟨leaf _, _, [], rfl, trivial, by simp, h, .nil, by simp [leftEdge], by simp [rightEdge]⟩
  | _, _, .binOp (op := op) hl hr hs hs' h1 => by
    obtain ⟨tl, l₁, l₂, rfl, gl, rfl, fl, cl, el, el'⟩ := hl.flat
    obtain ⟨tr, r₁, r₂, rfl, gr, rfl, fr, cr, er, er'⟩ := hr.flat
    have hle : rank op ≤ level (tl.eval Expr.binOp Expr.term) ∧ rank op ≤ level (tr.eval Expr.binOp Expr.term) := by
      rcases fits_iff.mp h1 with ⟨rfl, h, h'⟩ | ⟨-, h, h'⟩
      · exact ⟨Nat.le_of_lt h, h'⟩
      · exact ⟨h, Nat.le_of_lt h'⟩
    refine ⟨node tl op tr, l₁, _, rfl, ⟨gl, gr, ?_, ?_⟩, ?_, fl, cl.append (.cons hs hs' fr cr), ?_, ?_⟩
    · intro o ho
      have h := el' o ho
      rw [declared_rank]
      rcases fits_iff.mp h1 with ⟨rfl, h2, -⟩ | ⟨hne, h2, -⟩
      · left; show 1 < rank o; omega
      · by_cases heq : rank o = rank op
        · refine .inr ⟨heq, ?_⟩
          rintro rfl
          exact hne (rank_til.mp (by rw [← heq]; decide))
        · left; omega
    · intro o ho
      have h := er o ho
      rw [declared_rank]
      rcases fits_iff.mp h1 with ⟨rfl, -, h2⟩ | ⟨hne, -, h2⟩
      · have : rank Op.til = 1 := rfl
        rintro (g | ⟨-, g⟩)
        · omega
        · exact g rfl
      · rintro (g | ⟨g, -⟩) <;> omega
    · simp
    · intro o ho
      simp only [leftEdge, List.mem_cons] at ho
      show rank op ≤ rank o
      rcases ho with rfl | ho
      · exact Nat.le_refl _
      · have := el o ho; omega
    · intro o ho
      simp only [rightEdge, List.mem_cons] at ho
      show rank op ≤ rank o
      rcases ho with rfl | ho
      · exact Nat.le_refl _
      · have := er' o ho; omega

/-- A flattened text, read as an expression. -/
theorem _root_.Parcom.Spec.Tilde.ExprText.unflat {tree : BTree Op Term} {w₁ w₂ : List Char} (hg : tree.Grouped Declared)
    (h1 : TermText tree.first w₁) (h2 : ChainText tree.tail w₂) :
    ExprText (tree.eval Expr.binOp Expr.term) (w₁ ++ w₂) := by
  induction tree generalizing w₁ w₂ with
  | leaf t => cases h2; rw [List.append_nil]; exact ExprText.term h1
  | node l op r ihl ihr =>
    obtain ⟨gl, gr, hl, hr⟩ := hg
    obtain ⟨a, c, rfl, ha, hc⟩ := ChainText.split h2
    cases hc with
    | cons hs hs' ht hc =>
      have hL : (op ≠ .til → rank op ≤ level (l.eval Expr.binOp Expr.term)) ∧ (op = .til → 1 < level (l.eval Expr.binOp Expr.term)) := by
        have hr := rank_le op
        rcases level_eval l with ⟨-, -, h⟩ | ⟨o, -, ho, h⟩
        · rw [h]; exact ⟨fun _ => by omega, fun _ => by omega⟩
        · rw [h]
          have hd := declared_rank.mp (hl o ho)
          refine ⟨fun _ => by omega, ?_⟩
          rintro rfl
          have : rank Op.til = 1 := rfl
          rcases hd with hd | ⟨hd, hne⟩
          · omega
          · exact absurd (rank_til.mp (by omega)) hne
      have hR : (op ≠ .til → rank op < level (r.eval Expr.binOp Expr.term)) ∧ 1 ≤ level (r.eval Expr.binOp Expr.term) := by
        have hk := rank_le op
        rcases level_eval r with ⟨-, -, h⟩ | ⟨o, ho, -, h⟩
        · rw [h]; exact ⟨fun _ => by omega, by omega⟩
        · rw [h]
          have hd := hr o ho
          rw [declared_rank, not_or, not_and] at hd
          refine ⟨fun hne => ?_, by cases o <;> decide⟩
          have : rank op ≠ rank o := fun h => hd.2 h hne
          omega
      have := ExprText.binOp (op := op) (ihl gl h1 ha) (ihr gr ht hc) hs hs' (fits_iff.mpr (by
        by_cases ho : op = .til
        · exact .inl ⟨ho, hL.2 ho, hR.2⟩
        · exact .inr ⟨ho, hL.1 ho, hR.1 ho⟩))
      simp only [List.append_assoc] at this ⊢
      exact this

/-! ## How texts begin -/

theorem _root_.Parcom.Spec.Tilde.TermText.begins {t : Term} {w : List Char} (h : TermText t w) :
    ∃ c cs, w = c :: cs ∧ (c = '0' ∨ c = '(') := by
  cases h with
  | zero => exact ⟨'0', _, rfl, .inl rfl⟩
  | parens => exact ⟨'(', _, rfl, .inr rfl⟩

theorem _root_.Parcom.Spec.Tilde.TermText.not_space {t : Term} {w k : List Char} (h : TermText t w) : (w ++ k).head? ≠ some ' ' := by
  obtain ⟨c, cs, rfl, h'⟩ := h.begins
  clear h
  simp only [List.cons_append, List.head?_cons, ne_eq, Option.some.injEq]
  rintro rfl
  revert h'; decide

theorem _root_.Parcom.Spec.Tilde.TermText.pos {t : Term} {w : List Char} (h : TermText t w) : 0 < w.length := by
  obtain ⟨c, cs, rfl, h⟩ := h.begins
  simp

/-! ## Every text standing for something is read as it -/

theorem chain_reads {N : Nat} (hT : ∀ t w k, w.length ≤ N → TermText t w → TermAt (w ++ k) (.ok t k))
    {ps : List (Op × Term)} {w k rest : List Char} {qs : List (Op × Term)} (h : ChainText ps w) (hN : w.length ≤ N)
    (hk : TailAt k (.ok qs rest)) : TailAt (w ++ k) (.ok (ps ++ qs) rest) := by
  induction h with
  | nil => exact hk
  | @cons o t ps sp sp' w w' h1 h2 h3 h4 ih =>
    simp at hN
    exact .more (o := o) (ds := w ++ (w' ++ k)) ⟨sp, sp', h1, h2, h3.not_space, by simp⟩
      (hT t w (w' ++ k) (by omega) h3) (ih (by omega))

theorem tail_stops {k : List Char} (h : k = [] ∨ k.head? = some ')') : TailAt k (.ok [] k) := by
  refine .stop ?_
  rintro o ds ⟨sp, sp', ⟨h1, h2⟩, -, -, rfl⟩
  cases sp with
  | nil => exact h1 rfl
  | cons c sp =>
    rcases h with h | h
    · simp at h
    · simp at h
      have := h2 c (by simp)
      rw [this] at h
      revert h; decide

theorem term_reads {t : Term} {w k : List Char} (h : TermText t w) : TermAt (w ++ k) (.ok t k) := by
  generalize hn : w.length = n
  induction n using Nat.strongRecOn generalizing t w k with
  | _ n ih =>
    subst hn
    cases h with
    | zero => exact .zero
    | @parens e w h =>
      obtain ⟨tree, w₁, w₂, rfl, hg, rfl, h1, h2, -, -⟩ := h.flat
      have := ExprAt.ok (tree := tree) (cs := w₁ ++ (w₂ ++ (')' :: k)))
        (ih w₁.length (by simp; omega) h1 rfl)
        (by
          have := chain_reads (N := w₂.length) (fun t w k hw h => ih w.length (by simp; omega) h rfl) h2 (Nat.le_refl _)
            (tail_stops (k := ')' :: k) (.inr rfl))
          simpa using this) rfl rfl hg
      simpa using TermAt.parens this

theorem expr_reads {e : Expr} {w k : List Char} (h : ExprText e w) (hk : TailAt k (.ok [] k)) :
    ExprAt (w ++ k) (.ok e k) := by
  obtain ⟨tree, w₁, w₂, rfl, hg, rfl, h1, h2, -, -⟩ := h.flat
  rw [List.append_assoc]
  have := chain_reads (N := w₂.length) (fun t w k _ h => term_reads h) h2 (Nat.le_refl _) hk
  exact .ok (term_reads h1) (by simpa using this) rfl rfl hg

/-! ## Whatever is read stands for what it is read as -/

mutual
theorem TermAt.sound' : ∀ {cs : List Char} {out : Calc.Outcome Term}, TermAt cs out → ∀ {t : Term} {ds : List Char},
    out = .ok t ds → ∃ w, cs = w ++ ds ∧ TermText t w
  | _, _, .zero, _, _, h => by cases h; exact ⟨['0'], rfl, .zero⟩
  | _, _, .parens h', _, _, h => by
    cases h
    obtain ⟨w, rfl, h''⟩ := ExprAt.sound' h' rfl
    exact ⟨_, by simp, .parens h''⟩
  | _, _, .wide .., _, _, h => by cases h
  | _, _, .none .., _, _, h => by cases h
  | _, _, .parensMiss .., _, _, h => by cases h
  | _, _, .parensPanic .., _, _, h => by cases h
  | _, _, .unclosed .., _, _, h => by cases h
  | _, _, .unclosedWide .., _, _, h => by cases h
theorem ExprAt.sound' : ∀ {cs : List Char} {out : Calc.Outcome Expr}, ExprAt cs out → ∀ {e : Expr} {ds : List Char},
    out = .ok e ds → ∃ w, cs = w ++ ds ∧ ExprText e w
  | _, _, .ok h1 h2 h3 h4 h5, _, _, h => by
    cases h
    obtain ⟨w₁, rfl, g1⟩ := TermAt.sound' h1 rfl
    obtain ⟨w₂, rfl, g2⟩ := TailAt.sound' h2 rfl
    subst h3 h4
    exact ⟨w₁ ++ w₂, by simp, .unflat h5 g1 g2⟩
  | _, _, .miss .., _, _, h => by cases h
  | _, _, .panic .., _, _, h => by cases h
  | _, _, .tailPanic .., _, _, h => by cases h
theorem TailAt.sound' : ∀ {cs : List Char} {out : Calc.Outcome (List (Op × Term))}, TailAt cs out →
    ∀ {ps : List (Op × Term)} {ds : List Char}, out = .ok ps ds → ∃ w, cs = w ++ ds ∧ ChainText ps w
  | _, _, .stop _, _, _, h => by cases h; exact ⟨[], rfl, .nil⟩
  | _, _, .dangling _ _, _, _, h => by cases h; exact ⟨[], rfl, .nil⟩
  | _, _, .more h1 h2 h3, _, _, h => by
    cases h
    obtain ⟨sp, sp', g1, g2, g3, rfl⟩ := h1
    obtain ⟨w, rfl, g4⟩ := TermAt.sound' h2 rfl
    obtain ⟨w', rfl, g5⟩ := TailAt.sound' h3 rfl
    exact ⟨_, by simp, .cons g1 g2 g4 g5⟩
  | _, _, .panic .., _, _, h => by cases h
  | _, _, .morePanic .., _, _, h => by cases h
end

theorem TermAt.sound {cs ds : List Char} {t : Term} (h : TermAt cs (.ok t ds)) : ∃ w, cs = w ++ ds ∧ TermText t w :=
  h.sound' rfl

theorem ExprAt.sound {cs ds : List Char} {e : Expr} (h : ExprAt cs (.ok e ds)) : ∃ w, cs = w ++ ds ∧ ExprText e w :=
  h.sound' rfl

theorem TailAt.sound {cs ds : List Char} {ps : List (Op × Term)} (h : TailAt cs (.ok ps ds)) :
    ∃ w, cs = w ++ ds ∧ ChainText ps w :=
  h.sound' rfl

/-! ## A text has one outcome -/

theorem not_wide_paren {cs : List Char} : ¬ Wide ('(' :: cs) := by
  rintro ⟨c, h1, h2⟩; simp at h1; subst h1; revert h2; decide

theorem not_wide_close {cs : List Char} : ¬ Wide (')' :: cs) := by
  rintro ⟨c, h1, h2⟩; simp at h1; subst h1; revert h2; decide

/-- What the closing parenthesis makes of the expression inside. -/
inductive Closing : Calc.Outcome Expr → Calc.Outcome Term → Prop where
  | parens {e : Expr} {rest : List Char} : Closing (.ok e (')' :: rest)) (.ok (.parenthesized e) rest)
  | miss : Closing .miss .miss
  | panic : Closing .panic .panic
  | unclosed {e : Expr} {rest : List Char} : ¬ Wide rest → rest.head? ≠ some ')' → Closing (.ok e rest) .miss
  | wide {e : Expr} {rest : List Char} : Wide rest → Closing (.ok e rest) .panic

theorem Closing.det {o : Calc.Outcome Expr} {x y : Calc.Outcome Term} (h : Closing o x) (h' : Closing o y) : x = y := by
  cases h <;> cases h' <;> first
    | rfl
    | (rename_i h; exact absurd h not_wide_close)
    | (rename_i h; exact absurd rfl h)
    | (rename_i h h' h''; first | exact absurd h h' | exact absurd h'' h)

theorem TermAt.paren {cs ds : List Char} {out : Calc.Outcome Term} (h : TermAt ds out) (hd : ds = '(' :: cs) :
    ∃ o, ExprAt cs o ∧ Closing o out := by
  cases h with
  | zero => simp at hd
  | wide h => exact absurd (hd ▸ h) not_wide_paren
  | none _ _ h => exact absurd (by rw [hd]; rfl) h
  | parens h => cases hd; exact ⟨_, h, .parens⟩
  | parensMiss h => cases hd; exact ⟨_, h, .miss⟩
  | parensPanic h => cases hd; exact ⟨_, h, .panic⟩
  | unclosed h h1 h2 => cases hd; exact ⟨_, h, .unclosed h1 h2⟩
  | unclosedWide h h1 => cases hd; exact ⟨_, h, .wide h1⟩

theorem not_wide_zero {cs : List Char} : ¬ Wide ('0' :: cs) := by
  rintro ⟨c, h1, h2⟩; simp at h1; subst h1; revert h2; decide

theorem TermAt.of_zero {cs ds : List Char} {out : Calc.Outcome Term} (h : TermAt ds out) (hd : ds = '0' :: cs) :
    out = .ok .zero cs := by
  cases h with
  | zero => cases hd; rfl
  | wide h => exact absurd (hd ▸ h) not_wide_zero
  | none _ h _ => exact absurd (by rw [hd]; rfl) h
  | parens h => simp at hd
  | parensMiss h => simp at hd
  | parensPanic h => simp at hd
  | unclosed h h1 h2 => simp at hd
  | unclosedWide h h1 => simp at hd

theorem TermAt.other {cs : List Char} {out : Calc.Outcome Term} (h : TermAt cs out) (hd : cs.head? ≠ some '0')
    (hp : cs.head? ≠ some '(') : (Wide cs ∧ out = .panic) ∨ (¬ Wide cs ∧ out = .miss) := by
  cases h with
  | zero => exact absurd rfl hd
  | wide h => exact .inl ⟨h, rfl⟩
  | none h _ _ => exact .inr ⟨h, rfl⟩
  | parens h => exact absurd rfl hp
  | parensMiss h => exact absurd rfl hp
  | parensPanic h => exact absurd rfl hp
  | unclosed h h1 h2 => exact absurd rfl hp
  | unclosedWide h h1 => exact absurd rfl hp

theorem head_split {cs : List Char} {c : Char} (h : cs.head? = some c) : ∃ cs', cs = c :: cs' := by
  cases cs with
  | nil => simp at h
  | cons x cs => simp at h; exact ⟨cs, by rw [h]⟩

theorem at_unique (cs : List Char) :
    (∀ o o', TermAt cs o → TermAt cs o' → o = o') ∧ (∀ o o', ExprAt cs o → ExprAt cs o' → o = o') ∧
    (∀ o o', TailAt cs o → TailAt cs o' → o = o') := by
  generalize hn : cs.length = n
  induction n using Nat.strongRecOn generalizing cs with
  | _ n ih =>
    subst hn
    have hT : ∀ o o', TermAt cs o → TermAt cs o' → o = o' := by
      intro o o' h h'
      by_cases hz : cs.head? = some '0'
      · obtain ⟨cs', rfl⟩ := head_split hz
        rw [h.of_zero rfl, h'.of_zero rfl]
      · by_cases hp : cs.head? = some '('
        · obtain ⟨cs', rfl⟩ := head_split hp
          obtain ⟨x, g1, g2⟩ := h.paren rfl
          obtain ⟨x', g1', g2'⟩ := h'.paren rfl
          obtain rfl := (ih _ (by simp) cs' rfl).2.1 _ _ g1 g1'
          exact g2.det g2'
        · rcases h.other hz hp with ⟨a, rfl⟩ | ⟨a, rfl⟩ <;> rcases h'.other hz hp with ⟨a', rfl⟩ | ⟨a', rfl⟩ <;>
            first | rfl | exact absurd a a' | exact absurd a' a
    have hshort : ∀ {cs t rest}, TermAt cs (.ok t rest) → rest.length < cs.length := by
      intro cs t rest h
      obtain ⟨w, rfl, hw⟩ := h.sound
      have := hw.pos
      simp; omega
    refine ⟨hT, ?_, ?_⟩
    · intro o o' h h'
      cases h with
      | miss h =>
        cases h' with
        | miss => rfl
        | panic h' => cases hT _ _ h h'
        | ok h' => cases hT _ _ h h'
        | tailPanic h' => cases hT _ _ h h'
      | panic h =>
        cases h' with
        | miss h' => cases hT _ _ h h'
        | panic h' => rfl
        | ok h' => cases hT _ _ h h'
        | tailPanic h' => rfl
      | ok h h1 h2 h3 h4 =>
        cases h' with
        | miss h' => cases hT _ _ h h'
        | panic h' => cases hT _ _ h h'
        | ok h' h1' h2' h3' h4' =>
          cases hT _ _ h h'
          cases (ih _ (hshort h) _ rfl).2.2 _ _ h1 h1'
          rw [BTree.unique h4 h4' (h2.trans h2'.symm) (h3.trans h3'.symm)]
        | tailPanic h' h1' =>
          cases hT _ _ h h'
          cases (ih _ (hshort h) _ rfl).2.2 _ _ h1 h1'
      | tailPanic h h1 =>
        cases h' with
        | miss h' => cases hT _ _ h h'
        | panic h' => rfl
        | ok h' h1' h2' h3' h4' =>
          cases hT _ _ h h'
          cases (ih _ (hshort h) _ rfl).2.2 _ _ h1 h1'
        | tailPanic h' h1' => rfl
    · intro o o' h h'
      have hds : ∀ {p ds}, OpBefore p cs ds → ds.length < cs.length := fun h => by have := h.shorter; omega
      cases h with
      | stop h =>
        cases h' with
        | stop => rfl
        | dangling => rfl
        | panic h' => exact absurd h' (h _ _)
        | more h' => exact absurd h' (h _ _)
        | morePanic h' => exact absurd h' (h _ _)
      | dangling h h1 =>
        cases h' with
        | stop => rfl
        | dangling => rfl
        | panic h' h1' => obtain ⟨rfl, rfl⟩ := h.unique h'; cases (ih _ (hds h) _ rfl).1 _ _ h1 h1'
        | more h' h1' => obtain ⟨rfl, rfl⟩ := h.unique h'; cases (ih _ (hds h) _ rfl).1 _ _ h1 h1'
        | morePanic h' h1' => obtain ⟨rfl, rfl⟩ := h.unique h'; cases (ih _ (hds h) _ rfl).1 _ _ h1 h1'
      | panic h h1 =>
        cases h' with
        | stop h' => exact absurd h (h' _ _)
        | dangling h' h1' => obtain ⟨rfl, rfl⟩ := h.unique h'; cases (ih _ (hds h) _ rfl).1 _ _ h1 h1'
        | panic h' => rfl
        | more h' h1' => obtain ⟨rfl, rfl⟩ := h.unique h'; cases (ih _ (hds h) _ rfl).1 _ _ h1 h1'
        | morePanic => rfl
      | more h h1 h2 =>
        cases h' with
        | stop h' => exact absurd h (h' _ _)
        | dangling h' h1' => obtain ⟨rfl, rfl⟩ := h.unique h'; cases (ih _ (hds h) _ rfl).1 _ _ h1 h1'
        | panic h' h1' => obtain ⟨rfl, rfl⟩ := h.unique h'; cases (ih _ (hds h) _ rfl).1 _ _ h1 h1'
        | more h' h1' h2' =>
          obtain ⟨rfl, rfl⟩ := h.unique h'
          cases (ih _ (hds h) _ rfl).1 _ _ h1 h1'
          cases (ih _ (Nat.lt_trans (hshort h1) (hds h)) _ rfl).2.2 _ _ h2 h2'
          rfl
        | morePanic h' h1' h2' =>
          obtain ⟨rfl, rfl⟩ := h.unique h'
          cases (ih _ (hds h) _ rfl).1 _ _ h1 h1'
          cases (ih _ (Nat.lt_trans (hshort h1) (hds h)) _ rfl).2.2 _ _ h2 h2'
      | morePanic h h1 h2 =>
        cases h' with
        | stop h' => exact absurd h (h' _ _)
        | dangling h' h1' => obtain ⟨rfl, rfl⟩ := h.unique h'; cases (ih _ (hds h) _ rfl).1 _ _ h1 h1'
        | panic => rfl
        | more h' h1' h2' =>
          obtain ⟨rfl, rfl⟩ := h.unique h'
          cases (ih _ (hds h) _ rfl).1 _ _ h1 h1'
          cases (ih _ (Nat.lt_trans (hshort h1) (hds h)) _ rfl).2.2 _ _ h2 h2'
        | morePanic => rfl

/-! ## The longest text is read -/

theorem TailAt.shorter {cs rest : List Char} {ps : List (Op × Term)} (h : TailAt cs (.ok ps rest)) :
    rest.length ≤ cs.length := by
  obtain ⟨w, rfl, -⟩ := h.sound
  simp

theorem TailAt.never_misses : ∀ {cs : List Char}, ¬ TailAt cs .miss := by
  intro cs h
  cases h

theorem ChainText.longest {ps : List (Op × Term)} {w k : List Char} {out : Calc.Outcome (List (Op × Term))} (h : ChainText ps w)
    (ho : TailAt (w ++ k) out) : out = .panic ∨ ∃ ps' rest, out = .ok ps' rest ∧ rest.length ≤ k.length := by
  induction h generalizing out with
  | nil =>
    cases out with
    | ok ps' rest => exact .inr ⟨_, _, rfl, ho.shorter⟩
    | miss => exact absurd ho TailAt.never_misses
    | panic => exact .inl rfl
  | @cons o t ps sp sp' w w' h1 h2 h3 h4 ih =>
    have hop : OpBefore o (sp ++ symbol o :: (sp' ++ (w ++ w')) ++ k) (w ++ (w' ++ k)) :=
      ⟨sp, sp', h1, h2, h3.not_space, by simp⟩
    have ht : TermAt (w ++ (w' ++ k)) (.ok t (w' ++ k)) := term_reads h3
    cases ho with
    | stop h => exact absurd hop (h _ _)
    | dangling h h' =>
      obtain ⟨rfl, rfl⟩ := hop.unique h
      cases (at_unique _).1 _ _ ht h'
    | panic h h' => exact .inl rfl
    | more h h' h'' =>
      obtain ⟨rfl, rfl⟩ := hop.unique h
      cases (at_unique _).1 _ _ ht h'
      rcases ih h'' with h | ⟨_, _, h, hl⟩
      · cases h
      · cases h; exact .inr ⟨_, _, rfl, hl⟩
    | morePanic => exact .inl rfl

theorem _root_.Parcom.Spec.Tilde.ExprText.longest {e : Expr} {w k : List Char} {out : Calc.Outcome Expr} (h : ExprText e w)
    (ho : ExprAt (w ++ k) out) : out = .panic ∨ ∃ e' rest, out = .ok e' rest ∧ rest.length ≤ k.length := by
  obtain ⟨tree, w₁, w₂, rfl, hg, rfl, h1, h2, -, -⟩ := h.flat
  rw [List.append_assoc] at ho
  have ht : TermAt (w₁ ++ (w₂ ++ k)) (.ok tree.first (w₂ ++ k)) := term_reads h1
  cases ho with
  | miss h => cases (at_unique _).1 _ _ ht h
  | panic => exact .inl rfl
  | tailPanic => exact .inl rfl
  | ok g1 g2 =>
    cases (at_unique _).1 _ _ ht g1
    rcases h2.longest g2 with h | ⟨_, _, h, hl⟩
    · cases h
    · cases h; exact .inr ⟨_, _, rfl, hl⟩

/-! ## When it panics -/

/-- Every text has an outcome. -/
theorem expr_total (cs : List Char) : ∃ out, ExprAt cs out := by
  obtain ⟨out, h, -⟩ := (tilde_at .checked (⟨1, 0, ⟨cs⟩⟩ : StrRef)).2
  exact ⟨out, h⟩

/-- The expression panics, or the closing parenthesis after it does. -/
def PanicsIn (k : Nat) (q : List Char) : Prop := ExprAt q .panic ∨ (0 < k ∧ ∃ e r, ExprAt q (.ok e r) ∧ Wide r)

theorem PanicsIn.not_space {k : Nat} {q : List Char} (h : PanicsIn k q) : q.head? ≠ some ' ' := by
  intro hq
  obtain ⟨cs, rfl⟩ := head_split hq
  have hm : ExprAt (' ' :: cs) .miss := .miss (.none (by rintro ⟨c, h1, h2⟩; simp at h1; subst h1; revert h2; decide)
    (by simp) (by simp))
  rcases h with h | ⟨-, e, r, h, -⟩
  · cases (at_unique _).2.1 _ _ hm h
  · cases (at_unique _).2.1 _ _ hm h

theorem PanicsIn.after {k : Nat} {q sp sp' w : List Char} {o : Op} {t : Term} (h : PanicsIn k q) (ht : TermText t w)
    (h1 : Spaces sp) (h2 : Spaces sp') : PanicsIn k (w ++ (sp ++ symbol o :: (sp' ++ q))) := by
  have hop : OpBefore o (sp ++ symbol o :: (sp' ++ q)) q := ⟨sp, sp', h1, h2, h.not_space, rfl⟩
  have ht : TermAt (w ++ (sp ++ symbol o :: (sp' ++ q))) (.ok t (sp ++ symbol o :: (sp' ++ q))) := term_reads ht
  rcases h with h | ⟨hk, e, r, h, hw⟩
  · refine .inl (.tailPanic ht ?_)
    cases h with
    | panic h => exact .panic hop h
    | tailPanic h h' => exact .morePanic hop h h'
  · cases h with
    | @ok _ rest _ t' ps _ g1 g2 =>
      have hm := TailAt.more hop g1 g2
      obtain ⟨out, ho⟩ := expr_total (w ++ (sp ++ symbol o :: (sp' ++ q)))
      cases ho with
      | miss h => cases (at_unique _).1 _ _ ht h
      | panic h => exact .inl (.panic h)
      | tailPanic h h' => exact .inl (.tailPanic h h')
      | ok g1' g2' g3' g4' g5' =>
        cases (at_unique _).1 _ _ ht g1'
        cases (at_unique _).2.2 _ _ hm g2'
        exact .inr ⟨hk, _, _, .ok g1' g2' g3' g4' g5', hw⟩

mutual
theorem _root_.Parcom.Spec.Tilde.OperandNext.panics {k : Nat} {p : List Char} : OperandNext k p → ∀ {q : List Char},
    PanicsIn k q → ExprAt (p ++ q) .panic
  | .start, _, h => by
    rcases h with h | ⟨h, -⟩
    · exact h
    · omega
  | .opened (p := p) h', q, h => by
    have : ExprAt (p ++ ('(' :: q)) .panic := h'.panics (by
      refine .inl (.panic ?_)
      rcases h with h | ⟨-, e, r, h, hw⟩
      · exact .parensPanic h
      · exact .unclosedWide h hw)
    simpa using this
  | .operator (p := p) (sp := sp) (sp' := sp') (o := o) h' h1 h2, q, h => by
    have := h'.panics (r := sp ++ symbol o :: (sp' ++ q)) fun _ w ht => h.after ht h1 h2
    simpa using this
theorem _root_.Parcom.Spec.Tilde.OperandRead.panics {k : Nat} {p : List Char} : OperandRead k p → ∀ {r : List Char},
    (∀ t w, TermText t w → PanicsIn k (w ++ r)) → ExprAt (p ++ r) .panic
  | .operand (p := p) (w := w) h ht, r, hr => by
    have := h.panics (hr _ _ ht)
    simpa using this
end

theorem _root_.Parcom.Spec.Tilde.OperandRead.chain {k : Nat} {p w : List Char} {ps : List (Op × Term)} (h : ChainText ps w)
    (hp : OperandRead k p) : OperandRead k (p ++ w) := by
  induction h generalizing p with
  | nil => simpa using hp
  | @cons o t ps sp sp' w w' h1 h2 h3 _ ih =>
    have := ih (.operand (.operator (o := o) hp h1 h2) h3)
    simpa using this

theorem _root_.Parcom.Spec.Tilde.OperandNext.expr {k : Nat} {p w : List Char} {e : Expr} (hp : OperandNext k p) (h : ExprText e w) :
    OperandRead k (p ++ w) := by
  obtain ⟨tree, w₁, w₂, -, -, rfl, h1, h2, -, -⟩ := h.flat
  have := OperandRead.chain h2 (.operand hp h1)
  simpa using this

theorem Wide.trap {cs p : List Char} (h : Wide cs) (hp : (∃ k, OperandNext k p) ∨ ∃ k, 0 < k ∧ OperandRead k p) :
    Trap (p ++ cs) := by
  obtain ⟨c, h1, h2⟩ := h
  obtain ⟨cs, rfl⟩ := head_split h1
  exact ⟨p, c, cs, rfl, h2, hp⟩

mutual
theorem TermAt.trap : ∀ {cs : List Char} {out : Calc.Outcome Term}, TermAt cs out → out = .panic → ∀ {k : Nat} {p : List Char},
    OperandNext k p → Trap (p ++ cs)
  | _, _, .wide h', _, _, _, hp => Wide.trap h' (.inl ⟨_, hp⟩)
  | _, _, .parensPanic h', _, _, _, hp => by simpa using ExprAt.trap h' rfl (.opened hp)
  | _, _, .unclosedWide h' h'', _, _, _, hp => by
    obtain ⟨w, rfl, hw⟩ := h'.sound
    have := Wide.trap h'' (.inr ⟨_, Nat.succ_pos _, OperandNext.expr (.opened hp) hw⟩)
    simpa using this
  | _, _, .zero, h, _, _, _ => by cases h
  | _, _, .parens .., h, _, _, _ => by cases h
  | _, _, .none .., h, _, _, _ => by cases h
  | _, _, .parensMiss .., h, _, _, _ => by cases h
  | _, _, .unclosed .., h, _, _, _ => by cases h
theorem ExprAt.trap : ∀ {cs : List Char} {out : Calc.Outcome Expr}, ExprAt cs out → out = .panic → ∀ {k : Nat} {p : List Char},
    OperandNext k p → Trap (p ++ cs)
  | _, _, .panic h, _, _, _, hp => TermAt.trap h rfl hp
  | _, _, .tailPanic h h', _, _, _, hp => by
    have := fun {w t} (ht : TermText t w) => TailAt.trap h' rfl (.operand hp ht)
    obtain ⟨w, rfl, hw⟩ := h.sound
    simpa using this hw
  | _, _, .ok .., h, _, _, _ => by cases h
  | _, _, .miss .., h, _, _, _ => by cases h
theorem TailAt.trap : ∀ {cs : List Char} {out : Calc.Outcome (List (Op × Term))}, TailAt cs out → out = .panic →
    ∀ {k : Nat} {p : List Char}, OperandRead k p → Trap (p ++ cs)
  | _, _, .panic (o := o) ⟨sp, sp', h1, h2, _, he⟩ h', _, _, _, hp => by
    have := TermAt.trap h' rfl (.operator (o := o) hp h1 h2)
    rw [he]
    simpa using this
  | _, _, .morePanic (o := o) ⟨sp, sp', h1, h2, _, he⟩ h' h'', _, _, _, hp => by
    have := fun {w t} (ht : TermText t w) => TailAt.trap h'' rfl (.operand (.operator (o := o) hp h1 h2) ht)
    obtain ⟨w, rfl, hw⟩ := h'.sound
    rw [he]
    simpa using this hw
  | _, _, .stop .., h, _, _, _ => by cases h
  | _, _, .dangling .., h, _, _, _ => by cases h
  | _, _, .more .., h, _, _, _ => by cases h
end

/-- The grammar panics on a text exactly if it has a trap. -/
theorem panic_iff {cs : List Char} : ExprAt cs .panic ↔ Trap cs := by
  constructor
  · intro h
    have := h.trap rfl (k := 0) (p := []) .start
    simpa using this
  · rintro ⟨p, c, rest, rfl, hw, ⟨k, h⟩ | ⟨k, hk, h⟩⟩
    · exact h.panics (.inl (.panic (.wide ⟨c, rfl, hw⟩)))
    · refine h.panics fun t w ht => ?_
      have hs : TailAt (c :: rest) (.ok [] (c :: rest)) := by
        refine .stop ?_
        rintro o ds ⟨sp, sp', ⟨h1, h2⟩, -, -, he⟩
        cases sp with
        | nil => exact h1 rfl
        | cons x sp =>
          have hx := h2 x (by simp)
          simp at he
          rw [he.1, hx] at hw
          revert hw; decide
      exact .inr ⟨hk, _, _, ExprAt.ok (tree := leaf t) (term_reads ht) hs rfl rfl trivial, ⟨c, rfl, hw⟩⟩

end Parcom.Tilde
