import Verif.Lemmas.Calc
/-!
# The texts of the calculator and what it does on them
-/
namespace Parcom.Calc
open Spec Spec.Calc BTree

/-! ## Chains: an expression's text is that of its first operand followed by the chain of the others -/

inductive ChainText : List (Op × Term) → List Char → Prop where
  | nil : ChainText [] []
  | cons {o : Op} {t : Term} {ps : List (Op × Term)} {sp sp' w w' : List Char} : Spaces sp → Spaces sp' → TermText t w →
      ChainText ps w' → ChainText ((o, t) :: ps) (sp ++ symbol o :: (sp' ++ (w ++ w')))

theorem ChainText.append {ps qs : List (Op × Term)} {w w' : List Char} (h : ChainText ps w) (h' : ChainText qs w') :
    ChainText (ps ++ qs) (w ++ w') := by
  induction h with
  | nil => exact h'
  | @cons o _ _ _ _ _ _ h1 h2 h3 _ ih =>
    have := ChainText.cons (o := o) h1 h2 h3 ih
    simpa using this

theorem ChainText.split {ps qs : List (Op × Term)} {w : List Char} (h : ChainText (ps ++ qs) w) :
    ∃ w₁ w₂, w = w₁ ++ w₂ ∧ ChainText ps w₁ ∧ ChainText qs w₂ := by
  induction ps generalizing w with
  | nil => exact ⟨[], w, rfl, .nil, h⟩
  | cons p ps ih =>
    cases h with
    | cons h1 h2 h3 h4 =>
      obtain ⟨w₁, w₂, rfl, g1, g2⟩ := ih h4
      exact ⟨_, w₂, by simp, .cons h1 h2 h3 g1, g2⟩

theorem precedence_rank (o : Op) : precedence o = rank o := by cases o <;> rfl

theorem associativity_left (o : Op) : associativity o = .left := rfl

theorem declared_rank {o o' : Op} : Declared o o' ↔ rank o' ≤ rank o := by
  rw [Declared, precedence_rank, precedence_rank, associativity_left]
  simp only [and_true]
  omega

theorem rank_le (o : Op) : rank o ≤ 2 := by cases o <;> decide

theorem level_eval (t : BTree Op Term) :
    (t.leftEdge.head? = none ∧ t.rightEdge.head? = none ∧ level (t.eval Expr.binOp Expr.term) = 3) ∨
    (∃ o, o ∈ t.leftEdge ∧ o ∈ t.rightEdge ∧ level (t.eval Expr.binOp Expr.term) = rank o) := by
  cases t with
  | leaf t => exact .inl ⟨rfl, rfl, rfl⟩
  | node l o r => exact .inr ⟨o, by simp [leftEdge], by simp [rightEdge], rfl⟩

/-- An expression's text, flattened. -/
theorem _root_.Parcom.Spec.Calc.ExprText.flat : ∀ {e : Expr} {w : List Char}, ExprText e w → ∃ (tree : BTree Op Term) (w₁ w₂ : List Char),
    tree.eval Expr.binOp Expr.term = e ∧ tree.Grouped Declared ∧ w = w₁ ++ w₂ ∧ TermText tree.first w₁ ∧
    ChainText tree.tail w₂ ∧ (∀ o ∈ tree.leftEdge, level e ≤ rank o) ∧ (∀ o ∈ tree.rightEdge, level e ≤ rank o)
  | _, _, .term h => ⟨leaf _, _, [], rfl, trivial, by simp, h, .nil, by simp [leftEdge], by simp [rightEdge]⟩
  | _, _, .binOp (op := op) hl hr hs hs' h1 h2 => by
    obtain ⟨tl, l₁, l₂, rfl, gl, rfl, fl, cl, el, el'⟩ := hl.flat
    obtain ⟨tr, r₁, r₂, rfl, gr, rfl, fr, cr, er, er'⟩ := hr.flat
    refine ⟨node tl op tr, l₁, _, rfl, ⟨gl, gr, ?_, ?_⟩, ?_, fl, cl.append (.cons hs hs' fr cr), ?_, ?_⟩
    · intro o ho
      rw [declared_rank]
      have := el' o ho
      omega
    · intro o ho
      rw [declared_rank]
      have := er o ho
      omega
    · simp
    · intro o ho
      simp only [leftEdge, List.mem_cons] at ho
      show rank op ≤ rank o
      rcases ho with rfl | ho
      · exact Nat.le_refl _
      · have := el o ho; omega
    · intro o ho
      simp only [rightEdge, List.mem_cons] at ho
      show rank op ≤ rank o
      rcases ho with rfl | ho
      · exact Nat.le_refl _
      · have := er' o ho; omega

/-- A flattened text, read as an expression. -/
theorem _root_.Parcom.Spec.Calc.ExprText.unflat {tree : BTree Op Term} {w₁ w₂ : List Char} (hg : tree.Grouped Declared)
    (h1 : TermText tree.first w₁) (h2 : ChainText tree.tail w₂) :
    ExprText (tree.eval Expr.binOp Expr.term) (w₁ ++ w₂) := by
  induction tree generalizing w₁ w₂ with
  | leaf t => cases h2; rw [List.append_nil]; exact ExprText.term h1
  | node l op r ihl ihr =>
    obtain ⟨gl, gr, hl, hr⟩ := hg
    obtain ⟨a, c, rfl, ha, hc⟩ := ChainText.split h2
    cases hc with
    | cons hs hs' ht hc =>
      have := ExprText.binOp (op := op) (ihl gl h1 ha) (ihr gr ht hc) hs hs' ?_ ?_
      · simp only [List.append_assoc] at this ⊢
        exact this
      · rcases level_eval l with ⟨-, -, h⟩ | ⟨o, -, ho, h⟩
        · rw [h]; have := rank_le op; omega
        · rw [h]; exact declared_rank.mp (hl o ho)
      · rcases level_eval r with ⟨-, -, h⟩ | ⟨o, ho, -, h⟩
        · rw [h]; have := rank_le op; omega
        · rw [h]
          have := hr o ho
          rw [declared_rank] at this
          omega

/-! ## How texts begin -/

theorem _root_.Parcom.Spec.Calc.TermText.begins {t : Term} {w : List Char} (h : TermText t w) :
    ∃ c cs, w = c :: cs ∧ (c.isDigit = true ∨ c = '(') := by
  cases h with
  | integer h1 h2 =>
    cases w with
    | nil => exact absurd rfl h1
    | cons c cs => exact ⟨c, cs, rfl, .inl (h2 c (by simp))⟩
  | parens => exact ⟨'(', _, rfl, .inr rfl⟩

theorem _root_.Parcom.Spec.Calc.TermText.not_space {t : Term} {w k : List Char} (h : TermText t w) : (w ++ k).head? ≠ some ' ' := by
  obtain ⟨c, cs, rfl, h'⟩ := h.begins
  clear h
  simp only [List.cons_append, List.head?_cons, ne_eq, Option.some.injEq]
  rintro rfl
  revert h'; decide

theorem _root_.Parcom.Spec.Calc.TermText.pos {t : Term} {w : List Char} (h : TermText t w) : 0 < w.length := by
  obtain ⟨c, cs, rfl, h⟩ := h.begins
  simp

theorem ChainText.not_digit {ps : List (Op × Term)} {w k : List Char} (h : ChainText ps w)
    (hk : ps = [] → ¬ StartsDigit k) : ¬ StartsDigit (w ++ k) := by
  cases h with
  | nil => exact hk rfl
  | @cons o t ps sp sp' w w' h1 h2 h3 h4 =>
    obtain ⟨hn, ha⟩ := h1
    cases sp with
    | nil => exact absurd rfl hn
    | cons c sp =>
      rintro ⟨x, hx, hd⟩
      simp at hx
      subst hx
      rw [ha c (by simp)] at hd
      revert hd; decide

theorem digit_narrow {c : Char} (h : c.isDigit = true) : c.utf8Size = 1 := by
  simp only [Char.isDigit, Bool.and_eq_true, decide_eq_true_eq] at h
  have h2 : c.val ≤ 57 := h.2
  have : c.val ≤ 127 := by
    simp only [UInt32.le_iff_toNat_le] at *
    have a : (57 : UInt32).toNat = 57 := rfl
    have b : (127 : UInt32).toNat = 127 := rfl
    omega
  simp [Char.utf8Size, this]

/-! ## Every text standing for something is read as it -/

theorem chain_reads {N : Nat} (hT : ∀ t w k, w.length ≤ N → TermText t w → ¬ StartsDigit k → TermAt (w ++ k) (.ok t k))
    {ps : List (Op × Term)} {w k : List Char} (h : ChainText ps w) (hN : w.length ≤ N) (hd : ¬ StartsDigit k)
    (hk : TailAt k (.ok [] k)) : TailAt (w ++ k) (.ok ps k) := by
  induction h with
  | nil => exact hk
  | @cons o t ps sp sp' w w' h1 h2 h3 h4 ih =>
    simp at hN
    refine .more (o := o) (ds := w ++ (w' ++ k)) ⟨sp, sp', h1, h2, h3.not_space, by simp⟩
      (hT t w (w' ++ k) (by omega) h3 (h4.not_digit fun _ => hd)) (ih (by omega))

theorem tail_stops {k : List Char} (h : k = [] ∨ k.head? = some ')') : TailAt k (.ok [] k) := by
  refine .stop ?_
  rintro o ds ⟨sp, sp', ⟨h1, h2⟩, -, -, rfl⟩
  cases sp with
  | nil => exact h1 rfl
  | cons c sp =>
    rcases h with h | h
    · simp at h
    · simp at h
      have := h2 c (by simp)
      rw [this] at h
      revert h; decide

theorem term_reads {t : Term} {w k : List Char} (h : TermText t w) (hk : ¬ StartsDigit k) : TermAt (w ++ k) (.ok t k) := by
  generalize hn : w.length = n
  induction n using Nat.strongRecOn generalizing t w k with
  | _ n ih =>
    subst hn
    cases h with
    | integer h1 h2 h3 h4 => subst h3; exact .int h1 h2 hk h4
    | @parens e w h =>
      obtain ⟨tree, w₁, w₂, rfl, hg, rfl, h1, h2, -, -⟩ := h.flat
      have hp : ¬ StartsDigit (')' :: k) := by rintro ⟨c, hc, h⟩; simp at hc; subst hc; revert h; decide
      have := ExprAt.ok (tree := tree) (cs := w₁ ++ (w₂ ++ (')' :: k)))
        (ih w₁.length (by simp; omega) h1 (h2.not_digit fun _ => hp) rfl)
        (chain_reads (N := w₂.length) (fun t w k hw h hk => ih w.length (by simp; omega) h hk rfl) h2 (Nat.le_refl _) hp
          (tail_stops (k := ')' :: k) (.inr rfl))) rfl rfl hg
      simpa using TermAt.parens this

theorem expr_reads {e : Expr} {w k : List Char} (h : ExprText e w) (hd : ¬ StartsDigit k) (hk : TailAt k (.ok [] k)) :
    ExprAt (w ++ k) (.ok e k) := by
  obtain ⟨tree, w₁, w₂, rfl, hg, rfl, h1, h2, -, -⟩ := h.flat
  rw [List.append_assoc]
  exact .ok (term_reads h1 (h2.not_digit fun _ => hd)) (chain_reads (N := w₂.length) (fun t w k _ h hk => term_reads h hk) h2
    (Nat.le_refl _) hd hk) rfl rfl hg

/-! ## Whatever is read stands for what it is read as -/

mutual
theorem TermAt.sound' : ∀ {cs : List Char} {out : Outcome Term}, TermAt cs out → ∀ {t : Term} {ds : List Char},
    out = .ok t ds → ∃ w, cs = w ++ ds ∧ TermText t w
  | _, _, .int h1 h2 _ h4, _, _, h => by cases h; exact ⟨_, rfl, .integer h1 h2 rfl h4⟩
  | _, _, .parens h', _, _, h => by
    cases h
    obtain ⟨w, rfl, h''⟩ := ExprAt.sound' h' rfl
    exact ⟨_, by simp, .parens h''⟩
  | _, _, .big .., _, _, h => by cases h
  | _, _, .wide .., _, _, h => by cases h
  | _, _, .none .., _, _, h => by cases h
  | _, _, .parensMiss .., _, _, h => by cases h
  | _, _, .parensPanic .., _, _, h => by cases h
  | _, _, .unclosed .., _, _, h => by cases h
  | _, _, .unclosedWide .., _, _, h => by cases h
theorem ExprAt.sound' : ∀ {cs : List Char} {out : Outcome Expr}, ExprAt cs out → ∀ {e : Expr} {ds : List Char},
    out = .ok e ds → ∃ w, cs = w ++ ds ∧ ExprText e w
  | _, _, .ok h1 h2 h3 h4 h5, _, _, h => by
    cases h
    obtain ⟨w₁, rfl, g1⟩ := TermAt.sound' h1 rfl
    obtain ⟨w₂, rfl, g2⟩ := TailAt.sound' h2 rfl
    subst h3 h4
    exact ⟨w₁ ++ w₂, by simp, .unflat h5 g1 g2⟩
  | _, _, .miss .., _, _, h => by cases h
  | _, _, .panic .., _, _, h => by cases h
  | _, _, .tailPanic .., _, _, h => by cases h
theorem TailAt.sound' : ∀ {cs : List Char} {out : Outcome (List (Op × Term))}, TailAt cs out →
    ∀ {ps : List (Op × Term)} {ds : List Char}, out = .ok ps ds → ∃ w, cs = w ++ ds ∧ ChainText ps w
  | _, _, .stop _, _, _, h => by cases h; exact ⟨[], rfl, .nil⟩
  | _, _, .dangling _ _, _, _, h => by cases h; exact ⟨[], rfl, .nil⟩
  | _, _, .more h1 h2 h3, _, _, h => by
    cases h
    obtain ⟨sp, sp', g1, g2, g3, rfl⟩ := h1
    obtain ⟨w, rfl, g4⟩ := TermAt.sound' h2 rfl
    obtain ⟨w', rfl, g5⟩ := TailAt.sound' h3 rfl
    exact ⟨_, by simp, .cons g1 g2 g4 g5⟩
  | _, _, .panic .., _, _, h => by cases h
  | _, _, .morePanic .., _, _, h => by cases h
end

theorem TermAt.sound {cs ds : List Char} {t : Term} (h : TermAt cs (.ok t ds)) : ∃ w, cs = w ++ ds ∧ TermText t w :=
  h.sound' rfl

theorem ExprAt.sound {cs ds : List Char} {e : Expr} (h : ExprAt cs (.ok e ds)) : ∃ w, cs = w ++ ds ∧ ExprText e w :=
  h.sound' rfl

theorem TailAt.sound {cs ds : List Char} {ps : List (Op × Term)} (h : TailAt cs (.ok ps ds)) :
    ∃ w, cs = w ++ ds ∧ ChainText ps w :=
  h.sound' rfl

/-! ## A text has one outcome -/

theorem digits_unique {ds ds' rest rest' : List Char} (h : ds ++ rest = ds' ++ rest') (h1 : ∀ c ∈ ds, c.isDigit = true)
    (h1' : ∀ c ∈ ds', c.isDigit = true) (h2 : ¬ StartsDigit rest) (h2' : ¬ StartsDigit rest') : ds = ds' ∧ rest = rest' := by
  induction ds generalizing ds' with
  | nil =>
    cases ds' with
    | nil => exact ⟨rfl, h⟩
    | cons c ds' => exact absurd ⟨c, by simp at h; simp [h], h1' c (by simp)⟩ h2
  | cons c ds ih =>
    cases ds' with
    | nil => exact absurd ⟨c, by simp at h; simp [← h], h1 c (by simp)⟩ h2'
    | cons c' ds' =>
      simp at h
      obtain ⟨h3, h4⟩ := ih h.2 (fun c hc => h1 c (by simp [hc])) (fun c hc => h1' c (by simp [hc]))
      exact ⟨by rw [h.1, h3], h4⟩

theorem starts_digits {ds rest : List Char} (h1 : ds ≠ []) (h2 : ∀ c ∈ ds, c.isDigit = true) : StartsDigit (ds ++ rest) := by
  cases ds with
  | nil => exact absurd rfl h1
  | cons c ds => exact ⟨c, rfl, h2 c (by simp)⟩

theorem StartsDigit.not_wide {cs : List Char} (h : StartsDigit cs) : ¬ Wide cs := by
  obtain ⟨c, h1, h2⟩ := h
  rintro ⟨c', h3, h4⟩
  rw [h1] at h3; injection h3 with h3; subst h3
  rw [digit_narrow h2] at h4; omega

theorem StartsDigit.not_paren {cs : List Char} : ¬ StartsDigit ('(' :: cs) := by
  rintro ⟨c, h1, h2⟩; simp at h1; subst h1; revert h2; decide

theorem not_wide_paren {cs : List Char} : ¬ Wide ('(' :: cs) := by
  rintro ⟨c, h1, h2⟩; simp at h1; subst h1; revert h2; decide

theorem not_wide_close {cs : List Char} : ¬ Wide (')' :: cs) := by
  rintro ⟨c, h1, h2⟩; simp at h1; subst h1; revert h2; decide

/-- What the closing parenthesis makes of the expression inside. -/
inductive Closing : Outcome Expr → Outcome Term → Prop where
  | parens {e : Expr} {rest : List Char} : Closing (.ok e (')' :: rest)) (.ok (.parenthesized e) rest)
  | miss : Closing .miss .miss
  | panic : Closing .panic .panic
  | unclosed {e : Expr} {rest : List Char} : ¬ Wide rest → rest.head? ≠ some ')' → Closing (.ok e rest) .miss
  | wide {e : Expr} {rest : List Char} : Wide rest → Closing (.ok e rest) .panic

theorem Closing.det {o : Outcome Expr} {x y : Outcome Term} (h : Closing o x) (h' : Closing o y) : x = y := by
  cases h <;> cases h' <;> first
    | rfl
    | (rename_i h; exact absurd h not_wide_close)
    | (rename_i h; exact absurd rfl h)
    | (rename_i h h' h''; first | exact absurd h h' | exact absurd h'' h)

theorem TermAt.paren {cs ds : List Char} {out : Outcome Term} (h : TermAt ds out) (hd : ds = '(' :: cs) :
    ∃ o, ExprAt cs o ∧ Closing o out := by
  cases h with
  | int h1 h2 => exact absurd (hd ▸ starts_digits h1 h2) StartsDigit.not_paren
  | big h1 h2 => exact absurd (hd ▸ starts_digits h1 h2) StartsDigit.not_paren
  | wide h => exact absurd (hd ▸ h) not_wide_paren
  | none _ _ h => exact absurd (by rw [hd]; rfl) h
  | parens h => cases hd; exact ⟨_, h, .parens⟩
  | parensMiss h => cases hd; exact ⟨_, h, .miss⟩
  | parensPanic h => cases hd; exact ⟨_, h, .panic⟩
  | unclosed h h1 h2 => cases hd; exact ⟨_, h, .unclosed h1 h2⟩
  | unclosedWide h h1 => cases hd; exact ⟨_, h, .wide h1⟩

theorem TermAt.digits {cs ds rest : List Char} {out : Outcome Term} (h : TermAt cs out) (hd : cs = ds ++ rest) (h1 : ds ≠ [])
    (h2 : ∀ c ∈ ds, c.isDigit = true) (h3 : ¬ StartsDigit rest) :
    out = if Nat.ofDigitChars 10 ds 0 ≤ usizeMax then .ok (.integer (Nat.ofDigitChars 10 ds 0)) rest else .panic := by
  have hs : StartsDigit cs := hd ▸ starts_digits h1 h2
  cases h with
  | int g1 g2 g3 g4 =>
    obtain ⟨rfl, rfl⟩ := digits_unique hd g2 h2 g3 h3
    rw [if_pos g4]
  | big g1 g2 g3 g4 =>
    obtain ⟨rfl, rfl⟩ := digits_unique hd g2 h2 g3 h3
    rw [if_neg (by omega)]
  | wide h => exact absurd h hs.not_wide
  | none _ h _ => exact absurd hs h
  | parens h => exact absurd hs StartsDigit.not_paren
  | parensMiss h => exact absurd hs StartsDigit.not_paren
  | parensPanic h => exact absurd hs StartsDigit.not_paren
  | unclosed h h1 h2 => exact absurd hs StartsDigit.not_paren
  | unclosedWide h h1 => exact absurd hs StartsDigit.not_paren

theorem TermAt.other {cs : List Char} {out : Outcome Term} (h : TermAt cs out) (hd : ¬ StartsDigit cs)
    (hp : cs.head? ≠ some '(') : (Wide cs ∧ out = .panic) ∨ (¬ Wide cs ∧ out = .miss) := by
  cases h with
  | int h1 h2 => exact absurd (starts_digits h1 h2) hd
  | big h1 h2 => exact absurd (starts_digits h1 h2) hd
  | wide h => exact .inl ⟨h, rfl⟩
  | none h _ _ => exact .inr ⟨h, rfl⟩
  | parens h => exact absurd rfl hp
  | parensMiss h => exact absurd rfl hp
  | parensPanic h => exact absurd rfl hp
  | unclosed h h1 h2 => exact absurd rfl hp
  | unclosedWide h h1 => exact absurd rfl hp

theorem at_unique (cs : List Char) :
    (∀ o o', TermAt cs o → TermAt cs o' → o = o') ∧ (∀ o o', ExprAt cs o → ExprAt cs o' → o = o') ∧
    (∀ o o', TailAt cs o → TailAt cs o' → o = o') := by
  generalize hn : cs.length = n
  induction n using Nat.strongRecOn generalizing cs with
  | _ n ih =>
    subst hn
    have hT : ∀ o o', TermAt cs o → TermAt cs o' → o = o' := by
      intro o o' h h'
      obtain ⟨ds, rest, h1, h2, h3⟩ := digits_split cs
      by_cases hd : ds = []
      · subst hd
        simp only [List.nil_append] at h1
        subst h1
        by_cases hp : cs.head? = some '('
        · obtain ⟨cs', rfl⟩ : ∃ cs', cs = '(' :: cs' := by
            cases cs with
            | nil => simp at hp
            | cons c cs => simp at hp; exact ⟨cs, by rw [hp]⟩
          obtain ⟨x, g1, g2⟩ := h.paren rfl
          obtain ⟨x', g1', g2'⟩ := h'.paren rfl
          obtain rfl := (ih _ (by simp) cs' rfl).2.1 _ _ g1 g1'
          exact g2.det g2'
        · rcases h.other h3 hp with ⟨a, rfl⟩ | ⟨a, rfl⟩ <;> rcases h'.other h3 hp with ⟨a', rfl⟩ | ⟨a', rfl⟩ <;>
            first | rfl | exact absurd a a' | exact absurd a' a
      · rw [h.digits h1 hd h2 h3, h'.digits h1 hd h2 h3]
    have hshort : ∀ {cs t rest}, TermAt cs (.ok t rest) → rest.length < cs.length := by
      intro cs t rest h
      obtain ⟨w, rfl, hw⟩ := h.sound
      have := hw.pos
      simp; omega
    refine ⟨hT, ?_, ?_⟩
    · intro o o' h h'
      cases h with
      | miss h =>
        cases h' with
        | miss => rfl
        | panic h' => cases hT _ _ h h'
        | ok h' => cases hT _ _ h h'
        | tailPanic h' => cases hT _ _ h h'
      | panic h =>
        cases h' with
        | miss h' => cases hT _ _ h h'
        | panic h' => rfl
        | ok h' => cases hT _ _ h h'
        | tailPanic h' => rfl
      | ok h h1 h2 h3 h4 =>
        cases h' with
        | miss h' => cases hT _ _ h h'
        | panic h' => cases hT _ _ h h'
        | ok h' h1' h2' h3' h4' =>
          cases hT _ _ h h'
          cases (ih _ (hshort h) _ rfl).2.2 _ _ h1 h1'
          rw [BTree.unique h4 h4' (h2.trans h2'.symm) (h3.trans h3'.symm)]
        | tailPanic h' h1' =>
          cases hT _ _ h h'
          cases (ih _ (hshort h) _ rfl).2.2 _ _ h1 h1'
      | tailPanic h h1 =>
        cases h' with
        | miss h' => cases hT _ _ h h'
        | panic h' => rfl
        | ok h' h1' h2' h3' h4' =>
          cases hT _ _ h h'
          cases (ih _ (hshort h) _ rfl).2.2 _ _ h1 h1'
        | tailPanic h' h1' => rfl
    · intro o o' h h'
      have hds : ∀ {p ds}, OpBefore p cs ds → ds.length < cs.length := fun h => by have := h.shorter; omega
      cases h with
      | stop h =>
        cases h' with
        | stop => rfl
        | dangling => rfl
        | panic h' => exact absurd h' (h _ _)
        | more h' => exact absurd h' (h _ _)
        | morePanic h' => exact absurd h' (h _ _)
      | dangling h h1 =>
        cases h' with
        | stop => rfl
        | dangling => rfl
        | panic h' h1' => obtain ⟨rfl, rfl⟩ := h.unique h'; cases (ih _ (hds h) _ rfl).1 _ _ h1 h1'
        | more h' h1' => obtain ⟨rfl, rfl⟩ := h.unique h'; cases (ih _ (hds h) _ rfl).1 _ _ h1 h1'
        | morePanic h' h1' => obtain ⟨rfl, rfl⟩ := h.unique h'; cases (ih _ (hds h) _ rfl).1 _ _ h1 h1'
      | panic h h1 =>
        cases h' with
        | stop h' => exact absurd h (h' _ _)
        | dangling h' h1' => obtain ⟨rfl, rfl⟩ := h.unique h'; cases (ih _ (hds h) _ rfl).1 _ _ h1 h1'
        | panic h' => rfl
        | more h' h1' => obtain ⟨rfl, rfl⟩ := h.unique h'; cases (ih _ (hds h) _ rfl).1 _ _ h1 h1'
        | morePanic => rfl
      | more h h1 h2 =>
        cases h' with
        | stop h' => exact absurd h (h' _ _)
        | dangling h' h1' => obtain ⟨rfl, rfl⟩ := h.unique h'; cases (ih _ (hds h) _ rfl).1 _ _ h1 h1'
        | panic h' h1' => obtain ⟨rfl, rfl⟩ := h.unique h'; cases (ih _ (hds h) _ rfl).1 _ _ h1 h1'
        | more h' h1' h2' =>
          obtain ⟨rfl, rfl⟩ := h.unique h'
          cases (ih _ (hds h) _ rfl).1 _ _ h1 h1'
          cases (ih _ (Nat.lt_trans (hshort h1) (hds h)) _ rfl).2.2 _ _ h2 h2'
          rfl
        | morePanic h' h1' h2' =>
          obtain ⟨rfl, rfl⟩ := h.unique h'
          cases (ih _ (hds h) _ rfl).1 _ _ h1 h1'
          cases (ih _ (Nat.lt_trans (hshort h1) (hds h)) _ rfl).2.2 _ _ h2 h2'
      | morePanic h h1 h2 =>
        cases h' with
        | stop h' => exact absurd h (h' _ _)
        | dangling h' h1' => obtain ⟨rfl, rfl⟩ := h.unique h'; cases (ih _ (hds h) _ rfl).1 _ _ h1 h1'
        | panic => rfl
        | more h' h1' h2' =>
          obtain ⟨rfl, rfl⟩ := h.unique h'
          cases (ih _ (hds h) _ rfl).1 _ _ h1 h1'
          cases (ih _ (Nat.lt_trans (hshort h1) (hds h)) _ rfl).2.2 _ _ h2 h2'
        | morePanic => rfl

/-! ## The longest text is read -/

theorem not_starts_nil : ¬ StartsDigit [] := by rintro ⟨c, h, -⟩; simp at h

theorem _root_.Parcom.Spec.Calc.TermText.longest {t : Term} {w k : List Char} {out : Outcome Term} (h : TermText t w) (ho : TermAt (w ++ k) out) :
    out = .panic ∨ ∃ t' rest, out = .ok t' rest ∧ rest.length ≤ k.length := by
  cases h with
  | integer h1 h2 h3 h4 =>
    obtain ⟨ds, rest, rfl, g2, g3⟩ := digits_split k
    rw [ho.digits (ds := w ++ ds) (rest := rest) (by simp) (by simp [h1])
      (by intro c hc; exact (List.mem_append.mp hc).elim (h2 c) (g2 c)) g3]
    split
    · exact .inr ⟨_, _, rfl, by simp⟩
    · exact .inl rfl
  | @parens e w h =>
    right
    refine ⟨.parenthesized e, k, ?_, Nat.le_refl _⟩
    refine (at_unique _).1 _ _ ho ?_
    have hp : ¬ StartsDigit (')' :: k) := by rintro ⟨c, hc, h⟩; simp at hc; subst hc; revert h; decide
    simpa using TermAt.parens (expr_reads h hp (tail_stops (k := ')' :: k) (.inr rfl)))

theorem TailAt.shorter {cs rest : List Char} {ps : List (Op × Term)} (h : TailAt cs (.ok ps rest)) :
    rest.length ≤ cs.length := by
  obtain ⟨w, rfl, -⟩ := h.sound
  simp

theorem TailAt.never_misses : ∀ {cs : List Char}, ¬ TailAt cs .miss := by
  intro cs h
  cases h

theorem ChainText.longest {ps : List (Op × Term)} {w k : List Char} {out : Outcome (List (Op × Term))} (h : ChainText ps w)
    (ho : TailAt (w ++ k) out) : out = .panic ∨ ∃ ps' rest, out = .ok ps' rest ∧ rest.length ≤ k.length := by
  induction h generalizing out with
  | nil =>
    cases out with
    | ok ps' rest => exact .inr ⟨_, _, rfl, ho.shorter⟩
    | miss => exact absurd ho TailAt.never_misses
    | panic => exact .inl rfl
  | @cons o t ps sp sp' w w' h1 h2 h3 h4 ih =>
    have hop : OpBefore o (sp ++ symbol o :: (sp' ++ (w ++ w')) ++ k) (w ++ (w' ++ k)) :=
      ⟨sp, sp', h1, h2, h3.not_space, by simp⟩
    have hlen : ∀ {t' rest out}, TermAt (w ++ (w' ++ k)) (.ok t' rest) → TailAt rest out → out = .panic ∨
        ∃ ps' r, out = .ok ps' r ∧ r.length ≤ k.length := by
      intro t' rest out g1 g2
      by_cases hd : StartsDigit (w' ++ k)
      · cases h4 with
        | nil =>
          rcases h3.longest g1 with h | ⟨_, _, h, h'⟩
          · cases h
          · cases h
            cases out with
            | ok ps' r => exact .inr ⟨_, _, rfl, by have := g2.shorter; simp at h'; omega⟩
            | miss => exact absurd g2 TailAt.never_misses
            | panic => exact .inl rfl
        | cons a b c d =>
          exact absurd hd (ChainText.not_digit (.cons a b c d) (k := k) fun h => by cases h)
      · cases (at_unique _).1 _ _ g1 (term_reads h3 hd)
        exact ih g2
    cases ho with
    | stop h => exact absurd hop (h _ _)
    | dangling h h' =>
      obtain ⟨rfl, rfl⟩ := hop.unique h
      rcases h3.longest h' with h | ⟨_, _, h, -⟩ <;> cases h
    | panic h h' => exact .inl rfl
    | more h h' h'' =>
      obtain ⟨rfl, rfl⟩ := hop.unique h
      rcases hlen h' h'' with h | ⟨_, _, h, hl⟩
      · cases h
      · cases h; exact .inr ⟨_, _, rfl, hl⟩
    | morePanic => exact .inl rfl

theorem _root_.Parcom.Spec.Calc.ExprText.longest {e : Expr} {w k : List Char} {out : Outcome Expr} (h : ExprText e w)
    (ho : ExprAt (w ++ k) out) : out = .panic ∨ ∃ e' rest, out = .ok e' rest ∧ rest.length ≤ k.length := by
  obtain ⟨tree, w₁, w₂, rfl, hg, rfl, h1, h2, -, -⟩ := h.flat
  rw [List.append_assoc] at ho
  cases ho with
  | miss h => rcases h1.longest h with h | ⟨_, _, h, -⟩ <;> cases h
  | panic => exact .inl rfl
  | tailPanic => exact .inl rfl
  | ok g1 g2 =>
    by_cases hd : StartsDigit (w₂ ++ k)
    · generalize tree.tail = ps at h2
      cases h2 with
      | nil =>
        rcases h1.longest g1 with h | ⟨_, _, h, hl⟩
        · cases h
        · cases h; exact .inr ⟨_, _, rfl, by have := g2.shorter; simp at hl; omega⟩
      | cons a b c d => exact absurd hd (ChainText.not_digit (.cons a b c d) (k := k) fun h => by cases h)
    · cases (at_unique _).1 _ _ g1 (term_reads h1 hd)
      rcases h2.longest g2 with h | ⟨_, _, h, hl⟩
      · cases h
      · cases h; exact .inr ⟨_, _, rfl, hl⟩

/-! ## When it panics -/

theorem _root_.Parcom.Spec.Calc.Hostile.suffix {w cs : List Char} (h : Hostile cs) : Hostile (w ++ cs) := by
  rcases h with ⟨c, h1, h2⟩ | ⟨l, ds, r, rfl, h1, h2⟩
  · exact .inl ⟨c, by simp [h1], h2⟩
  · exact .inr ⟨w ++ l, ds, r, by simp, h1, h2⟩

theorem Wide.hostile {cs : List Char} (h : Wide cs) : Hostile cs := by
  obtain ⟨c, h1, h2⟩ := h
  exact .inl ⟨c, List.mem_of_head? h1, h2⟩

mutual
theorem TermAt.hostile : ∀ {cs : List Char} {out : Outcome Term}, TermAt cs out → out = .panic → Hostile cs
  | _, _, .big (rest := rest) h1 h2 _ h4, _ => .inr ⟨[], _, rest, by simp, h2, h4⟩
  | _, _, .wide h', _ => h'.hostile
  | _, _, .parensPanic h', _ => Hostile.suffix (w := ['(']) (ExprAt.hostile h' rfl)
  | _, _, .unclosedWide h' h'', _ => by
    obtain ⟨w, rfl, -⟩ := h'.sound
    exact Hostile.suffix (w := '(' :: w) h''.hostile
  | _, _, .int .., h => by cases h
  | _, _, .parens .., h => by cases h
  | _, _, .none .., h => by cases h
  | _, _, .parensMiss .., h => by cases h
  | _, _, .unclosed .., h => by cases h
theorem ExprAt.hostile : ∀ {cs : List Char} {out : Outcome Expr}, ExprAt cs out → out = .panic → Hostile cs
  | _, _, .panic h, _ => TermAt.hostile h rfl
  | _, _, .tailPanic h h', _ => by
    have := TailAt.hostile h' rfl
    obtain ⟨w, rfl, -⟩ := h.sound
    exact this.suffix
  | _, _, .ok .., h => by cases h
  | _, _, .miss .., h => by cases h
theorem TailAt.hostile : ∀ {cs : List Char} {out : Outcome (List (Op × Term))}, TailAt cs out → out = .panic → Hostile cs
  | _, _, .panic (o := o) ⟨sp, sp', _, _, _, he⟩ h', _ => by
    have := TermAt.hostile h' rfl
    rw [he, show ∀ ds, sp ++ symbol o :: (sp' ++ ds) = (sp ++ symbol o :: sp') ++ ds from fun ds => by simp]
    exact this.suffix
  | _, _, .morePanic (o := o) ⟨sp, sp', _, _, _, he⟩ h' h'', _ => by
    have := TailAt.hostile h'' rfl
    obtain ⟨w, rfl, -⟩ := h'.sound
    rw [he, show ∀ ds, sp ++ symbol o :: (sp' ++ (w ++ ds)) = (sp ++ symbol o :: (sp' ++ w)) ++ ds from fun ds => by simp]
    exact this.suffix
  | _, _, .stop .., h => by cases h
  | _, _, .dangling .., h => by cases h
  | _, _, .more .., h => by cases h
end

/-! ## What `display` writes -/

theorem level_parens : ∀ e : Expr, level (parens e) = 3
  | .binOp l op r => rfl
  | .term (.parenthesized e) => by rw [parens]; exact level_parens e
  | .term (.integer n) => by rw [parens]; rfl

theorem toDigits_text {n : Nat} (h : n ≤ usizeMax) : TermText (.integer n) (Nat.toDigits 10 n) := by
  refine .integer ?_ ?_ ?_ h
  · exact Nat.toDigits_ne_nil
  · exact fun c hc => Nat.isDigit_of_mem_toDigits (by decide) (by decide) hc
  · exact Nat.ofDigitChars_ten_toDigits

theorem spaces_one : Spaces [' '] := ⟨by simp, by simp⟩

theorem display_text : ∀ e : Expr, Fits e → ExprText (parens e) (display e)
  | .binOp l op r, h => by
    have hl := display_text l h.1
    have hr := display_text r h.2
    have := ExprText.term (.parens (.binOp (op := op) hl hr spaces_one spaces_one
      (by rw [level_parens]; have := rank_le op; omega) (by rw [level_parens]; have := rank_le op; omega)))
    rw [parens]
    cases op <;> simpa [display, symbol] using this
  | .term (.parenthesized e), h => by
    rw [parens, display, displayTerm]
    exact display_text e h
  | .term (.integer n), h => by
    rw [parens, display, displayTerm]
    exact .term (toDigits_text h)

theorem display_parens : ∀ e : Expr, display (parens e) = display e
  | .binOp l op r => by
    rw [parens]
    simp only [display, displayTerm, display_parens l, display_parens r]
  | .term (.parenthesized e) => by rw [parens, display, displayTerm]; exact display_parens e
  | .term (.integer n) => by rw [parens]

theorem eval_parens (b : Build) : ∀ e : Expr, eval b (parens e) = eval b e
  | .binOp l op r => by
    rw [parens]
    simp only [eval, evalTerm, eval_parens b l, eval_parens b r]
  | .term (.parenthesized e) => by simp only [parens, eval, evalTerm]; exact eval_parens b e
  | .term (.integer n) => by rw [parens]

end Parcom.Calc
