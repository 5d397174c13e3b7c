import Verif.Lemmas.CalcText
/-!
# Where the calculator panics
-/
namespace Parcom.Calc
open Spec Spec.Calc BTree

/-! ## When exactly it panics -/

theorem head_split {cs : List Char} {c : Char} (h : cs.head? = some c) : ∃ cs', cs = c :: cs' := by
  cases cs with
  | nil => simp at h
  | cons x cs => simp at h; exact ⟨cs, by rw [h]⟩

theorem Spaces.not_digit {sp k : List Char} (h : Spaces sp) : ¬ StartsDigit (sp ++ k) := by
  obtain ⟨h1, h2⟩ := h
  cases sp with
  | nil => exact absurd rfl h1
  | cons c sp =>
    rintro ⟨x, hx, hd⟩
    simp at hx
    subst hx
    rw [h2 c (by simp)] at hd
    revert hd; decide


/-- Every text has an outcome. -/
theorem expr_total (cs : List Char) : ∃ out, ExprAt cs out := by
  obtain ⟨out, h, -⟩ := (calc_at .checked (⟨1, 0, ⟨cs⟩⟩ : StrRef)).2
  exact ⟨out, h⟩

/-- The expression panics, or the closing parenthesis after it does. -/
def PanicsIn (k : Nat) (q : List Char) : Prop := ExprAt q .panic ∨ (0 < k ∧ ∃ e r, ExprAt q (.ok e r) ∧ Wide r)

theorem PanicsIn.not_space {k : Nat} {q : List Char} (h : PanicsIn k q) : q.head? ≠ some ' ' := by
  intro hq
  obtain ⟨cs, rfl⟩ := head_split hq
  have hm : ExprAt (' ' :: cs) .miss := .miss (.none (by rintro ⟨c, h1, h2⟩; simp at h1; subst h1; revert h2; decide)
    (by rintro ⟨c, h1, h2⟩; simp at h1; subst h1; revert h2; decide) (by simp))
  rcases h with h | ⟨-, e, r, h, -⟩
  · cases (at_unique _).2.1 _ _ hm h
  · cases (at_unique _).2.1 _ _ hm h

theorem PanicsIn.after {k : Nat} {q sp sp' w : List Char} {o : Op} {t : Term} (h : PanicsIn k q) (ht : TermText t w)
    (h1 : Spaces sp) (h2 : Spaces sp') : PanicsIn k (w ++ (sp ++ symbol o :: (sp' ++ q))) := by
  have hop : OpBefore o (sp ++ symbol o :: (sp' ++ q)) q := ⟨sp, sp', h1, h2, h.not_space, rfl⟩
  have ht : TermAt (w ++ (sp ++ symbol o :: (sp' ++ q))) (.ok t (sp ++ symbol o :: (sp' ++ q))) :=
    term_reads ht (Spaces.not_digit h1)
  rcases h with h | ⟨hk, e, r, h, hw⟩
  · refine .inl (.tailPanic ht ?_)
    cases h with
    | panic h => exact .panic hop h
    | tailPanic h h' => exact .morePanic hop h h'
  · cases h with
    | @ok _ rest _ t' ps _ g1 g2 =>
      have hm := TailAt.more hop g1 g2
      obtain ⟨out, ho⟩ := expr_total (w ++ (sp ++ symbol o :: (sp' ++ q)))
      cases ho with
      | miss h => cases (at_unique _).1 _ _ ht h
      | panic h => exact .inl (.panic h)
      | tailPanic h h' => exact .inl (.tailPanic h h')
      | ok g1' g2' g3' g4' g5' =>
        cases (at_unique _).1 _ _ ht g1'
        cases (at_unique _).2.2 _ _ hm g2'
        exact .inr ⟨hk, _, _, .ok g1' g2' g3' g4' g5', hw⟩

mutual
theorem _root_.Parcom.Spec.Calc.OperandNext.panics {k : Nat} {p : List Char} : OperandNext k p → ∀ {q : List Char},
    PanicsIn k q → ExprAt (p ++ q) .panic
  | .start, _, h => by
    rcases h with h | ⟨h, -⟩
    · exact h
    · omega
  | .opened (p := p) h', q, h => by
    have : ExprAt (p ++ ('(' :: q)) .panic := h'.panics (by
      refine .inl (.panic ?_)
      rcases h with h | ⟨-, e, r, h, hw⟩
      · exact .parensPanic h
      · exact .unclosedWide h hw)
    simpa using this
  | .operator (p := p) (sp := sp) (sp' := sp') (o := o) h' h1 h2, q, h => by
    have := h'.panics (r := sp ++ symbol o :: (sp' ++ q)) fun _ w ht => h.after ht h1 h2
    simpa using this
theorem _root_.Parcom.Spec.Calc.OperandRead.panics {k : Nat} {p : List Char} : OperandRead k p → ∀ {r : List Char},
    (∀ t w, TermText t w → PanicsIn k (w ++ r)) → ExprAt (p ++ r) .panic
  | .operand (p := p) (w := w) h ht, r, hr => by
    have := h.panics (hr _ _ ht)
    simpa using this
end

theorem _root_.Parcom.Spec.Calc.OperandRead.chain {k : Nat} {p w : List Char} {ps : List (Op × Term)} (h : ChainText ps w)
    (hp : OperandRead k p) : OperandRead k (p ++ w) := by
  induction h generalizing p with
  | nil => simpa using hp
  | @cons o t ps sp sp' w w' h1 h2 h3 _ ih =>
    have := ih (.operand (.operator (o := o) hp h1 h2) h3)
    simpa using this

theorem _root_.Parcom.Spec.Calc.OperandNext.expr {k : Nat} {p w : List Char} {e : Expr} (hp : OperandNext k p) (h : ExprText e w) :
    OperandRead k (p ++ w) := by
  obtain ⟨tree, w₁, w₂, -, -, rfl, h1, h2, -, -⟩ := h.flat
  have := OperandRead.chain h2 (.operand hp h1)
  simpa using this

theorem Wide.trap {cs p : List Char} (h : Wide cs) (hp : (∃ k, OperandNext k p) ∨ ∃ k, 0 < k ∧ OperandRead k p) :
    Trap (p ++ cs) := by
  obtain ⟨c, h1, h2⟩ := h
  obtain ⟨cs, rfl⟩ := head_split h1
  exact .inl ⟨p, c, cs, rfl, h2, hp⟩

mutual
theorem TermAt.trap : ∀ {cs : List Char} {out : Outcome Term}, TermAt cs out → out = .panic → ∀ {k : Nat} {p : List Char},
    OperandNext k p → Trap (p ++ cs)
  | _, _, .wide h', _, _, _, hp => Wide.trap h' (.inl ⟨_, hp⟩)
  | _, _, .parensPanic h', _, _, _, hp => by simpa using ExprAt.trap h' rfl (.opened hp)
  | _, _, .unclosedWide h' h'', _, _, _, hp => by
    obtain ⟨w, rfl, hw⟩ := h'.sound
    have := Wide.trap h'' (.inr ⟨_, Nat.succ_pos _, OperandNext.expr (.opened hp) hw⟩)
    simpa using this
  | _, _, .big (ds := ds) (rest := rest) h1 h2 h3 h4, _, _, _, hp => .inr ⟨_, ds, rest, by simp, h2, h3, h4, _, hp⟩
  | _, _, .int .., h, _, _, _ => by cases h
  | _, _, .parens .., h, _, _, _ => by cases h
  | _, _, .none .., h, _, _, _ => by cases h
  | _, _, .parensMiss .., h, _, _, _ => by cases h
  | _, _, .unclosed .., h, _, _, _ => by cases h
theorem ExprAt.trap : ∀ {cs : List Char} {out : Outcome Expr}, ExprAt cs out → out = .panic → ∀ {k : Nat} {p : List Char},
    OperandNext k p → Trap (p ++ cs)
  | _, _, .panic h, _, _, _, hp => TermAt.trap h rfl hp
  | _, _, .tailPanic h h', _, _, _, hp => by
    have := fun {w t} (ht : TermText t w) => TailAt.trap h' rfl (.operand hp ht)
    obtain ⟨w, rfl, hw⟩ := h.sound
    simpa using this hw
  | _, _, .ok .., h, _, _, _ => by cases h
  | _, _, .miss .., h, _, _, _ => by cases h
theorem TailAt.trap : ∀ {cs : List Char} {out : Outcome (List (Op × Term))}, TailAt cs out → out = .panic →
    ∀ {k : Nat} {p : List Char}, OperandRead k p → Trap (p ++ cs)
  | _, _, .panic (o := o) ⟨sp, sp', h1, h2, _, he⟩ h', _, _, _, hp => by
    have := TermAt.trap h' rfl (.operator (o := o) hp h1 h2)
    rw [he]
    simpa using this
  | _, _, .morePanic (o := o) ⟨sp, sp', h1, h2, _, he⟩ h' h'', _, _, _, hp => by
    have := fun {w t} (ht : TermText t w) => TailAt.trap h'' rfl (.operand (.operator (o := o) hp h1 h2) ht)
    obtain ⟨w, rfl, hw⟩ := h'.sound
    rw [he]
    simpa using this hw
  | _, _, .stop .., h, _, _, _ => by cases h
  | _, _, .dangling .., h, _, _, _ => by cases h
  | _, _, .more .., h, _, _, _ => by cases h
end

/-- The grammar panics on a text exactly if it has a trap. -/
theorem panic_iff {cs : List Char} : ExprAt cs .panic ↔ Trap cs := by
  constructor
  · intro h
    have := h.trap rfl (k := 0) (p := []) .start
    simpa using this
  · rintro (⟨p, c, rest, rfl, hw, ⟨k, h⟩ | ⟨k, hk, h⟩⟩ | ⟨p, ds, rest, rfl, h2, h3, h4, k, h⟩)
    · exact h.panics (.inl (.panic (.wide ⟨c, rfl, hw⟩)))
    · refine h.panics fun t w ht => ?_
      have hs : TailAt (c :: rest) (.ok [] (c :: rest)) := by
        refine .stop ?_
        rintro o ds ⟨sp, sp', ⟨h1, h2⟩, -, -, he⟩
        cases sp with
        | nil => exact h1 rfl
        | cons x sp =>
          have hx := h2 x (by simp)
          simp at he
          rw [he.1, hx] at hw
          revert hw; decide
      have hd : ¬ StartsDigit (c :: rest) := fun h => StartsDigit.not_wide h ⟨c, rfl, hw⟩
      exact .inr ⟨hk, _, _, ExprAt.ok (tree := leaf t) (term_reads ht hd) hs rfl rfl trivial, ⟨c, rfl, hw⟩⟩
    · rw [List.append_assoc]
      refine h.panics (.inl (.panic (.big ?_ h2 h3 h4)))
      rintro rfl
      simp at h4

end Parcom.Calc
