import Verif.Props.Calc
import Verif.Spec.Chunked
/-!
# C96: the calculator and how its text is cut
-/
namespace Parcom
open Spec Spec.Calc Calc

/-- Two runs of the calculator came out alike: the same expression with the same text left, both a miss, or both a panic. -/
def Calc.SameOutcome {S S' : Type} [Sequence S Str] [Sequence S' Str] [LawfulSequence S] [LawfulSequence S']
    (r : Run (PResult S Expr (Miss Unit))) (r' : Run (PResult S' Expr (Miss Unit))) : Prop :=
  (∃ e s s', r = pure (.ok e s) ∧ r' = pure (.ok e s') ∧ content s = content s') ∨
  (∃ e e' u u', r = pure (.err e u) ∧ r' = pure (.err e' u')) ∨
  (∃ f f', r = Run.fault f ∧ r' = Run.fault f')

/-- C96: what the calculator reads does not depend on how the text is cut into segments. -/
def C96Statement : Prop :=
  ∀ (b : Build) (S S' : Type) [Sequence S Str] [RewindSequence S] [LawfulSequence S] [LawfulRewind S]
    [Sequence S' Str] [RewindSequence S'] [LawfulSequence S'] [LawfulRewind S'] (s : S) (s' : S'),
    content s = content s' → SameOutcome (expr b s) (expr b s')

/-- It does not, as long as no empty segment lies before a char. -/
theorem C96_partial {S S' : Type} [Sequence S Str] [RewindSequence S] [LawfulSequence S] [LawfulRewind S] [Gapless S]
    [Sequence S' Str] [RewindSequence S'] [LawfulSequence S'] [LawfulRewind S'] [Gapless S'] (b : Build) (s : S) (s' : S')
    (h : content s = content s') : SameOutcome (expr b s) (expr b s') := by
  obtain ⟨out, ho, ha, -⟩ := (calc_at b s).2
  obtain ⟨out', ho', ha', -⟩ := (calc_at b s').2
  rw [h] at ho
  cases (at_unique _).2.1 _ _ ho ho'
  cases out with
  | ok v rest =>
    obtain ⟨r, h1, h2, -⟩ := ha
    obtain ⟨r', h1', h2', -⟩ := ha'
    exact .inl ⟨v, r, r', h1, h1', by rw [h2, h2']⟩
  | miss =>
    obtain ⟨e, u, h1, -⟩ := ha
    obtain ⟨e', u', h1', -⟩ := ha'
    exact .inr (.inl ⟨e, e', u, u', h1, h1'⟩)
  | panic =>
    obtain ⟨f, h1⟩ := ha
    obtain ⟨f', h1'⟩ := ha'
    exact .inr (.inr ⟨f, f', h1, h1'⟩)

/-- `12`, cut into `1`, nothing, and `2`. -/
def Calc.gapped : Chunked Str Char := { consumed := 0, chunks := [['1'], [], ['2']] }

theorem Calc.gapped_integer : integer gapped = pure (.ok 1 ({ consumed := 1, chunks := [[], [], ['2']] } : Chunked Str Char)) := by
  have h1 : lastDigit ⟨['1']⟩ = some (0, '1') := by decide
  have h2 : lastDigit ⟨[]⟩ = none := by decide
  have h3 : cutBytes ['1'] 1 = some (['1'], []) := by decide
  have h4 : fromDecimal ['1'] 0 = some 1 := by decide
  rw [integer, integerLoop]
  simp only [Sequence.segments, gapped, Sequence.next, OfItems.ofItems, Run.pure_bind', h1]
  rw [show (0 : Nat) + '1'.utf8Size = 1 from rfl, strPrefix, h3]
  simp only [Run.pure_bind']
  rw [if_neg (by decide), integerLoop]
  simp only [Sequence.next, OfItems.ofItems, Run.pure_bind', h2]
  rw [if_neg (by decide)]
  simp only [List.nil_append, h4, Sequence.release, Sequence.advance]
  rw [dropExtent, if_pos (by decide), show 0 + 1 - ItemSegment.size Str '1' = 0 from rfl, dropExtent]
  rfl

/-- The calculator reads `1` only. -/
theorem C96_gap (b : Build) : ∃ s', expr b gapped = pure (.ok (.term (.integer 1)) s') ∧ content s' = ['2'] := by
  have ht : Agrees gapped (term b gapped) (.ok (.integer 1) ['2']) := by
    rw [term]
    refine mapErr_agrees _ (map_agrees (fun e : Either Nat Expr => match e with
      | .first n => Term.integer n
      | .last e => Term.parenthesized e) (or_first (p := Parser.ofFn integer) (v := 1) (rest := ['2']) ?_))
    exact ⟨_, gapped_integer, rfl, Nat.zero_le _⟩
  obtain ⟨r, k1, k2, k3⟩ := ht
  have hi : binExprImpl b (fun s => term b s) (spacedOp (S := Chunked Str Char)).parse Expr.binOp Expr.term gapped 0 =
      binExprLoop b (fun s => term b s) (spacedOp (S := Chunked Str Char)).parse Expr.binOp Expr.term 0 []
        (Expr.term (.integer 1)) r := by
    rw [binExprImpl, k1]; rfl
  have hl : ∃ reason, binExprLoop b (fun s => term b s) (spacedOp (S := Chunked Str Char)).parse Expr.binOp Expr.term 0 []
      (Expr.term (.integer 1)) r = pure (.ok (.term (.integer 1), .error reason) r) := by
    rcases spacedOp_at r with ⟨o, ds, ⟨sp, sp', h1, -, -, h4⟩, -⟩ | ⟨-, e, u, h2, h3⟩
    · rw [k2] at h4
      cases sp with
      | nil => exact absurd rfl h1.1
      | cons c sp =>
        have := h1.2 c (by simp)
        subst this
        simp at h4
    · have hw : u.rewind (RewindSequence.anchor r) = pure r := LawfulRewind.rewind h3
      refine ⟨.first e, ?_⟩
      rw [binExprLoop, h2]
      have hx : shouldTerminate e = false := by
        rcases e with (⟨⟨⟩⟩ | ⟨⟨⟩⟩) | ⟨⟨⟩⟩ <;> rfl
      simp only [Run.pure_bind', hx]
      rw [if_neg (by simp), hw]
      rfl
  obtain ⟨reason, hl⟩ := hl
  refine ⟨r, ?_, k2⟩
  rw [expr]
  show (((binExprImpl b (fun s => term b s) (spacedOp (S := Chunked Str Char)).parse Expr.binOp Expr.term gapped 0 >>= _) >>= _)
    >>= _) = _
  rw [hi, hl]
  rfl

/-- C96 is false: `12` in one piece is twelve, cut around an empty segment it is one. -/
theorem C96_false : ¬ C96Statement := by
  intro h
  obtain ⟨s', h1, -⟩ := C96_gap .checked
  obtain ⟨s'', h2, -⟩ := C79_reads .checked (s := (⟨1, 0, ⟨"12".toList⟩⟩ : StrRef)) (k := []) (by simp; rfl) (.inl rfl)
    (.term (.integer (n := 12) (by decide) (by decide) (by decide) (by decide)))
  rcases h .checked (Chunked Str Char) StrRef gapped ⟨1, 0, ⟨"12".toList⟩⟩ rfl with
    ⟨e, a, a', g1, g2, -⟩ | ⟨e, e', u, u', g1, -⟩ | ⟨f, f', g1, -⟩
  · rw [h1] at g1; rw [h2] at g2; cases g1; cases g2
  · rw [h1] at g1; cases g1
  · rw [h1] at g1; cases g1

/-- A case of `C96_partial`: measured or not. -/
example (b : Build) {μ M : Type} [Meter μ Str M] (m : μ) : SameOutcome (expr b (⟨1, 0, ⟨"1 + 2".toList⟩⟩ : StrRef))
    (expr b (⟨m, ⟨1, 0, ⟨"1 + 2".toList⟩⟩⟩ : MeasuredStr μ)) := C96_partial b _ _ rfl

end Parcom
