import Verif.Lemmas.TildeText
import Verif.Spec.Chunked
/-!
# C115: the grammar of the unit tests of `bin_expr`
-/
namespace Parcom
open Spec Spec.Tilde Tilde

section
variable {S : Type} [Sequence S Str] [RewindSequence S] [LawfulSequence S] [L : LawfulRewind S]

theorem Tilde.expr_ok {b : Build} {s s' : S} {e : Expr} (h : expr b s = pure (.ok e s')) :
    ExprAt (content s) (.ok e (content s')) := by
  obtain ⟨out, ho, ha, -⟩ := (tilde_at b s).2
  cases out with
  | ok v rest =>
    obtain ⟨r, hr, hc, -⟩ := ha
    rw [h, Run.pure_eq, Run.pure_eq, Run.ret_inj] at hr
    cases hr
    rw [hc]; exact ho
  | miss => obtain ⟨e, u, hr, -⟩ := ha; rw [h] at hr; cases hr
  | panic => obtain ⟨f, hr⟩ := ha; rw [h] at hr; cases hr

theorem Tilde.expr_err {b : Build} {s : S} {e : Miss Unit} {u : UnknownLocation S} (h : expr b s = pure (.err e u)) :
    ExprAt (content s) .miss := by
  obtain ⟨out, ho, ha, -⟩ := (tilde_at b s).2
  cases out with
  | ok v rest => obtain ⟨r, hr, -⟩ := ha; rw [h] at hr; cases hr
  | miss => exact ho
  | panic => obtain ⟨f, hr⟩ := ha; rw [h] at hr; cases hr

theorem Tilde.expr_of_at {b : Build} {s : S} {e : Expr} {rest : List Char} (h : ExprAt (content s) (.ok e rest)) :
    ∃ s', expr b s = pure (.ok e s') ∧ content s' = rest := by
  obtain ⟨out, ho, ha, -⟩ := (tilde_at b s).2
  cases (at_unique _).2.1 _ _ h ho
  obtain ⟨s', h1, h2, -⟩ := ha
  exact ⟨s', h1, h2⟩

/-! ## C115: it reads the longest text that stands for an expression -/

/-- C115: what the grammar reads is a text that stands for the expression it returns, and no longer text at this place
stands for an expression. -/
theorem C115 (b : Build) {s s' : S} {e : Expr} (h : expr b s = pure (.ok e s')) :
    ∃ w, content s = w ++ content s' ∧ ExprText e w ∧
      ∀ e' w' k', content s = w' ++ k' → ExprText e' w' → w'.length ≤ w.length := by
  have h := Tilde.expr_ok h
  obtain ⟨w, h1, h2⟩ := h.sound
  refine ⟨w, h1, h2, ?_⟩
  intro e' w' k' h3 h4
  rw [h3] at h
  have hl := congrArg List.length (h1.symm.trans h3)
  simp only [List.length_append] at hl
  rcases h4.longest h with h | ⟨_, _, h, h5⟩
  · cases h
  · cases h; omega

/-- If it misses, no text at this place stands for an expression. -/
theorem C115_misses (b : Build) {s : S} {e : Miss Unit} {u : UnknownLocation S} (h : expr b s = pure (.err e u))
    {e' : Expr} {w k : List Char} (hs : content s = w ++ k) : ¬ ExprText e' w := by
  intro hw
  have h := Tilde.expr_err h
  rw [hs] at h
  rcases hw.longest h with h | ⟨_, _, h, -⟩ <;> cases h

/-- A whole text that stands for an expression is read as this expression; also before a closing parenthesis. -/
theorem C115_reads (b : Build) {s : S} {e : Expr} {w k : List Char} (hs : content s = w ++ k)
    (hk : k = [] ∨ k.head? = some ')') (h : ExprText e w) : ∃ s', expr b s = pure (.ok e s') ∧ content s' = k := by
  refine Tilde.expr_of_at ?_
  rw [hs]
  exact expr_reads h (tail_stops hk)

theorem Tilde.spaces_one : Spaces [' '] := ⟨by simp, by simp⟩

theorem Tilde.tildes_text : ∀ n, ExprText (tildes n) (input n)
  | 0 => .term .zero
  | n + 1 => by
    have h := ExprText.binOp (op := .til) (.term .zero) (tildes_text n) spaces_one spaces_one (by
      refine ⟨by decide, ?_⟩
      cases n <;> simp [tildes, rank, level])
    exact h

/-- The first unit test of `bin_expr` (bin_expr.rs:170-187), for any number of `~`: all is read, and it groups to the right. -/
theorem C115_test (b : Build) {s : S} (n : Nat) (hs : content s = input n) :
    ∃ s', expr b s = pure (.ok (tildes n) s') ∧ content s' = [] :=
  C115_reads b (k := []) (by simpa using hs) (.inl rfl) (tildes_text n)

/-- The second unit test (bin_expr.rs:189-207), for any number of `~`: ` ~ @@@` is left. -/
theorem C115_test_left (b : Build) {s : S} (n : Nat) (hs : content s = inputLeft n) :
    ∃ s', expr b s = pure (.ok (tildes n) s') ∧ content s' = [' ', '~', ' ', '@', '@', '@'] := by
  refine Tilde.expr_of_at ?_
  rw [hs]
  refine expr_reads (tildes_text n) (.dangling (o := .til) (ds := ['@', '@', '@'])
    ⟨[' '], [' '], spaces_one, spaces_one, by decide, rfl⟩ (.none ?_ (by decide) (by decide)))
  rintro ⟨c, h1, h2⟩
  simp at h1
  subst h1
  revert h2; decide

/-! ## C115: when it comes back -/

/-- C115: on every text, the grammar comes back. -/
theorem C115_returns (b : Build) (s : S) : expr b s ≠ Run.diverge := by
  obtain ⟨out, -, h, -⟩ := (tilde_at b s).2
  cases out with
  | ok v rest => obtain ⟨s', h, -⟩ := h; rw [h]; exact fun h => by cases h
  | miss => obtain ⟨e, u, h, -⟩ := h; rw [h]; exact fun h => by cases h
  | panic => obtain ⟨f, h⟩ := h; rw [h]; exact fun h => by cases h

/-- It panics exactly on the texts with a char of more than one byte where an operand or a closing parenthesis is due. -/
theorem C115_panics (b : Build) (s : S) : (∃ f, expr b s = Run.fault f) ↔ Trap (content s) := by
  rw [← panic_iff]
  obtain ⟨out, ho, ha, -⟩ := (tilde_at b s).2
  constructor
  · rintro ⟨f, hf⟩
    cases out with
    | ok v rest => obtain ⟨s', h, -⟩ := ha; rw [h] at hf; cases hf
    | miss => obtain ⟨e, u, h, -⟩ := ha; rw [h] at hf; cases hf
    | panic => exact ho
  · intro h
    cases (at_unique _).2.1 _ _ h ho
    exact ha

end

/-- No text stands for two expressions. -/
theorem C115_unambiguous {e e' : Expr} {w : List Char} (h : ExprText e w) (h' : ExprText e' w) : e = e' := by
  have a := expr_reads (k := []) h (tail_stops (.inl rfl))
  have a' := expr_reads (k := []) h' (tail_stops (.inl rfl))
  cases (at_unique _).2.1 _ _ a a'
  rfl

/-- Two runs of the grammar came out alike: the same expression with the same text left, both a miss, or both a panic. -/
def Tilde.SameOutcome {S S' : Type} [Sequence S Str] [Sequence S' Str] [LawfulSequence S] [LawfulSequence S']
    (r : Run (PResult S Expr (Miss Unit))) (r' : Run (PResult S' Expr (Miss Unit))) : Prop :=
  (∃ e s s', r = pure (.ok e s) ∧ r' = pure (.ok e s') ∧ content s = content s') ∨
  (∃ e e' u u', r = pure (.err e u) ∧ r' = pure (.err e' u')) ∨
  (∃ f f', r = Run.fault f ∧ r' = Run.fault f')

/-- It reads the text, however this is cut into segments (unlike the calculator, `C96_false`). -/
theorem C115_cuts {S S' : Type} [Sequence S Str] [RewindSequence S] [LawfulSequence S] [LawfulRewind S]
    [Sequence S' Str] [RewindSequence S'] [LawfulSequence S'] [LawfulRewind S'] (b b' : Build) (s : S) (s' : S')
    (h : content s = content s') : Tilde.SameOutcome (expr b s) (expr b' s') := by
  obtain ⟨out, ho, ha, -⟩ := (tilde_at b s).2
  obtain ⟨out', ho', ha', -⟩ := (tilde_at b' s').2
  rw [h] at ho
  cases (at_unique _).2.1 _ _ ho ho'
  cases out with
  | ok v rest =>
    obtain ⟨r, h1, h2, -⟩ := ha
    obtain ⟨r', h1', h2', -⟩ := ha'
    exact .inl ⟨v, r, r', h1, h1', by rw [h2, h2']⟩
  | miss =>
    obtain ⟨e, u, h1, -⟩ := ha
    obtain ⟨e', u', h1', -⟩ := ha'
    exact .inr (.inl ⟨e, e', u, u', h1, h1'⟩)
  | panic =>
    obtain ⟨f, h1⟩ := ha
    obtain ⟨f', h1'⟩ := ha'
    exact .inr (.inr ⟨f, f', h1, h1'⟩)

/-! ## Cases -/

/-- `0 ~ 0 - 0 * (0 ~ 0) - 0 ~ 0`: to the right around `~`, to the left around `-`. -/
def Tilde.sample : Expr :=
  .binOp (.term .zero) .til (.binOp
    (.binOp (.binOp (.term .zero) .sub (.binOp (.term .zero) .mul
      (.term (.parenthesized (.binOp (.term .zero) .til (.term .zero)))))) .sub (.term .zero))
    .til (.term .zero))

theorem Tilde.sample_text : ExprText Tilde.sample "0 ~ 0 - 0 * (0 ~ 0) - 0 ~ 0".toList :=
  .binOp (op := .til) (.term .zero) (.binOp (op := .til) (w := "0 - 0 * (0 ~ 0) - 0".toList)
    (.binOp (op := .sub) (w := "0 - 0 * (0 ~ 0)".toList)
      (.binOp (op := .sub) (.term .zero) (.binOp (op := .mul) (.term .zero)
        (.term (.parens (.binOp (op := .til) (.term .zero) (.term .zero) spaces_one spaces_one (by simp [Fits, rank, level]))))
        spaces_one spaces_one (by simp [Fits, rank, level])) spaces_one spaces_one (by simp [Fits, rank, level]))
      (.term .zero) spaces_one spaces_one (by simp [Fits, rank, level])) (.term .zero) spaces_one spaces_one (by simp [Fits, rank, level]))
    spaces_one spaces_one (by simp [Fits, rank, level])

example (b : Build) : ∃ s', expr b (⟨1, 0, ⟨"0 ~ 0 - 0 * (0 ~ 0) - 0 ~ 0".toList⟩⟩ : StrRef) = pure (.ok Tilde.sample s') ∧
    content s' = [] :=
  C115_reads b (k := []) (by simp; rfl) (.inl rfl) sample_text

/-- The tests, with the number they use. -/
example (b : Build) : (∃ s', expr b (⟨1, 0, ⟨input 8192⟩⟩ : StrRef) = pure (.ok (tildes 8192) s') ∧ content s' = []) ∧
    (∃ s', expr b (⟨1, 0, ⟨inputLeft 8192⟩⟩ : StrRef) = pure (.ok (tildes 8192) s') ∧ content s' = [' ', '~', ' ', '@', '@', '@']) :=
  ⟨C115_test b 8192 rfl, C115_test_left b 8192 rfl⟩

/-- Cut into pieces, one of them empty. -/
example (b : Build) : ∃ s', expr b ({ consumed := 0, chunks := [['0', ' '], [], ['~'], [' ', '0']] } : Chunked Str Char) =
    pure (.ok (tildes 1) s') ∧ content s' = [] :=
  C115_test b 1 rfl

/-- `(0 + é`: an operand is due. -/
example (b : Build) : ∃ f, expr b (⟨1, 0, ⟨"(0 + é".toList⟩⟩ : StrRef) = Run.fault f :=
  (C115_panics b _).mpr ⟨"(0 + ".toList, 'é', [], rfl, by decide, .inl ⟨1,
    .operator (o := .add) (p := ['(', '0']) (.operand (p := ['(']) (.opened .start) .zero) spaces_one spaces_one⟩⟩

/-- `(0é`: a closing parenthesis is due. -/
example (b : Build) : ∃ f, expr b (⟨1, 0, ⟨"(0é".toList⟩⟩ : StrRef) = Run.fault f :=
  (C115_panics b _).mpr ⟨"(0".toList, 'é', [], rfl, by decide, .inr ⟨1, by decide,
    .operand (p := ['(']) (.opened .start) .zero⟩⟩

/-- `0é`: neither. -/
example (b : Build) : ∃ s', expr b (⟨1, 0, ⟨"0é".toList⟩⟩ : StrRef) = pure (.ok (.term .zero) s') ∧ content s' = ['é'] := by
  refine Tilde.expr_of_at (ExprAt.ok (tree := .leaf .zero) (rest := ['é']) .zero (.stop ?_) rfl rfl trivial)
  rintro o ds ⟨sp, sp', ⟨h1, h2⟩, -, -, he⟩
  cases sp with
  | nil => exact h1 rfl
  | cons x sp => simp at he

end Parcom
