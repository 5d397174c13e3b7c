import Verif.Lemmas.CacheText
import Verif.Spec.Chunked
/-!
# C108, C109: the grammar of the cache example
-/
namespace Parcom
open Spec Spec.Cache Cache

section
variable {S : Type} [Sequence S Str] [RewindSequence S] [LawfulSequence S] [L : LawfulRewind S]

theorem Cache.expr_ok {b : Build} {s s' : S} {e : Expr} (h : expr b s = pure (.ok e s')) :
    ExprAt (content s) (.ok e (content s')) := by
  obtain ⟨out, ho, ha, -⟩ := (cache_at b s).2
  cases out with
  | ok v rest =>
    obtain ⟨r, hr, hc, -⟩ := ha
    rw [h, Run.pure_eq, Run.pure_eq, Run.ret_inj] at hr
    cases hr
    rw [hc]; exact ho
  | miss => obtain ⟨e, u, hr, -⟩ := ha; rw [h] at hr; cases hr
  | panic => obtain ⟨f, hr⟩ := ha; rw [h] at hr; cases hr

theorem Cache.expr_err {b : Build} {s : S} {e : Miss Unit} {u : UnknownLocation S} (h : expr b s = pure (.err e u)) :
    ExprAt (content s) .miss := by
  obtain ⟨out, ho, ha, -⟩ := (cache_at b s).2
  cases out with
  | ok v rest => obtain ⟨r, hr, -⟩ := ha; rw [h] at hr; cases hr
  | miss => exact ho
  | panic => obtain ⟨f, hr⟩ := ha; rw [h] at hr; cases hr

theorem Cache.expr_of_at {b : Build} {s : S} {e : Expr} {rest : List Char} (h : ExprAt (content s) (.ok e rest)) :
    ∃ s', expr b s = pure (.ok e s') ∧ content s' = rest := by
  obtain ⟨out, ho, ha, -⟩ := (cache_at b s).2
  cases (at_unique _).2.1 _ _ h ho
  obtain ⟨s', h1, h2, -⟩ := ha
  exact ⟨s', h1, h2⟩

/-! ## C108: it reads the longest text that stands for an expression -/

/-- C108: what the grammar reads is a text that stands for the expression it returns, and no longer text at this place
stands for an expression. -/
theorem C108 (b : Build) {s s' : S} {e : Expr} (h : expr b s = pure (.ok e s')) :
    ∃ w, content s = w ++ content s' ∧ ExprText e w ∧
      ∀ e' w' k', content s = w' ++ k' → ExprText e' w' → w'.length ≤ w.length := by
  have h := Cache.expr_ok h
  obtain ⟨w, h1, h2⟩ := h.sound
  refine ⟨w, h1, h2, ?_⟩
  intro e' w' k' h3 h4
  rw [h3] at h
  have hl := congrArg List.length (h1.symm.trans h3)
  simp only [List.length_append] at hl
  rcases h4.longest h with h | ⟨_, _, h, h5⟩
  · cases h
  · cases h; omega

/-- If it misses, no text at this place stands for an expression. -/
theorem C108_misses (b : Build) {s : S} {e : Miss Unit} {u : UnknownLocation S} (h : expr b s = pure (.err e u))
    {e' : Expr} {w k : List Char} (hs : content s = w ++ k) : ¬ ExprText e' w := by
  intro hw
  have h := Cache.expr_err h
  rw [hs] at h
  rcases hw.longest h with h | ⟨_, _, h, -⟩ <;> cases h

/-- A whole text that stands for an expression is read as this expression; also before a closing parenthesis. -/
theorem C108_reads (b : Build) {s : S} {e : Expr} {w k : List Char} (hs : content s = w ++ k)
    (hk : k = [] ∨ k.head? = some ')') (h : ExprText e w) : ∃ s', expr b s = pure (.ok e s') ∧ content s' = k := by
  refine Cache.expr_of_at ?_
  rw [hs]
  exact expr_reads h (tail_stops hk)

theorem Cache.nested_text : ∀ d, ExprText (nestedExpr d) (nested d)
  | 0 => .term .zero
  | d + 1 => .term (.parens (nested_text d))

theorem Cache.input_nested (d : Nat) : input d = nested d := by
  induction d with
  | zero => rfl
  | succ d ih =>
    rw [nested, ← ih, input, input, List.replicate_succ, List.replicate_succ']
    simp

/-- Each input of `main` is read to its end, as `0` in as many parentheses. -/
theorem C108_inputs (b : Build) {s : S} (d : Nat) (hs : content s = input d) :
    ∃ s', expr b s = pure (.ok (nestedExpr d) s') ∧ content s' = [] :=
  C108_reads b (k := []) (by simpa using hs) (.inl rfl) (by rw [input_nested]; exact nested_text d)

/-! ## C109: when it comes back -/

/-- C109: on every text, the grammar comes back. -/
theorem C109 (b : Build) (s : S) : expr b s ≠ Run.diverge := by
  obtain ⟨out, -, h, -⟩ := (cache_at b s).2
  cases out with
  | ok v rest => obtain ⟨s', h, -⟩ := h; rw [h]; exact fun h => by cases h
  | miss => obtain ⟨e, u, h, -⟩ := h; rw [h]; exact fun h => by cases h
  | panic => obtain ⟨f, h⟩ := h; rw [h]; exact fun h => by cases h

/-- It panics exactly on the texts with a char of more than one byte where an operand or a closing parenthesis is due. -/
theorem C109_panics (b : Build) (s : S) : (∃ f, expr b s = Run.fault f) ↔ Trap (content s) := by
  rw [← panic_iff]
  obtain ⟨out, ho, ha, -⟩ := (cache_at b s).2
  constructor
  · rintro ⟨f, hf⟩
    cases out with
    | ok v rest => obtain ⟨s', h, -⟩ := ha; rw [h] at hf; cases hf
    | miss => obtain ⟨e, u, h, -⟩ := ha; rw [h] at hf; cases hf
    | panic => exact ho
  · intro h
    cases (at_unique _).2.1 _ _ h ho
    exact ha

end

/-- No text stands for two expressions. -/
theorem C108_unambiguous {e e' : Expr} {w : List Char} (h : ExprText e w) (h' : ExprText e' w) : e = e' := by
  have a := expr_reads (k := []) h (tail_stops (.inl rfl))
  have a' := expr_reads (k := []) h' (tail_stops (.inl rfl))
  cases (at_unique _).2.1 _ _ a a'
  rfl

/-- Two runs of the grammar came out alike: the same expression with the same text left, both a miss, or both a panic. -/
def Cache.SameOutcome {S S' : Type} [Sequence S Str] [Sequence S' Str] [LawfulSequence S] [LawfulSequence S']
    (r : Run (PResult S Expr (Miss Unit))) (r' : Run (PResult S' Expr (Miss Unit))) : Prop :=
  (∃ e s s', r = pure (.ok e s) ∧ r' = pure (.ok e s') ∧ content s = content s') ∨
  (∃ e e' u u', r = pure (.err e u) ∧ r' = pure (.err e' u')) ∨
  (∃ f f', r = Run.fault f ∧ r' = Run.fault f')

/-- It reads the text, however this is cut into segments (unlike the calculator, `C96_false`). -/
theorem C108_cuts {S S' : Type} [Sequence S Str] [RewindSequence S] [LawfulSequence S] [LawfulRewind S]
    [Sequence S' Str] [RewindSequence S'] [LawfulSequence S'] [LawfulRewind S'] (b b' : Build) (s : S) (s' : S')
    (h : content s = content s') : Cache.SameOutcome (expr b s) (expr b' s') := by
  obtain ⟨out, ho, ha, -⟩ := (cache_at b s).2
  obtain ⟨out', ho', ha', -⟩ := (cache_at b' s').2
  rw [h] at ho
  cases (at_unique _).2.1 _ _ ho ho'
  cases out with
  | ok v rest =>
    obtain ⟨r, h1, h2, -⟩ := ha
    obtain ⟨r', h1', h2', -⟩ := ha'
    exact .inl ⟨v, r, r', h1, h1', by rw [h2, h2']⟩
  | miss =>
    obtain ⟨e, u, h1, -⟩ := ha
    obtain ⟨e', u', h1', -⟩ := ha'
    exact .inr (.inl ⟨e, e', u, u', h1, h1'⟩)
  | panic =>
    obtain ⟨f, h1⟩ := ha
    obtain ⟨f', h1'⟩ := ha'
    exact .inr (.inr ⟨f, f', h1, h1'⟩)

/-! ## Cases -/

theorem Cache.spaces_one : Spaces [' '] := ⟨by simp, by simp⟩

/-- `0 + 0 * (0 - 0)` -/
def Cache.sample : Expr :=
  .binOp (.term .zero) .add (.binOp (.term .zero) .mul (.term (.parenthesized (.binOp (.term .zero) .sub (.term .zero)))))

theorem Cache.sample_text : ExprText Cache.sample "0 + 0 * (0 - 0)".toList :=
  .binOp (op := .add) (.term .zero) (.binOp (op := .mul) (.term .zero)
    (.term (.parens (.binOp (op := .sub) (.term .zero) (.term .zero) spaces_one spaces_one (by decide) (by decide))))
    spaces_one spaces_one (by decide) (by decide)) spaces_one spaces_one (by decide) (by decide)

example (b : Build) : ∃ s', expr b (⟨1, 0, ⟨"0 + 0 * (0 - 0)".toList⟩⟩ : StrRef) = pure (.ok Cache.sample s') ∧
    content s' = [] :=
  C108_reads b (k := []) (by simp; rfl) (.inl rfl) sample_text

/-- The same, cut into pieces, one of them empty. -/
example (b : Build) : ∃ s', expr b ({ consumed := 0, chunks := [['0', ' '], [], ['+'], [' ', '0']] } : Chunked Str Char) =
    pure (.ok (.binOp (.term .zero) .add (.term .zero)) s') ∧ content s' = [] :=
  C108_reads b (k := []) (w := "0 + 0".toList) (by simp; rfl) (.inl rfl)
    (.binOp (op := .add) (.term .zero) (.term .zero) spaces_one spaces_one (by decide) (by decide))

example (b : Build) : ∃ s', expr b (⟨1, 0, ⟨input 256⟩⟩ : StrRef) = pure (.ok (nestedExpr 256) s') ∧ content s' = [] :=
  C108_inputs b 256 rfl

/-- `(0 + é`: an operand is due. -/
example (b : Build) : ∃ f, expr b (⟨1, 0, ⟨"(0 + é".toList⟩⟩ : StrRef) = Run.fault f :=
  (C109_panics b _).mpr ⟨"(0 + ".toList, 'é', [], rfl, by decide, .inl ⟨1,
    .operator (o := .add) (p := ['(', '0']) (.operand (p := ['(']) (.opened .start) .zero) spaces_one spaces_one⟩⟩

/-- `(0é`: a closing parenthesis is due. -/
example (b : Build) : ∃ f, expr b (⟨1, 0, ⟨"(0é".toList⟩⟩ : StrRef) = Run.fault f :=
  (C109_panics b _).mpr ⟨"(0".toList, 'é', [], rfl, by decide, .inr ⟨1, by decide,
    .operand (p := ['(']) (.opened .start) .zero⟩⟩

/-- `0é`: neither. -/
example (b : Build) : ∃ s', expr b (⟨1, 0, ⟨"0é".toList⟩⟩ : StrRef) = pure (.ok (.term .zero) s') ∧ content s' = ['é'] := by
  refine Cache.expr_of_at (ExprAt.ok (tree := .leaf .zero) (rest := ['é']) .zero (.stop ?_) rfl rfl trivial)
  rintro o ds ⟨sp, sp', ⟨h1, h2⟩, -, -, he⟩
  cases sp with
  | nil => exact h1 rfl
  | cons x sp => simp at he

end Parcom
