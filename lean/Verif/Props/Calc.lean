import Verif.Lemmas.CalcTrap
/-!
# C69, C79–C81: the calculator of the examples
-/
namespace Parcom
open Spec Spec.Calc Calc

section
variable {S : Type} [Sequence S Str] [RewindSequence S] [LawfulSequence S] [L : LawfulRewind S] [Gapless S]

/-! ## C80: it comes back -/

/-- C80: on every text, the calculator comes back. -/
theorem C80 (b : Build) (s : S) : expr b s ≠ Run.diverge := by
  obtain ⟨out, -, h, -⟩ := (calc_at b s).2
  cases out with
  | ok v rest => obtain ⟨s', h, -⟩ := h; rw [h]; exact fun h => by cases h
  | miss => obtain ⟨e, u, h, -⟩ := h; rw [h]; exact fun h => by cases h
  | panic => obtain ⟨f, h⟩ := h; rw [h]; exact fun h => by cases h

/-- It panics on no text of one-byte chars whose numbers are `usize` values. -/
theorem C80_sane (b : Build) (s : S) (hs : ¬ Hostile (content s)) (f : Fault) : expr b s ≠ Run.fault f := by
  obtain ⟨out, ho, h, -⟩ := (calc_at b s).2
  cases out with
  | ok v rest => obtain ⟨s', h, -⟩ := h; rw [h]; exact fun h => by cases h
  | miss => obtain ⟨e, u, h, -⟩ := h; rw [h]; exact fun h => by cases h
  | panic => exact absurd (ho.hostile rfl) hs

/-- It does panic where an operand is looked for and the text has a longer char, or a number too large. -/
theorem C80_panics (b : Build) (s : S) (h : (∃ c cs, content s = c :: cs ∧ 1 < c.utf8Size) ∨
    (∃ ds rest, content s = ds ++ rest ∧ (∀ c ∈ ds, c.isDigit = true) ∧ ¬ (∃ c, rest.head? = some c ∧ c.isDigit = true) ∧
      usizeMax < Nat.ofDigitChars 10 ds 0)) : ∃ f, expr b s = Run.fault f := by
  have hp : ExprAt (content s) .panic := by
    rcases h with ⟨c, cs, h1, h2⟩ | ⟨ds, rest, h1, h2, h3, h4⟩
    · exact .panic (.wide ⟨c, by rw [h1]; rfl, h2⟩)
    · rw [h1]
      refine .panic (.big ?_ h2 h3 h4)
      rintro rfl
      simp at h4
  obtain ⟨out, ho, ha, -⟩ := (calc_at b s).2
  cases (at_unique _).2.1 _ _ hp ho
  exact ha

/-- It panics exactly on the texts with a trap: a char of more than one byte where an operand or a closing parenthesis is due,
or a number too large where an operand is due. -/
theorem C80_exact (b : Build) (s : S) : (∃ f, expr b s = Run.fault f) ↔ Trap (content s) := by
  rw [← panic_iff]
  obtain ⟨out, ho, ha, -⟩ := (calc_at b s).2
  constructor
  · rintro ⟨f, hf⟩
    cases out with
    | ok v rest => obtain ⟨s', h, -⟩ := ha; rw [h] at hf; cases hf
    | miss => obtain ⟨e, u, h, -⟩ := ha; rw [h] at hf; cases hf
    | panic => exact ho
  · intro h
    cases (at_unique _).2.1 _ _ h ho
    exact ha

/-! ## C79: it reads the longest text that stands for an expression -/

theorem Calc.expr_ok {b : Build} {s s' : S} {e : Expr} (h : expr b s = pure (.ok e s')) :
    ExprAt (content s) (.ok e (content s')) := by
  obtain ⟨out, ho, ha, -⟩ := (calc_at b s).2
  cases out with
  | ok v rest =>
    obtain ⟨r, hr, hc, -⟩ := ha
    rw [h, Run.pure_eq, Run.pure_eq, Run.ret_inj] at hr
    cases hr
    rw [hc]; exact ho
  | miss => obtain ⟨e, u, hr, -⟩ := ha; rw [h] at hr; cases hr
  | panic => obtain ⟨f, hr⟩ := ha; rw [h] at hr; cases hr

theorem Calc.expr_err {b : Build} {s : S} {e : Miss Unit} {u : UnknownLocation S} (h : expr b s = pure (.err e u)) :
    ExprAt (content s) .miss := by
  obtain ⟨out, ho, ha, -⟩ := (calc_at b s).2
  cases out with
  | ok v rest => obtain ⟨r, hr, -⟩ := ha; rw [h] at hr; cases hr
  | miss => exact ho
  | panic => obtain ⟨f, hr⟩ := ha; rw [h] at hr; cases hr

theorem Calc.expr_of_at {b : Build} {s : S} {e : Expr} {rest : List Char} (h : ExprAt (content s) (.ok e rest)) :
    ∃ s', expr b s = pure (.ok e s') ∧ content s' = rest := by
  obtain ⟨out, ho, ha, -⟩ := (calc_at b s).2
  cases (at_unique _).2.1 _ _ h ho
  obtain ⟨s', h1, h2, -⟩ := ha
  exact ⟨s', h1, h2⟩

/-- C79: what the calculator reads is a text that stands for the expression it returns, and no longer text at this place
stands for an expression. -/
theorem C79 (b : Build) {s s' : S} {e : Expr} (h : expr b s = pure (.ok e s')) :
    ∃ w, content s = w ++ content s' ∧ ExprText e w ∧
      ∀ e' w' k', content s = w' ++ k' → ExprText e' w' → w'.length ≤ w.length := by
  have h := Calc.expr_ok h
  obtain ⟨w, h1, h2⟩ := h.sound
  refine ⟨w, h1, h2, ?_⟩
  intro e' w' k' h3 h4
  rw [h3] at h
  have hl := congrArg List.length (h1.symm.trans h3)
  simp only [List.length_append] at hl
  rcases h4.longest h with h | ⟨_, _, h, h5⟩
  · cases h
  · cases h; omega

/-- If it misses, no text at this place stands for an expression. -/
theorem C79_misses (b : Build) {s : S} {e : Miss Unit} {u : UnknownLocation S} (h : expr b s = pure (.err e u))
    {e' : Expr} {w k : List Char} (hs : content s = w ++ k) : ¬ ExprText e' w := by
  intro hw
  have h := Calc.expr_err h
  rw [hs] at h
  rcases hw.longest h with h | ⟨_, _, h, -⟩ <;> cases h

/-- A whole text that stands for an expression is read as this expression, whatever its numbers and its nesting; also
before a closing parenthesis. -/
theorem C79_reads (b : Build) {s : S} {e : Expr} {w k : List Char} (hs : content s = w ++ k)
    (hk : k = [] ∨ k.head? = some ')') (h : ExprText e w) : ∃ s', expr b s = pure (.ok e s') ∧ content s' = k := by
  refine Calc.expr_of_at ?_
  rw [hs]
  refine expr_reads h ?_ (tail_stops hk)
  rintro ⟨c, h1, h2⟩
  rcases hk with rfl | hk
  · simp at h1
  · rw [hk] at h1; injection h1 with h1; subst h1; revert h2; decide

end

/-- No text stands for two expressions. -/
theorem C79_unambiguous {e e' : Expr} {w : List Char} (h : ExprText e w) (h' : ExprText e' w) : e = e' := by
  have hn := not_starts_nil
  have a := expr_reads (k := []) h hn (tail_stops (.inl rfl))
  have a' := expr_reads (k := []) h' hn (tail_stops (.inl rfl))
  cases (at_unique _).2.1 _ _ a a'
  rfl

/-! ## C69: `display` and the parser -/

/-- C69, read of `display`: an expression's rendering is parsed to this expression. -/
def C69Statement : Prop :=
  ∀ (b : Build) (s : StrRef) (e : Expr), Fits e → content s = display e →
    ∃ s', expr b s = pure (.ok e s') ∧ content s' = []

section
variable {S : Type} [Sequence S Str] [RewindSequence S] [LawfulSequence S] [L : LawfulRewind S] [Gapless S]

/-- What is true: the rendering is parsed, to its end, to the expression with a pair of parentheses around each operation. -/
theorem C69_exact (b : Build) {s : S} (e : Expr) (he : Fits e) (hs : content s = display e) :
    ∃ s', expr b s = pure (.ok (parens e) s') ∧ content s' = [] :=
  C79_reads b (k := []) (by simpa using hs) (.inl rfl) (display_text e he)

/-- The expression that comes back has the same rendering and the same value. (Missing: that it is the same expression;
`C69_false`.) -/
theorem C69_partial (b : Build) {s : S} (e : Expr) (he : Fits e) (hs : content s = display e) :
    ∃ e' s', expr b s = pure (.ok e' s') ∧ content s' = [] ∧ display e' = display e ∧ ∀ b', eval b' e' = eval b' e := by
  obtain ⟨s', h1, h2⟩ := C69_exact b e he hs
  exact ⟨_, s', h1, h2, display_parens e, fun b' => eval_parens b' e⟩

end

/-! ## C81: values -/

/-- C81: if each intermediate result fits, the calculator gives the value of the expression. -/
theorem C81 (b : Build) : ∀ (e : Expr) (v : Nat), value e = some v → eval b e = pure v
  | .binOp l op r, v, h => by
    rw [value] at h
    cases hl : value l with
    | none => rw [hl] at h; cases h
    | some x =>
      cases hr : value r with
      | none => rw [hl, hr] at h; cases h
      | some y =>
        rw [hl, hr] at h
        rw [eval, C81 b l x hl, C81 b r y hr]
        simp only [Run.pure_bind']
        simp only [Option.bind_eq_bind, Option.bind_some] at h
        cases op with
        | add =>
          simp only [usizeAdd] at h ⊢
          by_cases hc : x + y ≤ usizeMax
          · rw [if_pos hc] at h ⊢; cases h; rfl
          · rw [if_neg hc] at h; cases h
        | sub =>
          simp only [usizeSub] at h ⊢
          by_cases hc : y ≤ x
          · rw [if_pos hc] at h ⊢; cases h; rfl
          · rw [if_neg hc] at h; cases h
        | mul =>
          simp only [usizeMul] at h ⊢
          by_cases hc : x * y ≤ usizeMax
          · rw [if_pos hc] at h ⊢; cases h; rfl
          · rw [if_neg hc] at h; cases h
        | div =>
          simp only [usizeDiv] at h ⊢
          by_cases hc : y = 0
          · rw [if_pos hc] at h; cases h
          · rw [if_neg hc] at h ⊢; cases h; rfl
  | .term (.parenthesized e), v, h => by
    rw [value] at h
    simp only [eval, evalTerm]
    exact C81 b e v h
  | .term (.integer n), v, h => by
    rw [value] at h
    cases h
    simp only [eval, evalTerm]

/-- If some intermediate result does not fit, the calculator panics, in a build with overflow checks. -/
theorem C81_checked : ∀ e : Expr, value e = none → ∃ f, eval .checked e = Run.fault f
  | .binOp l op r, h => by
    rw [value] at h
    rw [eval]
    cases hl : value l with
    | none => obtain ⟨f, hf⟩ := C81_checked l hl; exact ⟨f, by rw [hf]; rfl⟩
    | some x =>
      rw [C81 .checked l x hl]
      simp only [Run.pure_bind']
      cases hr : value r with
      | none => obtain ⟨f, hf⟩ := C81_checked r hr; exact ⟨f, by rw [hf]; rfl⟩
      | some y =>
        rw [hl, hr] at h
        rw [C81 .checked r y hr]
        simp only [Run.pure_bind']
        simp only [Option.bind_eq_bind, Option.bind_some] at h
        cases op with
        | add =>
          simp only [usizeAdd] at h ⊢
          by_cases hc : x + y ≤ usizeMax
          · rw [if_pos hc] at h; cases h
          · rw [if_neg hc]; exact ⟨_, rfl⟩
        | sub =>
          simp only [usizeSub] at h ⊢
          by_cases hc : y ≤ x
          · rw [if_pos hc] at h; cases h
          · rw [if_neg hc]; exact ⟨_, rfl⟩
        | mul =>
          simp only [usizeMul] at h ⊢
          by_cases hc : x * y ≤ usizeMax
          · rw [if_pos hc] at h; cases h
          · rw [if_neg hc]; exact ⟨_, rfl⟩
        | div =>
          simp only [usizeDiv] at h ⊢
          by_cases hc : y = 0
          · rw [if_pos hc]; exact ⟨_, rfl⟩
          · rw [if_neg hc] at h; cases h
  | .term (.parenthesized e), h => by
    rw [value] at h
    simp only [eval, evalTerm]
    exact C81_checked e h
  | .term (.integer n), h => by
    rw [value] at h
    cases h

/-- From a text to its value. -/
theorem C81_text {S : Type} [Sequence S Str] [RewindSequence S] [LawfulSequence S] [L : LawfulRewind S] [Gapless S]
    (b : Build) {s : S} {e : Expr} {v : Nat} (h : ExprText e (content s)) (hv : value e = some v) :
    calculate b s = pure (some (display e, v)) := by
  obtain ⟨s', h1, -⟩ := C79_reads b (s := s) (k := []) (by simp) (.inl rfl) h
  rw [calculate, h1]
  simp only [Run.pure_bind']
  rw [C81 b e v hv]
  rfl

theorem Calc.ofDigitChars_lt {ds : List Char} (h : ∀ c ∈ ds, c.isDigit = true) (init : Nat) :
    Nat.ofDigitChars 10 ds init < (init + 1) * 10 ^ ds.length := by
  induction ds generalizing init with
  | nil => simp
  | cons c ds ih =>
    rw [Nat.ofDigitChars_cons]
    have hc := h c (by simp)
    simp only [Char.isDigit, Bool.and_eq_true, decide_eq_true_eq] at hc
    have h2 : c.toNat ≤ 57 := by
      have := hc.2
      simp only [UInt32.le_iff_toNat_le] at this
      exact this
    have h48 : '0'.toNat = 48 := rfl
    refine Nat.lt_of_lt_of_le (ih (fun c hc => h c (by simp [hc])) _) ?_
    rw [List.length_cons, Nat.pow_succ, Nat.mul_comm (10 ^ _) 10, ← Nat.mul_assoc]
    exact Nat.mul_le_mul_right _ (by omega)

/-- Short texts of one-byte chars are harmless. -/
theorem Calc.harmless {cs : List Char} (h : ∀ c ∈ cs, c.utf8Size = 1) (hl : cs.length < 20) : ¬ Hostile cs := by
  rintro (⟨c, h1, h2⟩ | ⟨l, ds, r, rfl, h2, h3⟩)
  · have := h c h1; omega
  · have := ofDigitChars_lt h2 0
    have hp : 10 ^ ds.length ≤ 10 ^ 19 := Nat.pow_le_pow_right (by decide) (by simp at hl; omega)
    have hm : 10 ^ 19 ≤ usizeMax := by decide
    omega

/-! ## Cases -/

/-- `1 + 2` -/
def Calc.onePlusTwo : Expr := .binOp (.term (.integer 1)) .add (.term (.integer 2))

/-- C69 is false: `display` puts parentheses around every operation. -/
theorem C69_false : ¬ C69Statement := by
  intro h
  have hf : Fits onePlusTwo := ⟨(by decide : 1 ≤ usizeMax), (by decide : 2 ≤ usizeMax)⟩
  obtain ⟨s', h1, -⟩ := h .checked ⟨1, 0, ⟨display onePlusTwo⟩⟩ onePlusTwo hf rfl
  obtain ⟨s'', h2, -⟩ := C69_exact .checked (s := (⟨1, 0, ⟨display onePlusTwo⟩⟩ : StrRef)) onePlusTwo hf rfl
  rw [h1] at h2
  cases h2

theorem Calc.digitText {c : Char} {n : Nat} (h : c.isDigit = true) (hn : Nat.ofDigitChars 10 [c] 0 = n) (hm : n ≤ usizeMax) :
    ExprText (.term (.integer n)) [c] := .term (.integer (by simp) (by simpa using h) hn hm)

/-- `1 + 2 * (6 + 4) / 5`, the input of the example (bin_expr.rs:21). -/
def Calc.sample : Expr :=
  .binOp (.term (.integer 1)) .add
    (.binOp (.binOp (.term (.integer 2)) .mul (.term (.parenthesized (.binOp (.term (.integer 6)) .add (.term (.integer 4))))))
      .div (.term (.integer 5)))

theorem Calc.sample_text : ExprText Calc.sample "1 + 2 * (6 + 4) / 5".toList := by
  have d {c : Char} {n : Nat} (h : c.isDigit = true) (hn : Nat.ofDigitChars 10 [c] 0 = n) (hm : n ≤ usizeMax) :
    ExprText (.term (.integer n)) [c] := Calc.digitText h hn hm
  have h1 := d (c := '1') (n := 1) rfl rfl (by decide)
  have h2 := d (c := '2') (n := 2) rfl rfl (by decide)
  have h6 := d (c := '6') (n := 6) rfl rfl (by decide)
  have h4 := d (c := '4') (n := 4) rfl rfl (by decide)
  have h5 := d (c := '5') (n := 5) rfl rfl (by decide)
  have hp := ExprText.term (.parens (.binOp (op := .add) h6 h4 spaces_one spaces_one (by decide) (by decide)))
  exact .binOp (op := .add) h1 (.binOp (op := .div) (.binOp (op := .mul) h2 hp spaces_one spaces_one (by decide) (by decide)) h5
    spaces_one spaces_one (by decide) (by decide)) spaces_one spaces_one (by decide) (by decide)

example (b : Build) : ∃ s', expr b (⟨1, 0, ⟨"1 + 2 * (6 + 4) / 5".toList⟩⟩ : StrRef) = pure (.ok sample s') ∧
    content s' = [] :=
  C79_reads b (k := []) (by simp; rfl) (.inl rfl) sample_text

example : value sample = some 5 := by decide

example (b : Build) : calculate b (⟨1, 0, ⟨"1 + 2 * (6 + 4) / 5".toList⟩⟩ : StrRef) =
    pure (some ("(1 + ((2 * (6 + 4)) / 5))".toList, 5)) :=
  C81_text b (s := (⟨1, 0, ⟨"1 + 2 * (6 + 4) / 5".toList⟩⟩ : StrRef)) sample_text (v := 5) (by decide)

/-- `1 - 2` is a text of the calculator, but its value is no `usize`. -/
example : value (.binOp (.term (.integer 1)) .sub (.term (.integer 2))) = none := by decide

/-- A text that is read in part. -/
example (b : Build) : ∃ s', expr b (⟨1, 0, ⟨"1) + 2".toList⟩⟩ : StrRef) = pure (.ok (.term (.integer 1)) s') ∧
    content s' = ") + 2".toList :=
  C79_reads b (w := "1".toList) rfl (.inr rfl) (digitText rfl rfl (by decide))

/-- The sample is harmless, so `C80_sane` speaks of it. -/
example : ¬ Hostile "1 + 2 * (6 + 4) / 5".toList := harmless (by decide) (by decide)

example (b : Build) : ∃ f, expr b (⟨1, 0, ⟨"é".toList⟩⟩ : StrRef) = Run.fault f :=
  C80_panics b _ (.inl ⟨'é', [], rfl, by decide⟩)

example (b : Build) : ∃ f, expr b (⟨1, 0, ⟨"18446744073709551616".toList⟩⟩ : StrRef) = Run.fault f :=
  C80_panics b _ (.inr ⟨"18446744073709551616".toList, [], rfl, by decide, by simp, by decide +kernel⟩)

/-- `(1é`: a closing parenthesis is due. -/
example (b : Build) : ∃ f, expr b (⟨1, 0, ⟨"(1é".toList⟩⟩ : StrRef) = Run.fault f :=
  (C80_exact b _).mpr (.inl ⟨"(1".toList, 'é', [], rfl, by decide, .inr ⟨1, by decide,
    .operand (p := ['(']) (.opened .start) (.integer (by simp) (by decide) rfl (by decide : 1 ≤ usizeMax))⟩⟩)

end Parcom
