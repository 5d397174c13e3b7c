import Verif.Lemmas.CalcStack
import Verif.Props.Calc
/-!
# C111: the stack the calculator needs
-/
namespace Parcom
open Spec Spec.Calc Calc

section
variable {S : Type} [Sequence S Str] [RewindSequence S] [LawfulSequence S] [L : LawfulRewind S] [Gapless S]

/-- Parsing with room for `n` calls of `expr` and `d` of the destructor runs out of it exactly if somewhere in the text an operand is
due inside `n` parentheses, or a parenthesis is not closed behind an expression with more than `d` inside one another, which is dropped.
Otherwise the limits make no difference. -/
theorem C111_parse (b : Build) (d n : Nat) (s : S) :
    (Reaches n (content s) ∨ Spills d (content s) → exprIn b d n s = Run.fault .abort) ∧
    (¬ (Reaches n (content s) ∨ Spills d (content s)) → exprIn b d n s = expr b s) := by
  rw [← deep_iff]
  exact expr_limited b d n s

theorem Calc.reaches_count {n : Nat} {cs : List Char} (h : Reaches n cs) : n ≤ cs.count '(' := by
  have key : ∀ {k : Nat} {p : List Char}, OperandNext k p → k ≤ p.count '(' := by
    intro k p h
    refine OperandNext.rec (motive_1 := fun k p _ => k ≤ p.count '(') (motive_2 := fun k p _ => k ≤ p.count '(') ?_ ?_ ?_ ?_ h
    · simp
    · intro k p _ ih; simpa using ih
    · intro k o p sp sp' _ _ _ ih
      simp only [List.append_assoc, List.count_append]
      omega
    · intro k t p w _ _ ih
      simp only [List.count_append]
      omega
  obtain ⟨p, rest, rfl, h⟩ := h
  have := key h
  rw [List.count_append]
  omega

theorem Calc.term_height {t : Term} {w : List Char} (h : TermText t w) : height (.term t) ≤ w.length := by
  refine TermText.rec (motive_1 := fun t w _ => height (.term t) ≤ w.length) (motive_2 := fun e w _ => height e ≤ w.length)
    ?_ ?_ ?_ ?_ h
  · intro ds n h1 _ _ _
    have := List.length_pos_iff.mpr h1
    simp only [height]
    omega
  · intro e w _ ih
    simp only [height, List.length_append, List.length_cons]
    omega
  · exact fun _ ih => ih
  · intro l r op w w' sp sp' _ _ _ _ _ _ ih ih'
    simp only [height, List.length_append, List.length_cons]
    omega

theorem Calc.text_height {e : Expr} {w : List Char} (h : ExprText e w) : height e ≤ w.length := by
  have := term_height (.parens h)
  simp only [height, List.length_append, List.length_cons, List.length_nil] at this
  cases h with
  | term h => exact term_height h
  | binOp h1 h2 h3 h4 h5 h6 =>
    have g1 := term_height (.parens h1)
    have g2 := term_height (.parens h2)
    simp only [height, List.length_append, List.length_cons, List.length_nil] at g1 g2 ⊢
    have := List.length_pos_iff.mpr h3.1
    have := List.length_pos_iff.mpr h4.1
    omega

/-- No text needs more calls of `expr` than it has opening parentheses, and one, and none of the destructor than it has chars. -/
theorem C111_bound (b : Build) (d n : Nat) (s : S) (h : (content s).count '(' < n) (hd : (content s).length ≤ d) :
    exprIn b d n s = expr b s := by
  refine (C111_parse b d n s).2 ?_
  rintro (hr | ⟨k, p, w, rest, e, hc, -, hw, -, -, -, hh⟩)
  · have := reaches_count hr
    omega
  · have := text_height hw
    rw [hc] at hd
    simp only [List.length_append, List.length_cons] at hd
    omega

/-- Parsing the text of an expression needs as many calls as the expression has parentheses inside one another, and one, and drops
nothing. -/
theorem C111_whole (b : Build) (d n : Nat) {s : S} {e : Expr} (h : ExprText e (content s)) :
    (nesting e < n → exprIn b d n s = expr b s) ∧ (n ≤ nesting e → exprIn b d n s = Run.fault .abort) := by
  have hr : Reaches n (content s) ∨ Spills d (content s) ↔ n ≤ nesting e := by
    have := reaches_text (d := d) (n := n) (k := []) h (.inl rfl)
    rwa [List.append_nil] at this
  have := C111_parse b d n s
  rw [hr] at this
  exact ⟨fun hn => this.2 (by omega), this.1⟩

/-- The part of C111 that holds: there is a bound on the room parsing needs that depends on the nesting of parentheses
alone. It is missing for showing, evaluating and dropping what was parsed. -/
theorem C111_partial : ∃ room : Nat → Nat, ∀ (b : Build) (s : S) (e : Expr) (n : Nat), ExprText e (content s) →
    room (nesting e) ≤ n → exprIn b n n s = expr b s :=
  ⟨fun k => k + 1, fun b _ _ n h hn => (C111_whole b n n h).1 hn⟩

end

/-- Showing an expression needs as many calls as the expression has expressions inside one another. -/
theorem C111_display : ∀ (n : Nat) (e : Expr), displayIn n e = if height e ≤ n then pure (display e) else Run.fault .abort
  | 0, e => by
    have := nesting_lt_height e
    rw [if_neg (by omega)]; rfl
  | n + 1, .binOp l op r => by
    rw [displayIn, C111_display n l, C111_display n r]
    by_cases hl : height l ≤ n
    · rw [if_pos hl]
      simp only [Run.pure_bind']
      by_cases hr : height r ≤ n
      · rw [if_pos hr, if_pos (by simp only [height]; omega)]
        simp only [Run.pure_bind', display]
        cases op <;> rfl
      · rw [if_neg hr, if_neg (by simp only [height]; omega)]; rfl
    · rw [if_neg hl]
      exact (if_neg (by simp only [height]; omega)).symm
  | n + 1, .term (.parenthesized e) => by
    rw [displayIn, C111_display n e, display, displayTerm]
    simp only [height, Nat.add_le_add_iff_right]
  | n + 1, .term (.integer m) => by
    rw [displayIn, display, displayTerm, if_pos (by simp [height])]

/-- So does dropping it. -/
theorem C111_drop (n : Nat) (e : Expr) : dropIn n e = if height e ≤ n then pure () else Run.fault .abort := dropIn_eq n e

/-- So does evaluating it, unless it panics before it gets so deep. -/
theorem C111_eval (b : Build) : ∀ (n : Nat) (e : Expr), (height e ≤ n → evalIn b n e = eval b e) ∧
    (n < height e → evalIn b n e = Run.fault .abort ∨ ∃ f, evalIn b n e = Run.fault f ∧ eval b e = Run.fault f)
  | 0, e => by
    have := nesting_lt_height e
    exact ⟨fun h => by omega, fun _ => .inl rfl⟩
  | n + 1, .binOp l op r => by
    have hl := C111_eval b n l
    have hr := C111_eval b n r
    simp only [height]
    rw [evalIn, eval]
    constructor
    · intro h
      rw [hl.1 (by omega), hr.1 (by omega)]
      rfl
    · intro h
      by_cases hll : height l ≤ n
      · rw [hl.1 hll]
        cases hx : eval b l using Run.casesRun with
        | fault f => exact .inr ⟨f, rfl, rfl⟩
        | diverge => exact absurd hx (eval_comes_back b l)
        | ret x =>
          simp only [Run.ret_bind]
          rcases hr.2 (by omega) with h' | ⟨f, h', h''⟩
          · rw [h']; exact .inl rfl
          · rw [h', h'']; exact .inr ⟨f, rfl, rfl⟩
      · rcases hl.2 (by omega) with h' | ⟨f, h', h''⟩
        · rw [h']; exact .inl rfl
        · rw [h', h'']; exact .inr ⟨f, rfl, rfl⟩
  | n + 1, .term (.parenthesized e) => by
    have := C111_eval b n e
    rw [evalIn, eval, evalTerm]
    simpa only [height, Nat.add_le_add_iff_right, Nat.add_lt_add_iff_right] using this
  | n + 1, .term (.integer m) => by
    rw [evalIn, eval, evalTerm]
    exact ⟨fun _ => rfl, fun h => by simp [height] at h⟩

section
variable {S : Type} [Sequence S Str] [RewindSequence S] [LawfulSequence S] [L : LawfulRewind S] [Gapless S]

/-- On the text of an expression the calculator as a whole needs as many calls as the expression has expressions inside one
another: with less room the process ends, with that much the limit makes no difference. -/
theorem C111_exact (b : Build) (n : Nat) {s : S} {e : Expr} (h : ExprText e (content s)) :
    calculateIn b n s = if height e ≤ n then calculate b s else Run.fault .abort := by
  obtain ⟨s', h1, -⟩ := C79_reads b (s := s) (k := []) (by simp) (.inl rfl) h
  have hh := nesting_lt_height e
  by_cases hn : nesting e < n
  · rw [calculateIn, calculate, (C111_whole b n n h).1 hn, h1]
    simp only [Run.pure_bind', C111_display, C111_drop]
    by_cases hm : height e ≤ n
    · simp only [if_pos hm, Run.pure_bind', (C111_eval b n e).1 hm]
    · simp only [if_neg hm, Run.fault_bind]
  · rw [if_neg (by omega), calculateIn, (C111_whole b n n h).2 (by omega)]
    rfl

/-- On any text the calculator as a whole ends the process exactly if parsing does, or the expression it reads has more than `n`
inside one another; otherwise the limit makes no difference. -/
theorem C111_any (b : Build) (n : Nat) (s : S) :
    let deep := Reaches n (content s) ∨ Spills n (content s) ∨ ∃ e s', expr b s = pure (.ok e s') ∧ n < height e
    (deep → calculateIn b n s = Run.fault .abort) ∧ (¬ deep → calculateIn b n s = calculate b s) := by
  intro deep
  by_cases hp : Reaches n (content s) ∨ Spills n (content s)
  · refine ⟨fun _ => ?_, fun hd => absurd (hp.elim .inl fun h => .inr (.inl h)) hd⟩
    rw [calculateIn, (C111_parse b n n s).1 hp]
    rfl
  · have he := (C111_parse b n n s).2 hp
    rw [calculateIn, calculate, he]
    have hd : deep ↔ ∃ e s', expr b s = pure (.ok e s') ∧ n < height e :=
      ⟨fun h => h.elim (fun h => absurd (.inl h) hp) fun h => h.elim (fun h => absurd (.inr h) hp) id, fun h => .inr (.inr h)⟩
    rw [hd]
    cases hx : expr b s using Run.casesRun with
    | fault f => exact ⟨(by rintro ⟨e, s', h, -⟩; cases h), fun _ => rfl⟩
    | diverge => exact ⟨(by rintro ⟨e, s', h, -⟩; cases h), fun _ => rfl⟩
    | ret o =>
      cases o with
      | err e u => exact ⟨(by rintro ⟨e, s', h, -⟩; cases h), fun _ => rfl⟩
      | ok e s' =>
        simp only [Run.ret_bind, C111_display, C111_drop]
        by_cases hm : height e ≤ n
        · refine ⟨?_, fun _ => ?_⟩
          · rintro ⟨e', s'', h, h'⟩
            cases h
            omega
          · simp only [if_pos hm, Run.pure_bind', (C111_eval b n e).1 hm]
        · refine ⟨fun _ => by simp only [if_neg hm, Run.fault_bind], fun h => absurd ⟨e, s', rfl, by omega⟩ h⟩

end

/-! ## A text without parentheses -/

/-- What `ones` stands for. -/
def Calc.sumOfOnes : Nat → Expr
  | 0 => .term (.integer 1)
  | n + 1 => .binOp (sumOfOnes n) .add (.term (.integer 1))

theorem Calc.ones_text : ∀ n, ExprText (sumOfOnes n) (ones n)
  | 0 => digitText rfl rfl (by decide)
  | n + 1 => by
    have h := ExprText.binOp (op := .add) (ones_text n) (digitText (c := '1') (n := 1) rfl rfl (by decide)) spaces_one
      spaces_one (by cases n <;> simp [sumOfOnes, level, rank]) (by decide)
    have he : ones (n + 1) = ones n ++ [' '] ++ symbol .add :: ([' '] ++ ['1']) := by simp [ones, symbol]
    rw [he]
    exact h

/-- `1 + 1 + ... + 1` has no parentheses, and is as high as it has operators, and one. -/
theorem C111_ones : ∀ n, nesting (sumOfOnes n) = 0 ∧ height (sumOfOnes n) = n + 1
  | 0 => ⟨rfl, rfl⟩
  | n + 1 => by
    obtain ⟨h1, h2⟩ := C111_ones n
    simp only [sumOfOnes, nesting, height, h1, h2]
    omega

/-- `1 + 1 + ... + 1` is parsed with room for one call, and added up with room for as many calls as there are operators, and
one, but not with less. -/
theorem C111_flat (b : Build) {m : Nat} (hm : m < usizeMax) :
    (∃ s', exprIn b 0 1 (⟨1, 0, ⟨ones m⟩⟩ : StrRef) = pure (.ok (sumOfOnes m) s')) ∧
    evalIn b (m + 1) (sumOfOnes m) = pure (m + 1) ∧ evalIn b m (sumOfOnes m) = Run.fault .abort := by
  obtain ⟨h1, h2⟩ := C111_ones m
  have hv : ∀ m, m < usizeMax → value (sumOfOnes m) = some (m + 1) := by
    intro m
    induction m with
    | zero => intro _; rfl
    | succ m ih =>
      intro hm
      rw [sumOfOnes, value, ih (by omega)]
      exact if_pos (by omega)
  have he := C81 b _ _ (hv m hm)
  refine ⟨?_, ?_, ?_⟩
  · obtain ⟨s', g1, -⟩ := C79_reads b (s := (⟨1, 0, ⟨ones m⟩⟩ : StrRef)) (k := []) (w := ones m)
      (by rw [List.append_nil]; rfl) (.inl rfl) (ones_text m)
    refine ⟨s', ?_⟩
    rw [(C111_whole b 0 1 (s := (⟨1, 0, ⟨ones m⟩⟩ : StrRef)) (ones_text m)).1 (by omega), g1]
  · rw [(C111_eval b (m + 1) _).1 (by omega), he]
  · rcases (C111_eval b m (sumOfOnes m)).2 (by omega) with h | ⟨f, -, h⟩
    · exact h
    · rw [he] at h; cases h

/-- Even parsing does not do with room for the parentheses alone: `(1 + 1 + ... + 1`, not closed, is a miss, before which the sum is
dropped. -/
theorem C111_unclosed (b : Build) (m d n : Nat) (hn : 2 ≤ n) :
    (d ≤ m → exprIn b d n (⟨1, 0, ⟨'(' :: ones m⟩⟩ : StrRef) = Run.fault .abort) ∧
    (m < d → ∃ e u, exprIn b d n (⟨1, 0, ⟨'(' :: ones m⟩⟩ : StrRef) = pure (.err e u)) := by
  have hs : content (⟨1, 0, ⟨'(' :: ones m⟩⟩ : StrRef) = '(' :: ones m := rfl
  have hE : ExprAt (ones m) (.ok (sumOfOnes m) []) := by
    have := expr_reads (k := []) (ones_text m) not_starts_nil (tail_stops (.inl rfl))
    rwa [List.append_nil] at this
  have hno : (∀ c ∈ ones m, c ≠ '(') := by
    intro c
    induction m with
    | zero => simp only [ones, List.mem_singleton]; rintro rfl; decide
    | succ m ih =>
      have ih := ih rfl (by simpa using expr_reads (k := []) (ones_text m) not_starts_nil (tail_stops (.inl rfl)))
      simp only [ones, List.mem_append, List.mem_cons, List.not_mem_nil, or_false]
      rintro (h | rfl | rfl | rfl | rfl)
      · exact ih h
      all_goals decide
  have hcount : ('(' :: ones m).count '(' = 1 := by
    rw [List.count_cons_self, List.count_eq_zero_of_not_mem fun h => hno _ h rfl]
  have hh : height (sumOfOnes m) = m + 1 := (C111_ones m).2
  constructor
  · intro hd
    refine (C111_parse b d n _).1 (.inr ?_)
    obtain ⟨w, h1, h2, h3, h4⟩ := expr_ok_iff.mp hE
    exact ⟨0, [], w, [], sumOfOnes m, by rw [hs, ← h1]; rfl, .start, h2, by rw [← h1]; exact h3, by rw [← h1]; exact h4,
      by simp, by omega⟩
  · intro hd
    have hmiss : ExprAt ('(' :: ones m) .miss := .miss (.unclosed hE (by rintro ⟨c, h, -⟩; simp at h) (by simp))
    obtain ⟨out, h1, h2, -⟩ := (calc_at b (⟨1, 0, ⟨'(' :: ones m⟩⟩ : StrRef)).2
    cases (at_unique _).2.1 _ _ h1 hmiss
    obtain ⟨e, u, h3, -⟩ := h2
    refine ⟨e, u, ?_⟩
    rw [(C111_parse b d n _).2, h3]
    rintro (hr | ⟨k, p, w, rest, e', hc, hp, hw, hlong, ht, hrest, hh'⟩)
    · have := reaches_count hr
      rw [hs, hcount] at this
      omega
    · rw [hs] at hc
      cases p with
      | nil =>
        simp only [List.nil_append, List.cons.injEq, true_and] at hc
        have := expr_ok_iff.mpr ⟨w, rfl, hw, hlong, ht⟩
        rw [← hc] at this
        cases (at_unique _).2.1 _ _ hE this
        omega
      | cons c p =>
        simp only [List.cons_append, List.cons.injEq] at hc
        exact hno '(' (by rw [hc.2]; simp) rfl

/-- **C111** The room the calculator needs is bounded by how deep parentheses nest in the text. -/
def C111Statement : Prop := ∃ room : Nat → Nat, ∀ (b : Build) (s : StrRef) (e : Expr) (n : Nat), ExprText e (content s) →
    room (nesting e) ≤ n → calculateIn b n s = calculate b s

/-- C111 is false: on `1 + 1 + ... + 1` parsing makes one call of `expr`, but as many calls of `display`, `eval` and the
destructor lie inside one another as there are operators, and one. -/
theorem C111_false : ¬ C111Statement := by
  rintro ⟨room, h⟩
  have ht := ones_text (room 0)
  obtain ⟨h1, h2⟩ := C111_ones (room 0)
  have hs : content (⟨1, 0, ⟨ones (room 0)⟩⟩ : StrRef) = ones (room 0) := rfl
  have := h .checked ⟨1, 0, ⟨ones (room 0)⟩⟩ _ (room 0) (by rw [hs]; exact ht) (by rw [h1]; omega)
  rw [C111_exact .checked (room 0) (by rw [hs]; exact ht), if_neg (by omega)] at this
  obtain ⟨s', g1, -⟩ := C79_reads .checked (s := (⟨1, 0, ⟨ones (room 0)⟩⟩ : StrRef)) (k := []) (by rw [hs]; simp) (.inl rfl)
    ht
  rw [calculate, g1] at this
  simp only [Run.pure_bind'] at this
  cases hv : eval .checked (sumOfOnes (room 0)) using Run.casesRun with
  | fault f =>
    rw [hv] at this
    cases this
    exact eval_not_abort _ _ hv
  | diverge => rw [hv] at this; cases this
  | ret v => rw [hv] at this; cases this

/-! ## Cases -/

/-- The input of the example (bin_expr.rs:21) needs two calls of `expr` and six of the other functions. -/
example (b : Build) : nesting sample = 1 ∧ height sample = 6 ∧
    (∀ n, calculateIn b n (⟨1, 0, ⟨"1 + 2 * (6 + 4) / 5".toList⟩⟩ : StrRef) =
      if 6 ≤ n then calculate b (⟨1, 0, ⟨"1 + 2 * (6 + 4) / 5".toList⟩⟩ : StrRef) else Run.fault .abort) :=
  ⟨rfl, rfl, fun n => C111_exact b n (s := (⟨1, 0, ⟨"1 + 2 * (6 + 4) / 5".toList⟩⟩ : StrRef)) (e := sample) sample_text⟩

/-- `1 + ((` is read as `1`, but not with room for two calls of `expr`. -/
example (b : Build) : exprIn b 9 2 (⟨1, 0, ⟨['1', ' ', '+', ' ', '(', '(']⟩⟩ : StrRef) = Run.fault .abort ∧
    exprIn b 9 3 (⟨1, 0, ⟨['1', ' ', '+', ' ', '(', '(']⟩⟩ : StrRef) =
      expr b (⟨1, 0, ⟨['1', ' ', '+', ' ', '(', '(']⟩⟩ : StrRef) := by
  refine ⟨(C111_parse b 9 2 _).1 (.inl ⟨['1', ' ', '+', ' ', '(', '('], [], rfl, ?_⟩), C111_bound b 9 3 _ (by decide) (by decide)⟩
  have h := OperandRead.operand .start (.integer (ds := ['1']) (n := 1) (by simp) (by simp) rfl (by decide))
  exact .opened (.opened (.operator (o := .add) h spaces_one spaces_one))

end Parcom
