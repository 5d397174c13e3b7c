import Verif.Props.Calc
/-!
# The calculator in builds without overflow checks (C81)
-/
namespace Parcom.Spec.Calc
open Parcom Parcom.Calc

/-- No division. -/
def NoDivision : Expr → Prop
  | .binOp l op r => NoDivision l ∧ op ≠ .div ∧ NoDivision r
  | .term (.parenthesized e) => NoDivision e
  | .term (.integer _) => True

/-- The value in the integers; that of a division does not matter here. -/
def intValue : Expr → Int
  | .binOp l .add r => intValue l + intValue r
  | .binOp l .sub r => intValue l - intValue r
  | .binOp l .mul r => intValue l * intValue r
  | .binOp l .div r => intValue l / intValue r
  | .term (.parenthesized e) => intValue e
  | .term (.integer n) => n

/-- Something is divided by what the calculator, without overflow checks, computes to be zero. -/
def DividesByZero : Expr → Prop
  | .binOp l op r => DividesByZero l ∨ DividesByZero r ∨ op = .div ∧ eval .wrapping r = pure 0
  | .term (.parenthesized e) => DividesByZero e
  | .term (.integer _) => False

end Parcom.Spec.Calc

namespace Parcom
open Spec Spec.Calc Parcom.Calc

theorem Calc.usizeMax_int : ((usizeMax : Nat) : Int) + 1 = 2 ^ 64 := by simp [usizeMax]

theorem Calc.wrap_add {x y : Nat} (hx : x ≤ usizeMax) (hy : y ≤ usizeMax) :
    ∃ v, usizeAdd .wrapping x y = pure v ∧ (v : Int) = ((x : Int) + y) % 2 ^ 64 := by
  unfold usizeAdd
  have hm := usizeMax_int
  split
  · exact ⟨_, rfl, by rw [Int.emod_eq_of_lt] <;> omega⟩
  · exact ⟨_, rfl, by rw [← hm]; simp⟩

theorem Calc.wrap_sub {x y : Nat} (hx : x ≤ usizeMax) (hy : y ≤ usizeMax) :
    ∃ v, usizeSub .wrapping x y = pure v ∧ (v : Int) = ((x : Int) - y) % 2 ^ 64 := by
  unfold usizeSub
  have hm := usizeMax_int
  split
  · exact ⟨_, rfl, by rw [Int.emod_eq_of_lt] <;> omega⟩
  · refine ⟨_, rfl, ?_⟩
    rw [← Int.add_emod_right, Int.emod_eq_of_lt] <;> omega

theorem Calc.wrap_mul {x y : Nat} :
    ∃ v, usizeMul .wrapping x y = pure v ∧ (v : Int) = ((x : Int) * y) % 2 ^ 64 := by
  unfold usizeMul
  have hm := usizeMax_int
  split
  · rename_i h
    refine ⟨_, rfl, ?_⟩
    have h' : ((x * y : Nat) : Int) ≤ usizeMax := by exact_mod_cast h
    rw [← Int.natCast_mul, Int.emod_eq_of_lt] <;> omega
  · exact ⟨_, rfl, by rw [← hm]; simp⟩

/-- C81: without overflow checks, the calculator computes modulo 2^64: the value of an expression without divisions is the
remainder of its value in the integers, however many intermediate results do not fit. -/
theorem C81_wrapping : ∀ e : Expr, NoDivision e → Fits e →
    ∃ v, eval .wrapping e = pure v ∧ (v : Int) = intValue e % 2 ^ 64
  | .binOp l op r, hd, hf => by
    obtain ⟨x, hx, ex⟩ := C81_wrapping l hd.1 hf.1
    obtain ⟨y, hy, ey⟩ := C81_wrapping r hd.2.2 hf.2
    have hm := usizeMax_int
    have bx : x ≤ usizeMax := by have := Int.emod_lt_of_pos (intValue l) (b := 2 ^ 64) (by decide); omega
    have by' : y ≤ usizeMax := by have := Int.emod_lt_of_pos (intValue r) (b := 2 ^ 64) (by decide); omega
    rw [eval, hx, hy]
    simp only [Run.pure_bind']
    cases op with
    | add =>
      obtain ⟨v, hv, ev⟩ := wrap_add bx by'
      exact ⟨v, hv, by rw [ev, ex, ey, intValue, ← Int.add_emod]⟩
    | sub =>
      obtain ⟨v, hv, ev⟩ := wrap_sub bx by'
      exact ⟨v, hv, by rw [ev, ex, ey, intValue, ← Int.sub_emod]⟩
    | mul =>
      obtain ⟨v, hv, ev⟩ := wrap_mul (x := x) (y := y)
      exact ⟨v, hv, by rw [ev, ex, ey, intValue, ← Int.mul_emod]⟩
    | div => exact absurd rfl hd.2.1
  | .term (.parenthesized e), hd, hf => by
    obtain ⟨v, hv, ev⟩ := C81_wrapping e hd hf
    exact ⟨v, by rw [eval, evalTerm, hv], ev⟩
  | .term (.integer n), _, hf => by
    have hm := usizeMax_int
    have hf' : n ≤ usizeMax := hf
    refine ⟨n, by rw [eval, evalTerm], ?_⟩
    rw [intValue, Int.emod_eq_of_lt] <;> omega

/-- C81: without overflow checks, the calculator panics exactly if it divides by zero, that is, by something it computes to
be zero. -/
theorem C81_wrapping_panics : ∀ e : Expr,
    (DividesByZero e ∧ eval .wrapping e = Run.fault .assertion) ∨ (¬ DividesByZero e ∧ ∃ v, eval .wrapping e = pure v)
  | .binOp l op r => by
    rcases C81_wrapping_panics l with ⟨h, he⟩ | ⟨hl, x, hx⟩
    · exact .inl ⟨.inl h, by rw [eval, he]; rfl⟩
    rcases C81_wrapping_panics r with ⟨h, he⟩ | ⟨hr, y, hy⟩
    · exact .inl ⟨.inr (.inl h), by rw [eval, hx, he]; rfl⟩
    rw [eval, hx, hy]
    simp only [Run.pure_bind', DividesByZero, hl, hr, hy, false_or]
    cases op with
    | add => refine .inr ⟨by simp, ?_⟩; simp only [usizeAdd]; split <;> exact ⟨_, rfl⟩
    | sub => refine .inr ⟨by simp, ?_⟩; simp only [usizeSub]; split <;> exact ⟨_, rfl⟩
    | mul => refine .inr ⟨by simp, ?_⟩; simp only [usizeMul]; split <;> exact ⟨_, rfl⟩
    | div =>
      by_cases h : y = 0
      · subst h; exact .inl ⟨⟨rfl, rfl⟩, rfl⟩
      · refine .inr ⟨?_, x / y, by simp only [usizeDiv, if_neg h]⟩
        rintro ⟨-, h'⟩
        simp at h'
        exact h h'
  | .term (.parenthesized e) => by
    rcases C81_wrapping_panics e with ⟨h, he⟩ | ⟨h, v, he⟩
    · exact .inl ⟨h, by rw [eval, evalTerm, he]⟩
    · exact .inr ⟨h, v, by rw [eval, evalTerm, he]⟩
  | .term (.integer n) => .inr ⟨id, n, by rw [eval, evalTerm]⟩

theorem Calc.text_fits {e : Expr} {w : List Char} (h : ExprText e w) : Fits e :=
  ExprText.rec (motive_1 := fun t _ _ => Fits (.term t)) (motive_2 := fun e _ _ => Fits e)
    (fun _ _ _ hn => hn) (fun _ ih => ih) (fun _ ih => ih) (fun _ _ _ _ _ _ h1 h2 => ⟨h1, h2⟩) h

/-- C81: from a text to its value modulo 2^64. -/
theorem C81_wrapping_text {S : Type} [Sequence S Str] [RewindSequence S] [LawfulSequence S] [LawfulRewind S] [Gapless S]
    {s : S} {e : Expr} (h : ExprText e (content s)) (hd : NoDivision e) :
    ∃ v, calculate .wrapping s = pure (some (display e, v)) ∧ (v : Int) = intValue e % 2 ^ 64 := by
  obtain ⟨s', h1, -⟩ := C79_reads .wrapping (s := s) (k := []) (by simp) (.inl rfl) h
  obtain ⟨v, hv, ev⟩ := C81_wrapping e hd (text_fits h)
  refine ⟨v, ?_, ev⟩
  rw [calculate, h1]
  simp only [Run.pure_bind']
  rw [hv]
  rfl

/-- `1 - 2 * 3` is 2^64 - 5, and `1 / (2 - 2)` panics. -/
example : eval .wrapping (.binOp (.term (.integer 1)) .sub (.binOp (.term (.integer 2)) .mul (.term (.integer 3)))) =
      pure 18446744073709551611 ∧
    intValue (.binOp (.term (.integer 1)) .sub (.binOp (.term (.integer 2)) .mul (.term (.integer 3)))) % 2 ^ 64 =
      18446744073709551611 ∧
    DividesByZero (.binOp (.term (.integer 1)) .div
      (.term (.parenthesized (.binOp (.term (.integer 2)) .sub (.term (.integer 2)))))) :=
  ⟨rfl, rfl, .inr (.inr ⟨rfl, rfl⟩)⟩

end Parcom
