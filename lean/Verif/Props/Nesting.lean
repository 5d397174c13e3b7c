import Verif.Lemmas.Combinator
import Verif.Lemmas.Descends
import Verif.Spec.Built
import Verif.Props.Primitive
/-!
# C23, C24: properties of every nesting of combinators
-/
namespace Parcom
open Spec

variable {S O O₀ O₁ E E₀ E₁ T T₀ T₁ σ σ₁ A C St : Type}

/-! ## C24: locations descend from the input, and rewinding never fails -/

section
variable [RewindSequence S] [L : RewindLaw S]

theorem tidy_join {p : Parser S O₀ E₀} {q : Parser S O₁ E₁} (hp : Tidy p.parse) (hq : Tidy q.parse) :
    Tidy (p.join q).parse := by
  intro s
  constructor
  · refine Run.ensures_bind fun res h => ?_
    have h1 := (hp s).1 _ h
    cases res with
    | ok v r =>
      refine Run.ensures_bind fun res h => ?_
      have h2 := (hq r).1 _ h
      cases res <;> exact Run.ensures_pure.mpr (L.trans h1 h2)
    | err e u => exact Run.ensures_pure.mpr h1
  · refine Run.avoids_bind (hp s).2 fun res h => ?_
    cases res with
    | ok v r =>
      refine Run.avoids_bind (hq r).2 fun res h => ?_
      cases res <;> exact Run.avoids_pure
    | err e u => exact Run.avoids_pure

theorem tidy_or [ParseError E₀] [ParseError E₁] {p : Parser S O₀ E₀} {q : Parser S O₁ E₁} (hp : Tidy p.parse)
    (hq : Tidy q.parse) : Tidy (p.or q).parse := by
  intro s
  constructor
  · refine Run.ensures_bind fun res h => ?_
    have h1 := (hp s).1 _ h
    cases res with
    | ok v r => exact Run.ensures_pure.mpr h1
    | err e u =>
      refine Run.ensures_ite (fun _ => ?_) (fun _ => Run.ensures_pure.mpr h1)
      rw [rewind_desc h1, Run.pure_bind']
      refine Run.ensures_bind fun res h => ?_
      have h2 := (hq s).1 _ h
      cases res with
      | ok v r => exact Run.ensures_pure.mpr h2
      | err e u => exact Run.ensures_ite (fun _ => Run.ensures_pure.mpr h2) (fun _ => Run.ensures_pure.mpr h2)
  · refine Run.avoids_bind (hp s).2 fun res h => ?_
    have h1 := (hp s).1 _ h
    cases res with
    | ok v r => exact Run.avoids_pure
    | err e u =>
      refine Run.avoids_ite (fun _ => ?_) (fun _ => Run.avoids_pure)
      rw [rewind_desc h1, Run.pure_bind']
      refine Run.avoids_bind (hq s).2 fun res h => ?_
      cases res with
      | ok v r => exact Run.avoids_pure
      | err e u => exact Run.avoids_ite (fun _ => Run.avoids_pure) (fun _ => Run.avoids_pure)

theorem tidy_optional [ParseError E] {p : Parser S O E} (hp : Tidy p.parse) : Tidy p.optional.parse := by
  intro s
  constructor
  · refine Run.ensures_bind fun res h => ?_
    have h1 := (hp s).1 _ h
    cases res with
    | ok v r => exact Run.ensures_pure.mpr h1
    | err e u =>
      refine Run.ensures_ite (fun _ => ?_) (fun _ => Run.ensures_pure.mpr h1)
      rw [rewind_desc h1]
      exact Run.ensures_pure.mpr (L.refl s)
  · refine Run.avoids_bind (hp s).2 fun res h => ?_
    have h1 := (hp s).1 _ h
    cases res with
    | ok v r => exact Run.avoids_pure
    | err e u =>
      refine Run.avoids_ite (fun _ => ?_) (fun _ => Run.avoids_pure)
      rw [rewind_desc h1]
      exact Run.avoids_pure

theorem tidy_repeat [ParseError E] {p : Parser S O E} (hp : Tidy p.parse) : Tidy p.repeat.parse := by
  suffices h : ∀ buf s, (repeatLoop p.parse buf s).Ensures (fun res => L.Desc s (loc res)) ∧
      (repeatLoop p.parse buf s).Avoids RewindFault from fun s => h [] s
  intro buf s
  constructor
  · revert buf s
    refine repeatLoop.fixpoint_induct (parse := p.parse) (motive := fun g => ∀ buf s, Run.Ensures (g buf s) _)
      (Run.admissible_ensures₂ _) ?_
    intro g ih buf s
    refine Run.ensures_bind fun res h => ?_
    have h1 := (hp s).1 _ h
    cases res with
    | ok v r => intro res hres; exact L.trans h1 (ih _ r res hres)
    | err e u =>
      refine Run.ensures_ite (fun _ => Run.ensures_pure.mpr h1) (fun _ => ?_)
      rw [rewind_desc h1]
      exact Run.ensures_pure.mpr (L.refl s)
  · revert buf s
    refine repeatLoop.fixpoint_induct (parse := p.parse) (motive := fun g => ∀ buf s, Run.Avoids RewindFault (g buf s))
      Run.admissible_avoids₂ ?_
    intro g ih buf s
    refine Run.avoids_bind (hp s).2 fun res h => ?_
    have h1 := (hp s).1 _ h
    cases res with
    | ok v r => exact ih _ r
    | err e u =>
      refine Run.avoids_ite (fun _ => Run.avoids_pure) (fun _ => ?_)
      rw [rewind_desc h1]
      exact Run.avoids_pure

/-- A parser that only relabels the results of a tidy one is tidy. -/
theorem tidy_bind {p : S → Run (PResult S O E)} (hp : Tidy p) (f : PResult S O E → Run (PResult S T E₁))
    (hf : ∀ res, ∃ res', f res = pure res' ∧ loc res' = loc res) : Tidy (fun s => p s >>= f) := by
  intro s
  constructor
  · refine Run.ensures_bind fun res h => ?_
    obtain ⟨res', h1, h2⟩ := hf res
    rw [h1, Run.ensures_pure, h2]
    exact (hp s).1 _ h
  · refine Run.avoids_bind (hp s).2 fun res h => ?_
    obtain ⟨res', h1, h2⟩ := hf res
    rw [h1]
    exact Run.avoids_pure

theorem tidy_andThen {p : Parser S O E} (into : E → E₁) (f : O → Except E₁ T) (hp : Tidy p.parse) :
    Tidy (p.andThen into f).parse := by
  refine tidy_bind hp _ fun res => ?_
  cases res with
  | ok v r => cases hv : f v <;> simp only [hv] <;> exact ⟨_, rfl, rfl⟩
  | err e u => exact ⟨_, rfl, rfl⟩

/-! ### Binary expressions -/

theorem reduceFor_avoids {Op Expr : Type} [Operator Op] (b : Build) (mk : Expr → Op → Expr → Expr) (op : Op)
    (term : Expr) (stack : List (Expr × Op)) (rhs : Expr) : (reduceFor b mk op term stack rhs).Avoids RewindFault := by
  induction stack generalizing rhs with
  | nil => exact Run.avoids_pure
  | cons x stack ih =>
    obtain ⟨lhs, lastOp⟩ := x
    refine Run.avoids_bind ?_ fun prec _ => Run.avoids_ite (fun _ => Run.avoids_pure) (fun _ => ih _)
    unfold nextPrecedence usizeAdd
    cases associativity lastOp with
    | right => exact Run.avoids_pure
    | left =>
      refine Run.avoids_ite (fun _ => Run.avoids_pure) (fun _ => ?_)
      cases b
      · exact Run.avoids_fault.mpr (by simp [RewindFault])
      · exact Run.avoids_pure

theorem tidy_binExprLoop {Op ETerm EOp Expr : Type} [Operator Op] [ParseError EOp] [ParseError ETerm] (b : Build)
    {term : S → Run (PResult S T ETerm)} {op : S → Run (PResult S Op EOp)} (mk : Expr → Op → Expr → Expr)
    (ofTerm : T → Expr) (prec : Nat) (ht : Tidy term) (ho : Tidy op) (stack : List (Expr × Op)) (rhs : Expr) (s : S) :
    (binExprLoop b term op mk ofTerm prec stack rhs s).Ensures (fun res => L.Desc s (loc res)) ∧
    (binExprLoop b term op mk ofTerm prec stack rhs s).Avoids RewindFault := by
  constructor
  · revert stack rhs s
    refine binExprLoop.fixpoint_induct (b := b) (parserTerm := term) (parserOp := op) (mk := mk) (ofTerm := ofTerm)
      (prec := prec) (motive := fun g => ∀ stack rhs s, Run.Ensures (g stack rhs s) _) (Run.admissible_ensures₃ _) ?_
    intro g ih stack rhs s
    refine Run.ensures_bind fun res h => ?_
    have h1 := (ho s).1 _ h
    cases res with
    | ok o r =>
      refine Run.ensures_ite (fun _ => ?_) (fun _ => Run.ensures_pure.mpr h1)
      refine Run.ensures_bind fun res h => ?_
      have h2 := (ht r).1 _ h
      cases res with
      | ok t r' =>
        refine Run.ensures_bind fun ⟨st, rhs'⟩ _ => ?_
        intro res hres
        exact L.trans (L.trans h1 h2) (ih _ _ _ res hres)
      | err e u =>
        have h3 := L.trans h1 h2
        refine Run.ensures_ite (fun _ => ?_) (fun _ => Run.ensures_pure.mpr h3)
        rw [rewind_desc h3]
        exact Run.ensures_pure.mpr (L.refl s)
    | err e u =>
      refine Run.ensures_ite (fun _ => Run.ensures_pure.mpr h1) (fun _ => ?_)
      rw [rewind_desc h1]
      exact Run.ensures_pure.mpr (L.refl s)
  · revert stack rhs s
    refine binExprLoop.fixpoint_induct (b := b) (parserTerm := term) (parserOp := op) (mk := mk) (ofTerm := ofTerm)
      (prec := prec) (motive := fun g => ∀ stack rhs s, Run.Avoids RewindFault (g stack rhs s)) Run.admissible_avoids₃ ?_
    intro g ih stack rhs s
    refine Run.avoids_bind (ho s).2 fun res h => ?_
    have h1 := (ho s).1 _ h
    cases res with
    | ok o r =>
      refine Run.avoids_ite (fun _ => ?_) (fun _ => Run.avoids_pure)
      refine Run.avoids_bind (ht r).2 fun res h => ?_
      have h2 := (ht r).1 _ h
      cases res with
      | ok t r' =>
        refine Run.avoids_bind (reduceFor_avoids _ _ _ _ _ _) fun ⟨st, rhs'⟩ _ => ih _ _ _
      | err e u =>
        have h3 := L.trans h1 h2
        refine Run.avoids_ite (fun _ => ?_) (fun _ => Run.avoids_pure)
        rw [rewind_desc h3]
        exact Run.avoids_pure
    | err e u =>
      refine Run.avoids_ite (fun _ => Run.avoids_pure) (fun _ => ?_)
      rw [rewind_desc h1]
      exact Run.avoids_pure

theorem tidy_binExpr {Op ETerm EOp Expr : Type} [Operator Op] [ParseError EOp] [ParseError ETerm] (b : Build)
    {term : Parser S T ETerm} {op : Parser S Op EOp} (mk : Expr → Op → Expr → Expr) (ofTerm : T → Expr)
    (ht : Tidy term.parse) (ho : Tidy op.parse) : Tidy (binExpr b term op mk ofTerm).parse := by
  have himpl : Tidy (fun s => binExprImpl b term.parse op.parse mk ofTerm s 0) := by
    intro s
    constructor
    · refine Run.ensures_bind fun res h => ?_
      have h1 := (ht s).1 _ h
      cases res with
      | ok v r => intro res hres; exact L.trans h1 ((tidy_binExprLoop b mk ofTerm 0 ht ho _ _ r).1 res hres)
      | err e u => exact Run.ensures_pure.mpr h1
    · refine Run.avoids_bind (ht s).2 fun res h => ?_
      cases res with
      | ok v r => exact (tidy_binExprLoop b mk ofTerm 0 ht ho _ _ r).2
      | err e u => exact Run.avoids_pure
  intro s
  constructor
  · refine Run.ensures_bind fun res h => ?_
    have h1 := (himpl s).1 _ h
    cases res with
    | ok v r =>
      obtain ⟨e, reason⟩ := v
      cases reason with
      | ok x => exact Run.ensures_fault
      | error x => exact Run.ensures_pure.mpr h1
    | err e u => exact Run.ensures_pure.mpr h1
  · refine Run.avoids_bind (himpl s).2 fun res h => ?_
    cases res with
    | ok v r =>
      obtain ⟨e, reason⟩ := v
      cases reason with
      | ok x => exact Run.avoids_fault.mpr (by simp [RewindFault])
      | error x => exact Run.avoids_pure
    | err e u => exact Run.avoids_pure

/-! ### Iterations -/

theorem tidyIter_optional [ParseError E] {f : S → Run (PResult S O E)} (hf : Tidy f) :
    TidyIter { init := true, next := optionalNext f } := by
  intro x s
  constructor
  · refine Run.ensures_ite (fun _ => Run.ensures_pure.mpr (L.refl s)) (fun _ => ?_)
    refine Run.ensures_bind fun res h => ?_
    have h1 := (hf s).1 _ h
    cases res with
    | ok v r => exact Run.ensures_pure.mpr h1
    | err e u =>
      refine Run.ensures_ite (fun _ => Run.ensures_pure.mpr h1) (fun _ => ?_)
      rw [rewind_desc h1]
      exact Run.ensures_pure.mpr (L.refl s)
  · refine Run.avoids_ite (fun _ => Run.avoids_pure) (fun _ => ?_)
    refine Run.avoids_bind (hf s).2 fun res h => ?_
    have h1 := (hf s).1 _ h
    cases res with
    | ok v r => exact Run.avoids_pure
    | err e u =>
      refine Run.avoids_ite (fun _ => Run.avoids_pure) (fun _ => ?_)
      rw [rewind_desc h1]
      exact Run.avoids_pure

theorem tidyIter_repeat [ParseError E] {f : S → Run (PResult S O E)} (hf : Tidy f) :
    TidyIter { init := (), next := repeatNext f } := by
  intro x s
  constructor
  · refine Run.ensures_bind fun res h => ?_
    have h1 := (hf s).1 _ h
    cases res with
    | ok v r => exact Run.ensures_pure.mpr h1
    | err e u =>
      refine Run.ensures_ite (fun _ => Run.ensures_pure.mpr h1) (fun _ => ?_)
      rw [rewind_desc h1]
      exact Run.ensures_pure.mpr (L.refl s)
  · refine Run.avoids_bind (hf s).2 fun res h => ?_
    have h1 := (hf s).1 _ h
    cases res with
    | ok v r => exact Run.avoids_pure
    | err e u =>
      refine Run.avoids_ite (fun _ => Run.avoids_pure) (fun _ => ?_)
      rw [rewind_desc h1]
      exact Run.avoids_pure

/-- An adaptor step that only relabels the results of a tidy step is tidy. -/
theorem tidyIter_bind {σ₂ : Type} {st : IterState σ S O E} (hp : TidyIter st) (x : σ)
    (f : PResult S (Option O) E × σ → Run (PResult S (Option T) E₁ × σ₂))
    (hf : ∀ res, ∃ res', f res = pure res' ∧ loc res'.1 = loc res.1) (s : S) :
    (st.next x s >>= f).Ensures (fun res => L.Desc s (loc res.1)) ∧ (st.next x s >>= f).Avoids RewindFault := by
  constructor
  · refine Run.ensures_bind fun res h => ?_
    obtain ⟨res', h1, h2⟩ := hf res
    rw [h1, Run.ensures_pure, h2]
    exact (hp x s).1 _ h
  · refine Run.avoids_bind (hp x s).2 fun res h => ?_
    obtain ⟨res', h1, h2⟩ := hf res
    rw [h1]
    exact Run.avoids_pure

theorem tidyIter_mapEach {st : IterState σ S O E} (hp : TidyIter st) (f : O → T) : TidyIter (st.mapEach f) :=
  fun x s => tidyIter_bind hp x _ (fun ⟨res, x'⟩ => by cases res <;> exact ⟨_, rfl, rfl⟩) s

theorem tidyIter_mapWhile {st : IterState σ S O E} (hp : TidyIter st) (f : O → Option T) : TidyIter (st.mapWhile f) :=
  fun x s => tidyIter_bind hp x _ (fun ⟨res, x'⟩ => by cases res <;> exact ⟨_, rfl, rfl⟩) s

theorem tidyIter_scan {st : IterState σ S O E} (hp : TidyIter st) (init : St) (f : St → O → T × St) :
    TidyIter (st.scan init f) :=
  fun ⟨x, y⟩ s => tidyIter_bind hp x _ (fun ⟨res, x'⟩ => by
    rcases res with ⟨_ | v, r⟩ | _ <;> exact ⟨_, rfl, rfl⟩) s

theorem tidyIter_take {st : IterState σ S O E} (hp : TidyIter st) (n : Nat) : TidyIter (st.take n) := by
  rintro ⟨x, left⟩ s
  by_cases hl : left = 0
  · have : (st.take n).next (x, left) s = pure (done none s, (x, left)) := by simp [IterState.take, hl]
    rw [this]
    exact ⟨Run.ensures_pure.mpr (L.refl s), Run.avoids_pure⟩
  · have h : (st.take n).next (x, left) s = _ := if_neg hl
    rw [h]
    exact tidyIter_bind hp x _ (fun ⟨res, x'⟩ => by rcases res with ⟨_ | v, r⟩ | _ <;> exact ⟨_, rfl, rfl⟩) s

theorem tidyIter_tryMapEach [ParseError E₁] {st : IterState σ S O E} (hp : TidyIter st) (into : E → E₁)
    (f : O → Except E₁ T) : TidyIter (st.tryMapEach into f) :=
  fun x s => tidyIter_bind hp x _ (fun ⟨res, x'⟩ => by
    rcases res with ⟨_ | v, r⟩ | ⟨e, u⟩
    · exact ⟨_, rfl, rfl⟩
    · cases hv : f v with
      | ok w => simp only [hv]; exact ⟨_, rfl, rfl⟩
      | error e =>
        simp only [hv]
        by_cases he : shouldTerminate e = true
        · rw [if_pos he]; exact ⟨_, rfl, rfl⟩
        · rw [if_neg he]; exact ⟨_, rfl, rfl⟩
    · exact ⟨_, rfl, rfl⟩) s

theorem tidy_foldLoop {st : IterState σ S O E} (hp : TidyIter st) (f : A → O → A) (x : σ) (acc : A) (s : S) :
    (foldLoop st f x acc s).Ensures (fun res => L.Desc s (loc res)) ∧ (foldLoop st f x acc s).Avoids RewindFault := by
  constructor
  · revert x acc s
    refine foldLoop.fixpoint_induct (st := st) (f := f) (motive := fun g => ∀ x acc s, Run.Ensures (g x acc s) _)
      (Run.admissible_ensures₃ _) ?_
    intro g ih x acc s
    refine Run.ensures_bind fun ⟨res, x'⟩ h => ?_
    have h1 := (hp x s).1 _ h
    rcases res with ⟨_ | v, r⟩ | ⟨e, u⟩
    · exact Run.ensures_pure.mpr h1
    · intro res hres; exact L.trans h1 (ih _ _ r res hres)
    · exact Run.ensures_pure.mpr h1
  · revert x acc s
    refine foldLoop.fixpoint_induct (st := st) (f := f)
      (motive := fun g => ∀ x acc s, Run.Avoids RewindFault (g x acc s)) Run.admissible_avoids₃ ?_
    intro g ih x acc s
    refine Run.avoids_bind (hp x s).2 fun ⟨res, x'⟩ h => ?_
    rcases res with ⟨_ | v, r⟩ | ⟨e, u⟩
    · exact Run.avoids_pure
    · exact ih _ _ r
    · exact Run.avoids_pure

theorem tidy_collectLoop {st : IterState σ S O E} (hp : TidyIter st) (f : C → O → C) (x : σ) (acc : C) (s : S) :
    (collectLoop st f x acc s).Ensures (fun res => L.Desc s (loc res)) ∧
    (collectLoop st f x acc s).Avoids RewindFault := by
  constructor
  · revert x acc s
    refine collectLoop.fixpoint_induct (st := st) (extend := f) (motive := fun g => ∀ x acc s, Run.Ensures (g x acc s) _)
      (Run.admissible_ensures₃ _) ?_
    intro g ih x acc s
    refine Run.ensures_bind fun ⟨res, x'⟩ h => ?_
    have h1 := (hp x s).1 _ h
    rcases res with ⟨_ | v, r⟩ | ⟨e, u⟩
    · have hw : RewindSequence.rewind r (anchor s) = pure s := L.rewind h1
      simp only [hw]
      exact Run.ensures_pure.mpr (L.refl s)
    · intro res hres; exact L.trans h1 (ih _ _ r res hres)
    · have hw : u.rewind (anchor s) = pure s := rewind_desc h1
      simp only [hw]
      exact Run.ensures_pure.mpr (L.refl s)
  · revert x acc s
    refine collectLoop.fixpoint_induct (st := st) (extend := f)
      (motive := fun g => ∀ x acc s, Run.Avoids RewindFault (g x acc s)) Run.admissible_avoids₃ ?_
    intro g ih x acc s
    refine Run.avoids_bind (hp x s).2 fun ⟨res, x'⟩ h => ?_
    have h1 := (hp x s).1 _ h
    rcases res with ⟨_ | v, r⟩ | ⟨e, u⟩
    · have hw : RewindSequence.rewind r (anchor s) = pure s := L.rewind h1
      simp only [hw]
      exact Run.avoids_pure
    · exact ih _ _ r
    · have hw : u.rewind (anchor s) = pure s := rewind_desc h1
      simp only [hw]
      exact Run.avoids_pure

mutual
theorem built_tidy {Leaf : ParserClass S} (hl : ∀ {O E : Type} {p : Parser S O E}, Leaf p → Tidy p.parse)
    {O E : Type} {p : Parser S O E} : Built Leaf p → Tidy p.parse
  | .leaf h => hl h
  | .join h1 h2 => tidy_join (built_tidy hl h1) (built_tidy hl h2)
  | @Built.or _ _ _ _ _ _ _ _ _ _ _ h1 h2 => tidy_or (built_tidy hl h1) (built_tidy hl h2)
  | @Built.optional _ _ _ _ _ _ _ h => tidy_optional (built_tidy hl h)
  | @Built.repeat _ _ _ _ _ _ _ h => tidy_repeat (built_tidy hl h)
  | .map f h => tidy_bind (built_tidy hl h) _ fun res => by cases res <;> exact ⟨_, rfl, rfl⟩
  | .mapErr f h => tidy_bind (built_tidy hl h) _ fun res => by cases res <;> exact ⟨_, rfl, rfl⟩
  | .andThen into f h => tidy_andThen into f (built_tidy hl h)
  | .unify f₀ f₁ h => tidy_bind (built_tidy hl h) _ fun res => by cases res <;> exact ⟨_, rfl, rfl⟩
  | .unifyErr f₀ f₁ h => tidy_bind (built_tidy hl h) _ fun res => by cases res <;> exact ⟨_, rfl, rfl⟩
  | @Built.asRef _ _ _ _ _ p h => (built_tidy hl h : Tidy p.parse)
  | @Built.boxed _ _ _ _ _ p h => (built_tidy hl h : Tidy p.parse)
  | @Built.binExpr _ _ _ _ _ _ _ _ _ _ _ b _ _ mk ofTerm h1 h2 => tidy_binExpr b mk ofTerm (built_tidy hl h1) (built_tidy hl h2)
  | .fold init f h => fun s => tidy_foldLoop (builtIter_tidy hl h) f _ init s
  | .collect dflt extend h => fun s => tidy_collectLoop (builtIter_tidy hl h) extend _ dflt s

theorem builtIter_tidy {Leaf : ParserClass S} (hl : ∀ {O E : Type} {p : Parser S O E}, Leaf p → Tidy p.parse)
    {σ σ₁ O E : Type} {p : IterParser σ σ₁ S O E} : BuiltIter Leaf p → TidyIter p.iter
  | @BuiltIter.optional _ _ _ _ _ _ _ h => tidyIter_optional (built_tidy hl h)
  | @BuiltIter.repeat _ _ _ _ _ _ _ h => tidyIter_repeat (built_tidy hl h)
  | @BuiltIter.byRef _ _ _ _ _ _ _ p h => (builtIter_tidy hl h : TidyIter p.iter)
  | .mapEach f h => tidyIter_mapEach (builtIter_tidy hl h) f
  | .mapWhile f h => tidyIter_mapWhile (builtIter_tidy hl h) f
  | .scan init f h => tidyIter_scan (builtIter_tidy hl h) init f
  | .take n h => tidyIter_take (builtIter_tidy hl h) n
  | @BuiltIter.tryMapEach _ _ _ _ _ _ _ _ _ _ _ into f h => tidyIter_tryMapEach (builtIter_tidy hl h) into f
end

/-- C24: for every nesting of combinators over well-behaved parsers, every returned location can be rewound to the input
and gives it back, and no rewind ever goes wrong on the way. -/
theorem C24_locations_rewindable {Leaf : ParserClass S}
    (hl : ∀ {O E : Type} {p : Parser S O E}, Leaf p → Descends p.parse ∧ ∀ s, (p.parse s).Avoids RewindFault)
    {p : Parser S O E} (h : Built Leaf p) (s : S) :
    (∀ v r, p.parse s = pure (.ok v r) → RewindSequence.rewind r (anchor s) = pure s) ∧
    (∀ e u, p.parse s = pure (.err e u) → u.rewind (anchor s) = pure s) ∧
    p.parse s ≠ Run.fault .foreignAnchor ∧ p.parse s ≠ Run.fault .ub ∧ p.parse s ≠ Run.fault .zeroSized := by
  have ht := built_tidy (fun hp => tidy_iff.mpr (hl hp)) h s
  refine ⟨?_, ?_, ?_, ?_, ?_⟩
  · intro v r hr; exact L.rewind (ht.1 _ hr)
  · intro e u hr; exact L.rewind (ht.1 _ hr)
  · exact ht.2 _ (by simp [RewindFault])
  · exact ht.2 _ (by simp [RewindFault])
  · exact ht.2 _ (by simp [RewindFault])

end

/-- Leaves for texts: the two char parsers. -/
inductive CharLeaf {S : Type} [Sequence S Str] : {O E : Type} → Parser S O E → Prop where
  | any : CharLeaf anyChar
  | the (c : Char) : CharLeaf (theChar c)

/-- Non-vacuity of C24: the char parsers on `&str` are such leaves, and this is a nesting of them. -/
example : (∀ {O E : Type} {p : Parser StrRef O E}, CharLeaf p →
      Descends p.parse ∧ ∀ s, (p.parse s).Avoids RewindFault) ∧
    Built (S := StrRef) CharLeaf (((theChar 'a').or anyChar).repeat.join (theChar 'b').optional) := by
  constructor
  · intro O E p h
    cases h with
    | any => exact tidy_iff.mp tidy_anyChar
    | the c => exact tidy_iff.mp (tidy_theChar c)
  · exact .join (.repeat (.or (.leaf (.the _)) (.leaf .any))) (.optional (.leaf (.the _)))

/-! ## C23 -/

/-- Two iterations that cannot be told apart: corresponding states give the same results. -/
def Agree (a : IterState σ S O E) (b : IterState σ₁ S O E) : Prop :=
  ∃ R : σ → σ₁ → Prop, R a.init b.init ∧ ∀ x y, R x y → ∀ s,
    (∃ res x' y', a.next x s = pure (res, x') ∧ b.next y s = pure (res, y') ∧ R x' y') ∨
    (∃ f, a.next x s = Run.fault f ∧ b.next y s = Run.fault f) ∨
    (a.next x s = Run.diverge ∧ b.next y s = Run.diverge)

theorem Agree.symm {a : IterState σ S O E} {b : IterState σ₁ S O E} (h : Agree a b) : Agree b a := by
  obtain ⟨R, h0, h⟩ := h
  refine ⟨fun x y => R y x, h0, fun x y hxy s => ?_⟩
  rcases h y x hxy s with ⟨res, x', y', h1, h2, h3⟩ | ⟨f, h1, h2⟩ | ⟨h1, h2⟩
  · exact .inl ⟨res, y', x', h2, h1, h3⟩
  · exact .inr (.inl ⟨f, h2, h1⟩)
  · exact .inr (.inr ⟨h2, h1⟩)

theorem Agree.refl (a : IterState σ S O E) : Agree a a := by
  refine ⟨Eq, rfl, ?_⟩
  rintro x _ rfl s
  cases h : a.next x s using Run.casesRun with
  | ret r => obtain ⟨res, x'⟩ := r; exact .inl ⟨res, x', x', rfl, rfl, rfl⟩
  | fault f => exact .inr (.inl ⟨f, rfl, rfl⟩)
  | diverge => exact .inr (.inr ⟨rfl, rfl⟩)

/-- Adaptors preserve agreement. -/
theorem Agree.adapt {τ τ₁ : Type} {a : IterState σ S O E} {b : IterState σ₁ S O E} (h : Agree a b)
    {a' : IterState τ S T E₁} {b' : IterState τ₁ S T E₁} (Q : (σ → σ₁ → Prop) → τ → τ₁ → Prop)
    (h0 : ∀ R : σ → σ₁ → Prop, R a.init b.init → Q R a'.init b'.init)
    (hstep : ∀ R : σ → σ₁ → Prop, (∀ x y, R x y → ∀ s,
        (∃ res x' y', a.next x s = pure (res, x') ∧ b.next y s = pure (res, y') ∧ R x' y') ∨
        (∃ f, a.next x s = Run.fault f ∧ b.next y s = Run.fault f) ∨
        (a.next x s = Run.diverge ∧ b.next y s = Run.diverge)) →
      ∀ x y, Q R x y → ∀ s,
        (∃ res x' y', a'.next x s = pure (res, x') ∧ b'.next y s = pure (res, y') ∧ Q R x' y') ∨
        (∃ f, a'.next x s = Run.fault f ∧ b'.next y s = Run.fault f) ∨
        (a'.next x s = Run.diverge ∧ b'.next y s = Run.diverge)) : Agree a' b' := by
  obtain ⟨R, hR0, hR⟩ := h
  exact ⟨Q R, h0 R hR0, hstep R hR⟩

theorem Agree.mapEach {a : IterState σ S O E} {b : IterState σ₁ S O E} (h : Agree a b) (f : O → T) :
    Agree (a.mapEach f) (b.mapEach f) := by
  refine h.adapt (fun R => R) (fun _ h => h) fun R hR x y hxy s => ?_
  rcases hR x y hxy s with ⟨res, x', y', h1, h2, h3⟩ | ⟨e, h1, h2⟩ | ⟨h1, h2⟩
  · left
    cases res <;> exact ⟨_, x', y', by simp only [IterState.mapEach, h1]; rfl, by simp only [IterState.mapEach, h2]; rfl, h3⟩
  · right; left; exact ⟨e, by simp [IterState.mapEach, h1], by simp [IterState.mapEach, h2]⟩
  · right; right; exact ⟨by simp [IterState.mapEach, h1], by simp [IterState.mapEach, h2]⟩

theorem Agree.mapWhile {a : IterState σ S O E} {b : IterState σ₁ S O E} (h : Agree a b) (f : O → Option T) :
    Agree (a.mapWhile f) (b.mapWhile f) := by
  refine h.adapt (fun R => R) (fun _ h => h) fun R hR x y hxy s => ?_
  rcases hR x y hxy s with ⟨res, x', y', h1, h2, h3⟩ | ⟨e, h1, h2⟩ | ⟨h1, h2⟩
  · left
    cases res <;> exact ⟨_, x', y', by simp only [IterState.mapWhile, h1]; rfl, by simp only [IterState.mapWhile, h2]; rfl, h3⟩
  · right; left; exact ⟨e, by simp [IterState.mapWhile, h1], by simp [IterState.mapWhile, h2]⟩
  · right; right; exact ⟨by simp [IterState.mapWhile, h1], by simp [IterState.mapWhile, h2]⟩

theorem Agree.scan {a : IterState σ S O E} {b : IterState σ₁ S O E} (h : Agree a b) (init : St)
    (f : St → O → T × St) : Agree (a.scan init f) (b.scan init f) := by
  refine h.adapt (fun R x y => R x.1 y.1 ∧ x.2 = y.2) (fun _ h => ⟨h, rfl⟩) ?_
  rintro R hR ⟨x, st⟩ ⟨y, _⟩ ⟨hxy, rfl⟩ s
  rcases hR x y hxy s with ⟨res, x', y', h1, h2, h3⟩ | ⟨e, h1, h2⟩ | ⟨h1, h2⟩
  · left
    rcases res with ⟨_ | v, r⟩ | ⟨e, u⟩
    · exact ⟨_, (x', st), (y', st), by simp only [IterState.scan, h1]; rfl, by simp only [IterState.scan, h2]; rfl, h3, rfl⟩
    · exact ⟨_, (x', _), (y', _), by simp only [IterState.scan, h1]; rfl, by simp only [IterState.scan, h2]; rfl, h3, rfl⟩
    · exact ⟨_, (x', st), (y', st), by simp only [IterState.scan, h1]; rfl, by simp only [IterState.scan, h2]; rfl, h3, rfl⟩
  · right; left; exact ⟨e, by simp [IterState.scan, h1], by simp [IterState.scan, h2]⟩
  · right; right; exact ⟨by simp [IterState.scan, h1], by simp [IterState.scan, h2]⟩

theorem Agree.take {a : IterState σ S O E} {b : IterState σ₁ S O E} (h : Agree a b) (n : Nat) :
    Agree (a.take n) (b.take n) := by
  refine h.adapt (fun R x y => R x.1 y.1 ∧ x.2 = y.2) (fun _ h => ⟨h, rfl⟩) ?_
  rintro R hR ⟨x, left⟩ ⟨y, _⟩ ⟨hxy, rfl⟩ s
  by_cases hl : left = 0
  · exact .inl ⟨_, (x, left), (y, left), by simp only [IterState.take, hl]; rfl, by simp only [IterState.take, hl]; rfl, hxy, rfl⟩
  · rcases hR x y hxy s with ⟨res, x', y', h1, h2, h3⟩ | ⟨e, h1, h2⟩ | ⟨h1, h2⟩
    · left
      rcases res with ⟨_ | v, r⟩ | ⟨e, u⟩
      · exact ⟨_, (x', left), (y', left), by simp only [IterState.take, hl, h1]; rfl,
          by simp only [IterState.take, hl, h2]; rfl, h3, rfl⟩
      · exact ⟨_, (x', left - 1), (y', left - 1), by simp only [IterState.take, hl, h1]; rfl,
          by simp only [IterState.take, hl, h2]; rfl, h3, rfl⟩
      · exact ⟨_, (x', left), (y', left), by simp only [IterState.take, hl, h1]; rfl,
          by simp only [IterState.take, hl, h2]; rfl, h3, rfl⟩
    · right; left; exact ⟨e, by simp [IterState.take, hl, h1], by simp [IterState.take, hl, h2]⟩
    · right; right; exact ⟨by simp [IterState.take, hl, h1], by simp [IterState.take, hl, h2]⟩

theorem Agree.tryMapEach [ParseError E₁] {a : IterState σ S O E} {b : IterState σ₁ S O E} (h : Agree a b)
    (into : E → E₁) (f : O → Except E₁ T) : Agree (a.tryMapEach into f) (b.tryMapEach into f) := by
  refine h.adapt (fun R => R) (fun _ h => h) fun R hR x y hxy s => ?_
  rcases hR x y hxy s with ⟨res, x', y', h1, h2, h3⟩ | ⟨e, h1, h2⟩ | ⟨h1, h2⟩
  · left
    rcases res with ⟨_ | v, r⟩ | ⟨e, u⟩
    · exact ⟨_, x', y', by simp only [IterState.tryMapEach, h1]; rfl, by simp only [IterState.tryMapEach, h2]; rfl, h3⟩
    · cases hv : f v with
      | ok w =>
        exact ⟨.ok (some w) r, x', y', by simp [IterState.tryMapEach, h1, hv, done],
          by simp [IterState.tryMapEach, h2, hv, done], h3⟩
      | error e =>
        by_cases he : shouldTerminate e = true
        · exact ⟨.err e ⟨r⟩, x', y', by simp [IterState.tryMapEach, h1, hv, he, failAt],
            by simp [IterState.tryMapEach, h2, hv, he, failAt], h3⟩
        · exact ⟨.ok none r, x', y', by simp [IterState.tryMapEach, h1, hv, he, done],
            by simp [IterState.tryMapEach, h2, hv, he, done], h3⟩
    · exact ⟨_, x', y', by simp only [IterState.tryMapEach, h1]; rfl, by simp only [IterState.tryMapEach, h2]; rfl, h3⟩
  · right; left; exact ⟨e, by simp [IterState.tryMapEach, h1], by simp [IterState.tryMapEach, h2]⟩
  · right; right; exact ⟨by simp [IterState.tryMapEach, h1], by simp [IterState.tryMapEach, h2]⟩

theorem foldLoop_below {a : IterState σ S O E} {b : IterState σ₁ S O E} (f : A → O → A) (R : σ → σ₁ → Prop)
    (hR : ∀ x y, R x y → ∀ s,
      (∃ res x' y', a.next x s = pure (res, x') ∧ b.next y s = pure (res, y') ∧ R x' y') ∨
      (∃ f, a.next x s = Run.fault f ∧ b.next y s = Run.fault f) ∨
      (a.next x s = Run.diverge ∧ b.next y s = Run.diverge)) (x : σ) (acc : A) (s : S) :
    ∀ y, R x y → Run.Below (foldLoop a f x acc s) (foldLoop b f y acc s) := by
  revert x acc s
  refine foldLoop.fixpoint_induct (st := a) (f := f)
    (motive := fun g => ∀ x acc s y, R x y → Run.Below (g x acc s) (foldLoop b f y acc s)) ?_ ?_
  · exact Run.admissible_fun₃ (fun x acc s r => ∀ y, R x y → Run.Below r (foldLoop b f y acc s))
      fun _ _ _ _ _ => Run.below_diverge
  · intro g ih x acc s y hxy
    rw [foldLoop]
    show Run.Below (_ >>= _) (_ >>= _)
    rcases hR x y hxy s with ⟨res, x', y', h1, h2, h3⟩ | ⟨e, h1, h2⟩ | ⟨h1, h2⟩
    · rw [h1, h2]
      rcases res with ⟨_ | v, r⟩ | ⟨e, u⟩
      · exact Run.below_refl
      · exact ih _ _ _ _ h3
      · exact Run.below_refl
    · rw [h1, h2]; exact Run.below_refl
    · rw [h1, h2]; exact Run.below_refl

theorem foldLoop_agree {a : IterState σ S O E} {b : IterState σ₁ S O E} (h : Agree a b) (f : A → O → A) (acc : A)
    (s : S) : foldLoop a f a.init acc s = foldLoop b f b.init acc s := by
  obtain ⟨R, h0, hR⟩ := h
  refine Run.below_antisymm (foldLoop_below f R hR _ acc s _ h0) ?_
  refine foldLoop_below f (fun y x => R x y) (fun y x hxy s => ?_) _ acc s _ h0
  rcases hR x y hxy s with ⟨res, x', y', h1, h2, h3⟩ | ⟨e, h1, h2⟩ | ⟨h1, h2⟩
  · exact .inl ⟨res, y', x', h2, h1, h3⟩
  · exact .inr (.inl ⟨e, h2, h1⟩)
  · exact .inr (.inr ⟨h2, h1⟩)

theorem collectLoop_below [RewindSequence S] {a : IterState σ S O E} {b : IterState σ₁ S O E} (f : C → O → C)
    (R : σ → σ₁ → Prop) (hR : ∀ x y, R x y → ∀ s,
      (∃ res x' y', a.next x s = pure (res, x') ∧ b.next y s = pure (res, y') ∧ R x' y') ∨
      (∃ f, a.next x s = Run.fault f ∧ b.next y s = Run.fault f) ∨
      (a.next x s = Run.diverge ∧ b.next y s = Run.diverge)) (x : σ) (acc : C) (s : S) :
    ∀ y, R x y → Run.Below (collectLoop a f x acc s) (collectLoop b f y acc s) := by
  revert x acc s
  refine collectLoop.fixpoint_induct (st := a) (extend := f)
    (motive := fun g => ∀ x acc s y, R x y → Run.Below (g x acc s) (collectLoop b f y acc s)) ?_ ?_
  · exact Run.admissible_fun₃ (fun x acc s r => ∀ y, R x y → Run.Below r (collectLoop b f y acc s))
      fun _ _ _ _ _ => Run.below_diverge
  · intro g ih x acc s y hxy
    rw [collectLoop]
    show Run.Below (_ >>= _) (_ >>= _)
    rcases hR x y hxy s with ⟨res, x', y', h1, h2, h3⟩ | ⟨e, h1, h2⟩ | ⟨h1, h2⟩
    · rw [h1, h2]
      rcases res with ⟨_ | v, r⟩ | ⟨e, u⟩
      · exact Run.below_refl
      · exact ih _ _ _ _ h3
      · exact Run.below_refl
    · rw [h1, h2]; exact Run.below_refl
    · rw [h1, h2]; exact Run.below_refl

theorem collectLoop_agree [RewindSequence S] {a : IterState σ S O E} {b : IterState σ₁ S O E} (h : Agree a b)
    (f : C → O → C) (acc : C) (s : S) : collectLoop a f a.init acc s = collectLoop b f b.init acc s := by
  obtain ⟨R, h0, hR⟩ := h
  refine Run.below_antisymm (collectLoop_below f R hR _ acc s _ h0) ?_
  refine collectLoop_below f (fun y x => R x y) (fun y x hxy s => ?_) _ acc s _ h0
  rcases hR x y hxy s with ⟨res, x', y', h1, h2, h3⟩ | ⟨e, h1, h2⟩ | ⟨h1, h2⟩
  · exact .inl ⟨res, y', x', h2, h1, h3⟩
  · exact .inr (.inl ⟨e, h2, h1⟩)
  · exact .inr (.inr ⟨h2, h1⟩)

mutual
/-- C23: every nesting of combinators over parsers whose `parse_once` and `parse` agree has the same property, on every
input, panics and divergence included. -/
theorem C23_parse_once_eq_parse [RewindSequence S] {Leaf : ParserClass S}
    (hl : ∀ {O E : Type} {p : Parser S O E}, Leaf p → ∀ s, p.parseOnce s = p.parse s)
    {O E : Type} {p : Parser S O E} : Built Leaf p → ∀ s, p.parseOnce s = p.parse s
  | .leaf h => hl h
  | .join h1 h2 => fun s => by
    simp only [Parser.join, C23_parse_once_eq_parse hl h1, C23_parse_once_eq_parse hl h2]
  | @Built.or _ _ _ _ _ _ _ _ _ _ _ h1 h2 => fun s => by
    simp only [Parser.or, C23_parse_once_eq_parse hl h1, C23_parse_once_eq_parse hl h2]
  | @Built.optional _ _ _ _ _ _ _ h => fun s => by simp only [Parser.optional, C23_parse_once_eq_parse hl h]
  | @Built.repeat _ _ _ _ _ _ _ h => fun s => rfl
  | .map f h => fun s => by simp only [Parser.map, C23_parse_once_eq_parse hl h]
  | .mapErr f h => fun s => by simp only [Parser.mapErr, C23_parse_once_eq_parse hl h]
  | .andThen into f h => fun s => by simp only [Parser.andThen, C23_parse_once_eq_parse hl h]
  | .unify f₀ f₁ h => fun s => by
    simp only [Parser.unify, C23_parse_once_eq_parse hl h]
    congr 1; funext res; rcases res with ⟨v | v, r⟩ | _ <;> rfl
  | .unifyErr f₀ f₁ h => fun s => by
    simp only [Parser.unifyErr, C23_parse_once_eq_parse hl h]
    congr 1; funext res; rcases res with _ | ⟨e | e, u⟩ <;> rfl
  | .asRef h => fun s => rfl
  | .boxed h => fun s => C23_parse_once_eq_parse hl h s
  | @Built.binExpr _ _ _ _ _ _ _ _ _ _ _ b _ _ mk ofTerm h1 h2 => fun s => rfl
  | .fold init f h => fun s => (foldLoop_agree (C23_iterations_agree hl h) f init s).symm
  | .collect dflt extend h => fun s => (collectLoop_agree (C23_iterations_agree hl h) extend dflt s).symm

/-- C23 for iterative parsers: `parse_iterative_once` and `parse_iterative` start iterations that cannot be told apart. -/
theorem C23_iterations_agree [RewindSequence S] {Leaf : ParserClass S}
    (hl : ∀ {O E : Type} {p : Parser S O E}, Leaf p → ∀ s, p.parseOnce s = p.parse s)
    {σ σ₁ O E : Type} {p : IterParser σ σ₁ S O E} : BuiltIter Leaf p → Agree p.iter p.once
  | @BuiltIter.optional _ _ _ _ _ _ p h => by
    have : p.parseOnce = p.parse := funext (C23_parse_once_eq_parse hl h)
    show Agree { init := true, next := optionalNext p.parse } { init := true, next := optionalNext p.parseOnce }
    rw [this]
    exact Agree.refl _
  | @BuiltIter.repeat _ _ _ _ _ _ _ h => Agree.refl _
  | .byRef h => Agree.refl _
  | .mapEach f h => (C23_iterations_agree hl h).mapEach f
  | .mapWhile f h => (C23_iterations_agree hl h).mapWhile f
  | .scan init f h => (C23_iterations_agree hl h).scan init f
  | .take n h => (C23_iterations_agree hl h).take n
  | @BuiltIter.tryMapEach _ _ _ _ _ _ _ _ _ _ _ into f h => (C23_iterations_agree hl h).tryMapEach into f
end

/-- The primitive parsers and functions used as parsers are such leaves. -/
theorem C23_leaves :
    (∀ {S : Type} [Sequence S Str] (s : S), anyChar.parseOnce s = anyChar.parse s) ∧
    (∀ {S : Type} [Sequence S Str] (c : Char) (s : S), (theChar c).parseOnce s = (theChar c).parse s) ∧
    (∀ {S α : Type} [Sequence S (List α)] (s : S), (anyItem (α := α)).parseOnce s = anyItem.parse s) ∧
    (∀ {S α : Type} [BEq α] [Sequence S (List α)] (x : α) (s : S), (theItem x).parseOnce s = (theItem x).parse s) ∧
    (∀ {S Seg : Type} [SequenceSegment Seg] [BEq Seg] [Sequence S Seg] (p : Seg) (s : S),
      (atom p).parseOnce s = (atom p).parse s) ∧
    (∀ {S O E : Type} (f : S → Run (PResult S O E)) (s : S), (Parser.ofFn f).parseOnce s = (Parser.ofFn f).parse s) :=
  ⟨fun _ => rfl, fun _ _ => rfl, fun _ => rfl, fun _ _ => rfl, fun _ _ => rfl, fun _ _ => rfl⟩

/-- Non-vacuity of C23: an iteration over chars, mapped, limited and collected. -/
example : Built (S := StrRef) CharLeaf (((theChar 'a').repeatIter.mapEach (fun _ => 1)).take 3).collectVec :=
  .collect _ _ (.take 3 (.mapEach _ (.repeat (.leaf (.the 'a')))))

end Parcom
