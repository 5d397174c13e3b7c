import Verif.Spec.Twin
import Verif.Lemmas.Run
/-!
# The same nesting does the same on two kinds of sequences

The work is done one way round (`Sim`: the first may also not return, which fixpoint induction needs); the other way
round is the same statement with the kinds exchanged.
-/
namespace Parcom
open Spec

namespace Run
variable {α β γ δ : Type}

/-- The first does what the second does, or does not return. -/
def Sim (x : Run α) (y : Run β) (Q : α → β → Prop) : Prop :=
  (∃ a b, x = pure a ∧ y = pure b ∧ Q a b) ∨ (∃ f, x = fault f ∧ y = fault f) ∨ x = diverge

theorem Rel.sim {x : Run α} {y : Run β} {Q : α → β → Prop} (h : Rel x y Q) : Sim x y Q := by
  rcases h with h | h | h
  · exact .inl h
  · exact .inr (.inl h)
  · exact .inr (.inr h.1)

theorem Rel.flip {x : Run α} {y : Run β} {Q : α → β → Prop} (h : Rel x y Q) : Rel y x (fun b a => Q a b) := by
  rcases h with ⟨a, b, h1, h2, h3⟩ | ⟨f, h1, h2⟩ | ⟨h1, h2⟩
  · exact .inl ⟨b, a, h2, h1, h3⟩
  · exact .inr (.inl ⟨f, h2, h1⟩)
  · exact .inr (.inr ⟨h2, h1⟩)

theorem Rel.mono {x : Run α} {y : Run β} {Q Q' : α → β → Prop} (h : Rel x y Q) (hQ : ∀ a b, Q a b → Q' a b) :
    Rel x y Q' := by
  rcases h with ⟨a, b, h1, h2, h3⟩ | h | h
  · exact .inl ⟨a, b, h1, h2, hQ _ _ h3⟩
  · exact .inr (.inl h)
  · exact .inr (.inr h)

theorem rel_of_sims {x : Run α} {y : Run β} {Q : α → β → Prop} {Q' : β → α → Prop} (h1 : Sim x y Q)
    (h2 : Sim y x Q') : Rel x y Q := by
  rcases h1 with h1 | h1 | h1
  · exact .inl h1
  · exact .inr (.inl h1)
  · rcases h2 with ⟨a, b, h3, h4, -⟩ | ⟨f, h3, h4⟩ | h3
    · rw [h1] at h4; simp at h4
    · rw [h1] at h4; simp at h4
    · exact .inr (.inr ⟨h1, h3⟩)

theorem sim_diverge {y : Run β} {Q : α → β → Prop} : Sim diverge y Q := .inr (.inr rfl)
theorem sim_fault {f : Fault} {Q : α → β → Prop} : Sim (fault f) (fault f) Q := .inr (.inl ⟨f, rfl, rfl⟩)
theorem sim_pure {a : α} {b : β} {Q : α → β → Prop} (h : Q a b) : Sim (pure a) (pure b) Q := .inl ⟨a, b, rfl, rfl, h⟩
theorem sim_mono {x : Run α} {y : Run β} {Q Q' : α → β → Prop} (h : Sim x y Q) (hQ : ∀ a b, Q a b → Q' a b) :
    Sim x y Q' := by
  rcases h with ⟨a, b, h1, h2, h3⟩ | h | h
  · exact .inl ⟨a, b, h1, h2, hQ _ _ h3⟩
  · exact .inr (.inl h)
  · exact .inr (.inr h)
theorem sim_bind {x : Run α} {y : Run β} {f : α → Run γ} {g : β → Run δ} {Q : α → β → Prop} {Q' : γ → δ → Prop}
    (h : Sim x y Q) (hf : ∀ a b, Q a b → Sim (f a) (g b) Q') : Sim (x >>= f) (y >>= g) Q' := by
  rcases h with ⟨a, b, rfl, rfl, h⟩ | ⟨e, rfl, rfl⟩ | rfl
  · simpa using hf a b h
  · exact sim_fault
  · exact sim_diverge
theorem sim_refl {x : Run α} : Sim x x Eq := by
  cases x using casesRun with
  | ret a => exact sim_pure rfl
  | fault f => exact sim_fault
  | diverge => exact sim_diverge

end Run

variable {S S' O O₀ O₁ E E₀ E₁ T T₀ T₁ σ σ₁ A C St : Type} [RewindSequence S] [RewindSequence S']

/-- Similar places reached in step from the given ones. -/
def Spec.TwinLaw.Both (L : TwinLaw S S') (s : S) (s' : S') (r : S) (r' : S') : Prop := L.Similar r r' ∧ L.From s s' r r'

/-- One way round of `SameParse`. -/
def SimParse (L : TwinLaw S S') (f : S → Run (PResult S O E)) (f' : S' → Run (PResult S' O E)) : Prop :=
  ∀ s s', L.Similar s s' → Run.Sim (f s) (f' s') (SameResult (L.Both s s'))

/-- The same for one step of an iteration; the states stay equal. -/
def SimIter (L : TwinLaw S S') (st : IterState σ S O E) (st' : IterState σ S' O E) : Prop :=
  st.init = st'.init ∧ ∀ x s s', L.Similar s s' →
    Run.Sim (st.next x s) (st'.next x s') (fun a b => SameResult (L.Both s s') a.1 b.1 ∧ a.2 = b.2)

variable {L : TwinLaw S S'}

theorem Spec.TwinLaw.both_trans {s r t : S} {s' r' t' : S'} (h1 : L.Both s s' r r') (h2 : L.Both r r' t t') :
    L.Both s s' t t' := ⟨h2.1, L.trans h1.2 h2.2⟩

theorem Spec.TwinLaw.both_refl {s : S} {s' : S'} (h : L.Similar s s') : L.Both s s' s s' := ⟨h, L.refl h⟩

theorem sim_rewind {s r : S} {s' r' : S'} (h : L.Similar s s') (h1 : L.Both s s' r r') :
    Run.Sim (RewindSequence.rewind r (anchor s)) (RewindSequence.rewind r' (anchor s')) (L.Both s s') :=
  (L.rewind h h1.1 h1.2).sim

omit [RewindSequence S] [RewindSequence S'] in
theorem Spec.SameResult.mono {Q Q' : S → S' → Prop} {a : PResult S O E} {b : PResult S' O E} (h : SameResult Q a b)
    (hQ : ∀ r r', Q r r' → Q' r r') : SameResult Q' a b := by
  cases h with
  | ok h => exact .ok (hQ _ _ h)
  | err h => exact .err (hQ _ _ h)

theorem sim_join {p : Parser S O₀ E₀} {q : Parser S O₁ E₁} {p' : Parser S' O₀ E₀} {q' : Parser S' O₁ E₁}
    (hp : SimParse L p.parse p'.parse) (hq : SimParse L q.parse q'.parse) :
    SimParse L (p.join q).parse (p'.join q').parse := by
  intro s s' hs
  refine Run.sim_bind (hp s s' hs) fun a b h => ?_
  cases h with
  | err h => exact Run.sim_pure (.err h)
  | ok h =>
    refine Run.sim_bind (hq _ _ h.1) fun a b h2 => ?_
    cases h2 with
    | err h2 => exact Run.sim_pure (.err (L.both_trans h h2))
    | ok h2 => exact Run.sim_pure (.ok (L.both_trans h h2))

theorem sim_or [ParseError E₀] [ParseError E₁] {p : Parser S O₀ E₀} {q : Parser S O₁ E₁} {p' : Parser S' O₀ E₀}
    {q' : Parser S' O₁ E₁} (hp : SimParse L p.parse p'.parse) (hq : SimParse L q.parse q'.parse) :
    SimParse L (p.or q).parse (p'.or q').parse := by
  intro s s' hs
  refine Run.sim_bind (hp s s' hs) fun a b h => ?_
  cases h with
  | ok h => exact Run.sim_pure (.ok h)
  | @err e u u' h =>
    show Run.Sim (if ¬ shouldTerminate e then _ else _) (if ¬ shouldTerminate e then _ else _) _
    by_cases he : shouldTerminate e = true
    · rw [if_neg (by simp [he]), if_neg (by simp [he])]
      exact Run.sim_pure (.err h)
    · rw [if_pos he, if_pos he]
      refine Run.sim_bind (sim_rewind hs h) fun t t' ht => ?_
      refine Run.sim_bind (hq _ _ ht.1) fun a b h2 => ?_
      cases h2 with
      | ok h2 => exact Run.sim_pure (.ok (L.both_trans ht h2))
      | @err e1 u u' h2 =>
        show Run.Sim (if ¬ shouldTerminate e1 then _ else _) (if ¬ shouldTerminate e1 then _ else _) _
        by_cases he1 : shouldTerminate e1 = true
        · rw [if_neg (by simp [he1]), if_neg (by simp [he1])]
          exact Run.sim_pure (.err (L.both_trans ht h2))
        · rw [if_pos he1, if_pos he1]
          exact Run.sim_pure (.err (L.both_trans ht h2))

theorem sim_optional [ParseError E] {p : Parser S O E} {p' : Parser S' O E} (hp : SimParse L p.parse p'.parse) :
    SimParse L p.optional.parse p'.optional.parse := by
  intro s s' hs
  refine Run.sim_bind (hp s s' hs) fun a b h => ?_
  cases h with
  | ok h => exact Run.sim_pure (.ok h)
  | @err e u u' h =>
    show Run.Sim (if ¬ shouldTerminate e then _ else _) (if ¬ shouldTerminate e then _ else _) _
    by_cases he : shouldTerminate e = true
    · rw [if_neg (by simp [he]), if_neg (by simp [he])]
      exact Run.sim_pure (.err h)
    · rw [if_pos he, if_pos he]
      exact Run.sim_bind (sim_rewind hs h) fun t t' ht => Run.sim_pure (.ok ht)

theorem sim_repeatLoop [ParseError E] {f : S → Run (PResult S O E)} {f' : S' → Run (PResult S' O E)}
    (hp : SimParse L f f') (buf : List O) (s : S) : ∀ s', L.Similar s s' →
      Run.Sim (repeatLoop f buf s) (repeatLoop f' buf s') (SameResult (L.Both s s')) := by
  revert buf s
  refine repeatLoop.fixpoint_induct (parse := f) (motive := fun g => ∀ buf s s', L.Similar s s' →
    Run.Sim (g buf s) (repeatLoop f' buf s') (SameResult (L.Both s s'))) ?_ ?_
  · exact Run.admissible_fun₂ (fun buf s r => ∀ s', L.Similar s s' →
      Run.Sim r (repeatLoop f' buf s') (SameResult (L.Both s s'))) fun _ _ _ _ => Run.sim_diverge
  · intro g ih buf s s' hs
    rw [repeatLoop]
    refine Run.sim_bind (hp s s' hs) fun a b h => ?_
    cases h with
    | ok h => exact Run.sim_mono (ih _ _ _ h.1) fun a b h2 => h2.mono fun r r' h3 => L.both_trans h h3
    | @err e u u' h =>
      show Run.Sim (if shouldTerminate e then _ else _) (if shouldTerminate e then _ else _) _
      by_cases he : shouldTerminate e = true
      · rw [if_pos he, if_pos he]; exact Run.sim_pure (.err h)
      · rw [if_neg he, if_neg he]
        exact Run.sim_bind (sim_rewind hs h) fun t t' ht => Run.sim_pure (.ok ht)

/-- Relabelling the results of parsers doing the same gives parsers doing the same. -/
theorem sim_relabel {f : S → Run (PResult S O E)} {f' : S' → Run (PResult S' O E)} (hp : SimParse L f f')
    {g : PResult S O E → Run (PResult S T E₁)} {g' : PResult S' O E → Run (PResult S' T E₁)}
    (hg : ∀ (Q : S → S' → Prop) a b, SameResult Q a b → Run.Sim (g a) (g' b) (SameResult Q)) :
    SimParse L (fun s => f s >>= g) (fun s => f' s >>= g') :=
  fun s s' hs => Run.sim_bind (hp s s' hs) fun a b h => hg _ a b h

/-- What the loop of `bin_expr` at precedence 0 can return on both sides. -/
def SameStop (L : TwinLaw S S') {Op ETerm EOp Expr : Type} (s : S) (s' : S')
    (a : PResult S (Expr × StopReason S Op EOp ETerm) (Either EOp ETerm))
    (b : PResult S' (Expr × StopReason S' Op EOp ETerm) (Either EOp ETerm)) : Prop :=
  (∃ e reason r r', a = .ok (e, .error reason) r ∧ b = .ok (e, .error reason) r' ∧ L.Both s s' r r') ∨
  (∃ e u u', a = .err e u ∧ b = .err e u' ∧ L.Both s s' u.val u'.val)

theorem sim_binExprLoop {Op ETerm EOp Expr : Type} [Operator Op] [ParseError EOp] [ParseError ETerm] (b : Build)
    {term : S → Run (PResult S T ETerm)} {op : S → Run (PResult S Op EOp)}
    {term' : S' → Run (PResult S' T ETerm)} {op' : S' → Run (PResult S' Op EOp)}
    (mk : Expr → Op → Expr → Expr) (ofTerm : T → Expr) (ht : SimParse L term term') (ho : SimParse L op op')
    (stack : List (Expr × Op)) (rhs : Expr) (s : S) : ∀ s', L.Similar s s' →
    Run.Sim (binExprLoop b term op mk ofTerm 0 stack rhs s) (binExprLoop b term' op' mk ofTerm 0 stack rhs s')
      (SameStop L s s') := by
  revert stack rhs s
  refine binExprLoop.fixpoint_induct (b := b) (parserTerm := term) (parserOp := op) (mk := mk) (ofTerm := ofTerm)
    (prec := 0) (motive := fun g => ∀ stack rhs s s', L.Similar s s' →
      Run.Sim (g stack rhs s) (binExprLoop b term' op' mk ofTerm 0 stack rhs s')
      (SameStop L s s')) ?_ ?_
  · exact Run.admissible_fun₃ (fun stack rhs s x => ∀ s', L.Similar s s' →
      Run.Sim x (binExprLoop b term' op' mk ofTerm 0 stack rhs s')
      (SameStop L s s')) fun _ _ _ _ _ => Run.sim_diverge
  · intro g ih stack rhs s s' hs
    rw [binExprLoop]
    refine Run.sim_bind (ho s s' hs) fun a b h => ?_
    cases h with
    | @ok o r r' h =>
      show Run.Sim (if precedence o ≥ 0 then _ else _) (if precedence o ≥ 0 then _ else _) _
      rw [if_pos (Nat.zero_le _), if_pos (Nat.zero_le _)]
      refine Run.sim_bind (ht _ _ h.1) fun a b h2 => ?_
      cases h2 with
      | @ok t r1 r1' h2 =>
        refine Run.sim_bind Run.sim_refl fun a b hab => ?_
        subst hab
        refine Run.sim_mono (ih _ _ _ _ h2.1) fun a b h3 => ?_
        have h12 := L.both_trans h h2
        rcases h3 with ⟨e, reason, r, r', h4, h5, h6⟩ | ⟨e, u, u', h4, h5, h6⟩
        · exact .inl ⟨e, reason, r, r', h4, h5, L.both_trans h12 h6⟩
        · exact .inr ⟨e, u, u', h4, h5, L.both_trans h12 h6⟩
      | @err e u u' h2 =>
        have h12 := L.both_trans h h2
        show Run.Sim (if ¬ shouldTerminate e then _ else _) (if ¬ shouldTerminate e then _ else _) _
        by_cases he : shouldTerminate e = true
        · rw [if_neg (by simp [he]), if_neg (by simp [he])]
          exact Run.sim_pure (.inr ⟨_, _, _, rfl, rfl, h12⟩)
        · rw [if_pos he, if_pos he]
          exact Run.sim_bind (sim_rewind hs h12) fun t t' ht =>
            Run.sim_pure (.inl ⟨_, _, _, _, rfl, rfl, ht⟩)
    | @err e u u' h =>
      show Run.Sim (if shouldTerminate e then _ else _) (if shouldTerminate e then _ else _) _
      by_cases he : shouldTerminate e = true
      · rw [if_pos he, if_pos he]; exact Run.sim_pure (.inr ⟨_, _, _, rfl, rfl, h⟩)
      · rw [if_neg he, if_neg he]
        exact Run.sim_bind (sim_rewind hs h) fun t t' ht =>
          Run.sim_pure (.inl ⟨_, _, _, _, rfl, rfl, ht⟩)

theorem sim_binExpr {Op ETerm EOp Expr : Type} [Operator Op] [ParseError EOp] [ParseError ETerm] (b : Build)
    {term : Parser S T ETerm} {op : Parser S Op EOp} {term' : Parser S' T ETerm} {op' : Parser S' Op EOp}
    (mk : Expr → Op → Expr → Expr) (ofTerm : T → Expr) (ht : SimParse L term.parse term'.parse)
    (ho : SimParse L op.parse op'.parse) :
    SimParse L (binExpr b term op mk ofTerm).parse (binExpr b term' op' mk ofTerm).parse := by
  intro s s' hs
  refine Run.sim_bind (Q := SameStop L s s') ?_ ?_
  · refine Run.sim_bind (ht s s' hs) fun a b h => ?_
    cases h with
    | err h => exact Run.sim_pure (.inr ⟨_, _, _, rfl, rfl, h⟩)
    | ok h =>
      refine Run.sim_mono (sim_binExprLoop _ mk ofTerm ht ho _ _ _ _ h.1) fun a b h3 => ?_
      rcases h3 with ⟨e, reason, r, r', h4, h5, h6⟩ | ⟨e, u, u', h4, h5, h6⟩
      · exact .inl ⟨e, reason, r, r', h4, h5, L.both_trans h h6⟩
      · exact .inr ⟨e, u, u', h4, h5, L.both_trans h h6⟩
  · rintro a b (⟨e, reason, r, r', rfl, rfl, h6⟩ | ⟨e, u, u', rfl, rfl, h6⟩)
    · exact Run.sim_pure (.ok h6)
    · exact Run.sim_pure (.err h6)

/-! ### Iterations -/

theorem simIter_optional [ParseError E] {f : S → Run (PResult S O E)} {f' : S' → Run (PResult S' O E)}
    (hf : SimParse L f f') :
    SimIter L { init := true, next := optionalNext f } { init := true, next := optionalNext f' } := by
  refine ⟨rfl, fun x s s' hs => ?_⟩
  cases x with
  | false => exact Run.sim_pure ⟨.ok (L.both_refl hs), rfl⟩
  | true =>
    refine Run.sim_bind (hf s s' hs) fun a b h => ?_
    cases h with
    | ok h => exact Run.sim_pure ⟨.ok h, rfl⟩
    | @err e u u' h =>
      show Run.Sim (if shouldTerminate e then _ else _) (if shouldTerminate e then _ else _) _
      by_cases he : shouldTerminate e = true
      · rw [if_pos he, if_pos he]; exact Run.sim_pure ⟨.err h, rfl⟩
      · rw [if_neg he, if_neg he]
        exact Run.sim_bind (sim_rewind hs h) fun t t' ht => Run.sim_pure ⟨.ok ht, rfl⟩

theorem simIter_repeat [ParseError E] {f : S → Run (PResult S O E)} {f' : S' → Run (PResult S' O E)}
    (hf : SimParse L f f') :
    SimIter L { init := (), next := repeatNext f } { init := (), next := repeatNext f' } := by
  refine ⟨rfl, fun x s s' hs => ?_⟩
  refine Run.sim_bind (hf s s' hs) fun a b h => ?_
  cases h with
  | ok h => exact Run.sim_pure ⟨.ok h, rfl⟩
  | @err e u u' h =>
    show Run.Sim (if shouldTerminate e then _ else _) (if shouldTerminate e then _ else _) _
    by_cases he : shouldTerminate e = true
    · rw [if_pos he, if_pos he]; exact Run.sim_pure ⟨.err h, rfl⟩
    · rw [if_neg he, if_neg he]
      exact Run.sim_bind (sim_rewind hs h) fun t t' ht => Run.sim_pure ⟨.ok ht, rfl⟩

theorem simIter_mapEach {st : IterState σ S O E} {st' : IterState σ S' O E} (h : SimIter L st st') (f : O → T) :
    SimIter L (st.mapEach f) (st'.mapEach f) := by
  refine ⟨h.1, fun x s s' hs => Run.sim_bind (h.2 x s s' hs) ?_⟩
  rintro ⟨a, x1⟩ ⟨b, x2⟩ ⟨h1, rfl⟩
  cases h1 with
  | ok h => exact Run.sim_pure ⟨.ok h, rfl⟩
  | err h => exact Run.sim_pure ⟨.err h, rfl⟩

theorem simIter_mapWhile {st : IterState σ S O E} {st' : IterState σ S' O E} (h : SimIter L st st') (f : O → Option T) :
    SimIter L (st.mapWhile f) (st'.mapWhile f) := by
  refine ⟨h.1, fun x s s' hs => Run.sim_bind (h.2 x s s' hs) ?_⟩
  rintro ⟨a, x1⟩ ⟨b, x2⟩ ⟨h1, rfl⟩
  cases h1 with
  | ok h => exact Run.sim_pure ⟨.ok h, rfl⟩
  | err h => exact Run.sim_pure ⟨.err h, rfl⟩

theorem simIter_scan {st : IterState σ S O E} {st' : IterState σ S' O E} (h : SimIter L st st') (init : St)
    (f : St → O → T × St) : SimIter L (st.scan init f) (st'.scan init f) := by
  refine ⟨Prod.ext h.1 rfl, fun ⟨x, y⟩ s s' hs => Run.sim_bind (h.2 x s s' hs) ?_⟩
  rintro ⟨a, x1⟩ ⟨b, x2⟩ ⟨h1, rfl⟩
  cases h1 with
  | @ok v _ _ h =>
    cases v with
    | none => exact Run.sim_pure ⟨.ok h, rfl⟩
    | some v => exact Run.sim_pure ⟨.ok h, rfl⟩
  | err h => exact Run.sim_pure ⟨.err h, rfl⟩

theorem simIter_take {st : IterState σ S O E} {st' : IterState σ S' O E} (h : SimIter L st st') (n : Nat) :
    SimIter L (st.take n) (st'.take n) := by
  refine ⟨Prod.ext h.1 rfl, fun ⟨x, left⟩ s s' hs => ?_⟩
  show Run.Sim (if left = 0 then _ else _) (if left = 0 then _ else _) _
  by_cases hl : left = 0
  · rw [if_pos hl, if_pos hl]
    exact Run.sim_pure ⟨.ok (L.both_refl hs), rfl⟩
  · rw [if_neg hl, if_neg hl]
    refine Run.sim_bind (h.2 x s s' hs) ?_
    rintro ⟨a, x1⟩ ⟨b, x2⟩ ⟨h1, rfl⟩
    cases h1 with
    | @ok v _ _ h =>
      cases v with
      | none => exact Run.sim_pure ⟨.ok h, rfl⟩
      | some v => exact Run.sim_pure ⟨.ok h, rfl⟩
    | err h => exact Run.sim_pure ⟨.err h, rfl⟩

theorem simIter_tryMapEach [ParseError E₁] {st : IterState σ S O E} {st' : IterState σ S' O E} (h : SimIter L st st')
    (into : E → E₁) (f : O → Except E₁ T) : SimIter L (st.tryMapEach into f) (st'.tryMapEach into f) := by
  refine ⟨h.1, fun x s s' hs => Run.sim_bind (h.2 x s s' hs) ?_⟩
  rintro ⟨a, x1⟩ ⟨b, x2⟩ ⟨h1, rfl⟩
  cases h1 with
  | @ok v _ _ h =>
    cases v with
    | none => exact Run.sim_pure ⟨.ok h, rfl⟩
    | some v =>
      cases hv : f v with
      | ok w => simp only [hv]; exact Run.sim_pure ⟨.ok h, rfl⟩
      | error e =>
        simp only [hv]
        by_cases he : shouldTerminate e = true
        · rw [if_pos he, if_pos he]; exact Run.sim_pure ⟨.err h, rfl⟩
        · rw [if_neg he, if_neg he]; exact Run.sim_pure ⟨.ok h, rfl⟩
  | err h => exact Run.sim_pure ⟨.err h, rfl⟩

theorem sim_foldLoop {st : IterState σ S O E} {st' : IterState σ S' O E} (h : SimIter L st st') (f : A → O → A)
    (x : σ) (acc : A) (s : S) : ∀ s', L.Similar s s' →
      Run.Sim (foldLoop st f x acc s) (foldLoop st' f x acc s') (SameResult (L.Both s s')) := by
  revert x acc s
  refine foldLoop.fixpoint_induct (st := st) (f := f) (motive := fun g => ∀ x acc s s', L.Similar s s' →
    Run.Sim (g x acc s) (foldLoop st' f x acc s') (SameResult (L.Both s s'))) ?_ ?_
  · exact Run.admissible_fun₃ (fun x acc s r => ∀ s', L.Similar s s' →
      Run.Sim r (foldLoop st' f x acc s') (SameResult (L.Both s s'))) fun _ _ _ _ _ => Run.sim_diverge
  · intro g ih x acc s s' hs
    rw [foldLoop]
    refine Run.sim_bind (h.2 x s s' hs) ?_
    rintro ⟨a, x1⟩ ⟨b, x2⟩ ⟨h1, rfl⟩
    cases h1 with
    | @ok v _ _ h =>
      cases v with
      | none => exact Run.sim_pure (.ok h)
      | some v => exact Run.sim_mono (ih _ _ _ _ h.1) fun a b h2 => h2.mono fun r r' h3 => L.both_trans h h3
    | err h => exact Run.sim_pure (.err h)

theorem sim_collectLoop {st : IterState σ S O E} {st' : IterState σ S' O E} (h : SimIter L st st') (f : C → O → C)
    (x : σ) (acc : C) (s : S) : ∀ s', L.Similar s s' →
      Run.Sim (collectLoop st f x acc s) (collectLoop st' f x acc s') (SameResult (L.Both s s')) := by
  revert x acc s
  refine collectLoop.fixpoint_induct (st := st) (extend := f) (motive := fun g => ∀ x acc s s', L.Similar s s' →
    Run.Sim (g x acc s) (collectLoop st' f x acc s') (SameResult (L.Both s s'))) ?_ ?_
  · exact Run.admissible_fun₃ (fun x acc s r => ∀ s', L.Similar s s' →
      Run.Sim r (collectLoop st' f x acc s') (SameResult (L.Both s s'))) fun _ _ _ _ _ => Run.sim_diverge
  · intro g ih x acc s s' hs
    rw [collectLoop]
    refine Run.sim_bind (h.2 x s s' hs) ?_
    rintro ⟨a, x1⟩ ⟨b, x2⟩ ⟨h1, rfl⟩
    cases h1 with
    | @ok v _ _ h =>
      cases v with
      | none => exact Run.sim_bind (sim_rewind hs h) fun t t' ht => Run.sim_pure (.ok ht)
      | some v => exact Run.sim_mono (ih _ _ _ _ h.1) fun a b h2 => h2.mono fun r r' h3 => L.both_trans h h3
    | err h => exact Run.sim_bind (sim_rewind hs h) fun t t' ht => Run.sim_pure (.ok ht)

mutual
theorem built_sim {Leaf : TwinClass S S'}
    (hl : ∀ {O E : Type} {p : Parser S O E} {p' : Parser S' O E}, Leaf p p' → SimParse L p.parse p'.parse)
    {O E : Type} {p : Parser S O E} {p' : Parser S' O E} : BuiltTwin Leaf p p' → SimParse L p.parse p'.parse
  | .leaf h => hl h
  | .join h1 h2 => sim_join (built_sim hl h1) (built_sim hl h2)
  | @BuiltTwin.or _ _ _ _ _ _ _ _ _ _ _ _ _ _ _ h1 h2 => sim_or (built_sim hl h1) (built_sim hl h2)
  | @BuiltTwin.optional _ _ _ _ _ _ _ _ _ _ h => sim_optional (built_sim hl h)
  | @BuiltTwin.repeat _ _ _ _ _ _ _ _ _ _ h => fun s s' hs => sim_repeatLoop (built_sim hl h) [] s s' hs
  | .map f h => sim_relabel (built_sim hl h) fun Q a b hab => by
      cases hab with
      | ok h => exact Run.sim_pure (.ok h)
      | err h => exact Run.sim_pure (.err h)
  | .mapErr f h => sim_relabel (built_sim hl h) fun Q a b hab => by
      cases hab with
      | ok h => exact Run.sim_pure (.ok h)
      | err h => exact Run.sim_pure (.err h)
  | .andThen into f h => sim_relabel (built_sim hl h) fun Q a b hab => by
      cases hab with
      | @ok v _ _ h => cases hv : f v <;> simp only [hv]
                       · exact Run.sim_pure (.err h)
                       · exact Run.sim_pure (.ok h)
      | err h => exact Run.sim_pure (.err h)
  | .unify f₀ f₁ h => sim_relabel (built_sim hl h) fun Q a b hab => by
      cases hab with
      | ok h => exact Run.sim_pure (.ok h)
      | err h => exact Run.sim_pure (.err h)
  | .unifyErr f₀ f₁ h => sim_relabel (built_sim hl h) fun Q a b hab => by
      cases hab with
      | ok h => exact Run.sim_pure (.ok h)
      | err h => exact Run.sim_pure (.err h)
  | @BuiltTwin.asRef _ _ _ _ _ _ _ p p' h => (built_sim hl h : SimParse L p.parse p'.parse)
  | @BuiltTwin.boxed _ _ _ _ _ _ _ p p' h => (built_sim hl h : SimParse L p.parse p'.parse)
  | @BuiltTwin.binExpr _ _ _ _ _ _ _ _ _ _ _ _ _ b _ _ _ _ mk ofTerm h1 h2 =>
      sim_binExpr b mk ofTerm (built_sim hl h1) (built_sim hl h2)
  | @BuiltTwin.fold _ _ _ _ _ _ _ _ _ _ p p' init f h => fun s s' hs => by
      have h1 := builtIter_sim hl h
      show Run.Sim (foldLoop p.iter f p.iter.init init s) (foldLoop p'.iter f p'.iter.init init s') _
      rw [← h1.1]
      exact sim_foldLoop h1 f _ init s s' hs
  | @BuiltTwin.collect _ _ _ _ _ _ _ _ _ _ p p' dflt extend h => fun s s' hs => by
      have h1 := builtIter_sim hl h
      show Run.Sim (collectLoop p.iter extend p.iter.init dflt s) (collectLoop p'.iter extend p'.iter.init dflt s') _
      rw [← h1.1]
      exact sim_collectLoop h1 extend _ dflt s s' hs

theorem builtIter_sim {Leaf : TwinClass S S'}
    (hl : ∀ {O E : Type} {p : Parser S O E} {p' : Parser S' O E}, Leaf p p' → SimParse L p.parse p'.parse)
    {σ σ₁ O E : Type} {p : IterParser σ σ₁ S O E} {p' : IterParser σ σ₁ S' O E} :
    BuiltTwinIter Leaf p p' → SimIter L p.iter p'.iter
  | @BuiltTwinIter.optional _ _ _ _ _ _ _ _ _ _ h => simIter_optional (built_sim hl h)
  | @BuiltTwinIter.repeat _ _ _ _ _ _ _ _ _ _ h => simIter_repeat (built_sim hl h)
  | @BuiltTwinIter.byRef _ _ _ _ _ _ _ _ _ p p' h => (builtIter_sim hl h : SimIter L p.iter p'.iter)
  | .mapEach f h => simIter_mapEach (builtIter_sim hl h) f
  | .mapWhile f h => simIter_mapWhile (builtIter_sim hl h) f
  | .scan init f h => simIter_scan (builtIter_sim hl h) init f
  | .take n h => simIter_take (builtIter_sim hl h) n
  | @BuiltTwinIter.tryMapEach _ _ _ _ _ _ _ _ _ _ _ _ _ _ into f h => simIter_tryMapEach (builtIter_sim hl h) into f
end

mutual
theorem Spec.BuiltTwin.flip {Leaf : TwinClass S S'} {O E : Type} {p : Parser S O E} {p' : Parser S' O E} :
    BuiltTwin Leaf p p' → BuiltTwin (fun {_ _} q' q => Leaf q q') p' p
  | .leaf h => .leaf h
  | .join h1 h2 => .join h1.flip h2.flip
  | @BuiltTwin.or _ _ _ _ _ _ _ _ _ _ _ _ _ _ _ h1 h2 => .or h1.flip h2.flip
  | @BuiltTwin.optional _ _ _ _ _ _ _ _ _ _ h => .optional h.flip
  | @BuiltTwin.repeat _ _ _ _ _ _ _ _ _ _ h => .repeat h.flip
  | .map f h => .map f h.flip
  | .mapErr f h => .mapErr f h.flip
  | .andThen into f h => .andThen into f h.flip
  | .unify f₀ f₁ h => .unify f₀ f₁ h.flip
  | .unifyErr f₀ f₁ h => .unifyErr f₀ f₁ h.flip
  | .asRef h => .asRef h.flip
  | .boxed h => .boxed h.flip
  | @BuiltTwin.binExpr _ _ _ _ _ _ _ _ _ _ _ _ _ b _ _ _ _ mk ofTerm h1 h2 => .binExpr b mk ofTerm h1.flip h2.flip
  | .fold init f h => .fold init f h.flip
  | .collect dflt extend h => .collect dflt extend h.flip

theorem Spec.BuiltTwinIter.flip {Leaf : TwinClass S S'} {σ σ₁ O E : Type} {p : IterParser σ σ₁ S O E}
    {p' : IterParser σ σ₁ S' O E} : BuiltTwinIter Leaf p p' → BuiltTwinIter (fun {_ _} q' q => Leaf q q') p' p
  | @BuiltTwinIter.optional _ _ _ _ _ _ _ _ _ _ h => .optional h.flip
  | @BuiltTwinIter.repeat _ _ _ _ _ _ _ _ _ _ h => .repeat h.flip
  | .byRef h => .byRef h.flip
  | .mapEach f h => .mapEach f h.flip
  | .mapWhile f h => .mapWhile f h.flip
  | .scan init f h => .scan init f h.flip
  | .take n h => .take n h.flip
  | @BuiltTwinIter.tryMapEach _ _ _ _ _ _ _ _ _ _ _ _ _ _ into f h => .tryMapEach into f h.flip
end

/-- The law with the kinds exchanged. -/
def Spec.TwinLaw.flip (L : TwinLaw S S') : TwinLaw S' S where
  Similar s' s := L.Similar s s'
  From s' s r' r := L.From s s' r r'
  refl h := L.refl h
  trans h1 h2 := L.trans h1 h2
  rewind h1 h2 h3 := (L.rewind h1 h2 h3).flip

omit [RewindSequence S] [RewindSequence S'] in
theorem Spec.SameResult.flip {Q : S → S' → Prop} {a : PResult S O E} {b : PResult S' O E} (h : SameResult Q a b) :
    SameResult (fun r' r => Q r r') b a := by
  cases h with
  | ok h => exact .ok h
  | err h => exact .err h

/-- The same nesting over leaves that do the same does the same. -/
theorem built_same {Leaf : TwinClass S S'}
    (hl : ∀ {O E : Type} {p : Parser S O E} {p' : Parser S' O E}, Leaf p p' → SameParse L p.parse p'.parse)
    {p : Parser S O E} {p' : Parser S' O E} (h : BuiltTwin Leaf p p') : SameParse L p.parse p'.parse := by
  intro s s' hs
  refine Run.rel_of_sims (Q' := fun b a => SameResult (L.flip.Both s' s) b a)
    (built_sim (L := L) (fun hp s s' hs => (hl hp s s' hs).sim) h s s' hs) ?_
  refine built_sim (L := L.flip) (fun hp s s' hs => ?_) (BuiltTwin.flip h) s' s hs
  exact ((hl hp s' s hs).flip.mono fun _ _ h => h.flip).sim

end Parcom
