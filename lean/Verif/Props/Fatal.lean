import Verif.Spec.Fatal
import Verif.Lemmas.Twin
import Verif.Props.Nesting
/-!
# C21, C22: fatal errors
-/
namespace Parcom
open Spec

variable {S O O₀ O₁ E E₀ E₁ T T₀ T₁ σ σ₁ A C St : Type}

theorem lastFatal_cons {t tr : List Bool} {b : Bool} (ht : true ∉ t) (h : LastFatal tr b) : LastFatal (t ++ tr) b := by
  rcases h with ⟨h1, h2⟩ | ⟨h1, e, h2, h3⟩
  · exact .inl ⟨h1, by simp [ht, h2]⟩
  · exact .inr ⟨h1, t ++ e, by simp [h2], by simp [ht, h3]⟩

theorem lastFatal_nil : LastFatal [] false := .inl ⟨rfl, by simp⟩

theorem Spec.LastFatal.clean {tr : List Bool} (h : LastFatal tr false) : true ∉ tr := by
  rcases h with ⟨_, h⟩ | ⟨h, _⟩
  · exact h
  · simp at h

section
variable [RewindSequence S] [Lg : Logging S]

/-- Between `s` and the result, the log grew by calls that obey the law. -/
def Obeys (i : ParseError E) (s : S) (res : PResult S O E) : Prop :=
  ∃ tr, Lg.log (loc res) = Lg.log s ++ tr ∧ LastFatal tr (isFatal res)

/-- Every result obeys the law. -/
def Obedient (i : ParseError E) (f : S → Run (PResult S O E)) : Prop := ∀ s, (f s).Ensures (Obeys i s)

/-- Every step obeys the law. -/
def ObedientIter (i : ParseError E) (st : IterState σ S O E) : Prop :=
  ∀ x s, (st.next x s).Ensures (fun res => Obeys i s res.1)

theorem Obeys.trans {i : ParseError E} {j : ParseError E₁} {s : S} {a : PResult S O E} {b : PResult S T E₁}
    (h1 : Obeys i s a) (ha : isFatal a = false) (h2 : Obeys j (loc a) b) : Obeys j s b := by
  obtain ⟨t1, h1, h1'⟩ := h1
  obtain ⟨t2, h2, h2'⟩ := h2
  rw [ha] at h1'
  exact ⟨t1 ++ t2, by rw [h2, h1, List.append_assoc], lastFatal_cons (Spec.LastFatal.clean h1') h2'⟩

/-- Another result at the same place, as fatal as the first. -/
theorem Obeys.relabel {i : ParseError E} {j : ParseError E₁} {s : S} {a : PResult S O E} {b : PResult S T E₁}
    (h : Obeys i s a) (hl : Lg.log (loc b) = Lg.log (loc a)) (hf : isFatal b = isFatal a) : Obeys j s b := by
  obtain ⟨t, h1, h2⟩ := h
  exact ⟨t, by rw [hl, h1], by rw [hf]; exact h2⟩

theorem Obeys.refl {i : ParseError E} {s : S} {v : O} : Obeys i s (.ok v s : PResult S O E) :=
  ⟨[], by simp [loc], lastFatal_nil⟩

/-- After a recoverable failure and a rewind, a success at the rewound place. -/
theorem Obeys.rewound {i : ParseError E} {j : ParseError E₁} {s t : S} {a : PResult S O E} {v : T}
    (h : Obeys i s a) (ha : isFatal a = false) (hl : Lg.log t = Lg.log (loc a)) :
    Obeys j s (.ok v t : PResult S T E₁) :=
  h.relabel hl (by rw [ha]; rfl)

theorem log_rewind {u : UnknownLocation S} {a : RewindSequence.Anchor S} {t : S} (h : u.rewind a = pure t) :
    Lg.log t = Lg.log u.val := Lg.rewind h

theorem obedient_join {i₀ : ParseError E₀} {i₁ : ParseError E₁} {p : Parser S O₀ E₀} {q : Parser S O₁ E₁}
    (hp : Obedient i₀ p.parse) (hq : Obedient i₁ q.parse) : Obedient inferInstance (p.join q).parse := by
  intro s
  refine Run.ensures_bind fun res h => ?_
  have h1 := hp s _ h
  cases res with
  | err e u => exact Run.ensures_pure.mpr (h1.relabel rfl rfl)
  | ok v r =>
    refine Run.ensures_bind fun res h => ?_
    have h2 := h1.trans rfl (hq r _ h)
    cases res with
    | err e u => exact Run.ensures_pure.mpr (h2.relabel rfl rfl)
    | ok w r' => exact Run.ensures_pure.mpr (h2.relabel rfl rfl)

theorem obedient_or {i₀ : ParseError E₀} {i₁ : ParseError E₁} {p : Parser S O₀ E₀} {q : Parser S O₁ E₁}
    (hp : Obedient i₀ p.parse) (hq : Obedient i₁ q.parse) : Obedient inferInstance (p.or q).parse := by
  intro s
  refine Run.ensures_bind fun res h => ?_
  have h1 := hp s _ h
  cases res with
  | ok v r => exact Run.ensures_pure.mpr (h1.relabel rfl rfl)
  | err e u =>
    refine Run.ensures_ite (fun he => ?_) (fun he => Run.ensures_pure.mpr (h1.relabel rfl rfl))
    have he : shouldTerminate e = false := by simpa using he
    refine Run.ensures_bind fun t ht => ?_
    have h2 : Obeys i₀ s (.ok () t : PResult S Unit E₀) := h1.rewound he (log_rewind ht)
    refine Run.ensures_bind fun res h => ?_
    have h3 := h2.trans rfl (hq t _ h)
    cases res with
    | ok v r => exact Run.ensures_pure.mpr (h3.relabel rfl rfl)
    | err e1 u1 =>
      refine Run.ensures_ite (fun he1 => Run.ensures_pure.mpr (h3.relabel rfl ?_))
        (fun he1 => Run.ensures_pure.mpr (h3.relabel rfl rfl))
      show (shouldTerminate e || shouldTerminate e1) = shouldTerminate e1
      rw [he]; rfl

theorem obedient_optional {i : ParseError E} {p : Parser S O E} (hp : Obedient i p.parse) :
    Obedient i p.optional.parse := by
  intro s
  refine Run.ensures_bind fun res h => ?_
  have h1 := hp s _ h
  cases res with
  | ok v r => exact Run.ensures_pure.mpr (h1.relabel rfl rfl)
  | err e u =>
    refine Run.ensures_ite (fun he => ?_) (fun he => Run.ensures_pure.mpr (h1.relabel rfl rfl))
    have he : shouldTerminate e = false := by simpa using he
    exact Run.ensures_bind fun t ht => Run.ensures_pure.mpr (h1.rewound he (log_rewind ht))

theorem obedient_repeat {i : ParseError E} {p : Parser S O E} (hp : Obedient i p.parse) :
    Obedient i p.repeat.parse := by
  suffices h : ∀ buf s, (repeatLoop p.parse buf s).Ensures (Obeys i s) from fun s => h [] s
  refine repeatLoop.fixpoint_induct (parse := p.parse) (motive := fun g => ∀ buf s, Run.Ensures (g buf s) (Obeys i s))
    (Run.admissible_ensures₂ _) ?_
  intro g ih buf s
  refine Run.ensures_bind fun res h => ?_
  have h1 := hp s _ h
  cases res with
  | ok v r => intro res hres; exact h1.trans rfl (ih _ r res hres)
  | err e u =>
    refine Run.ensures_ite (fun he => Run.ensures_pure.mpr (h1.relabel rfl rfl)) (fun he => ?_)
    have he : shouldTerminate e = false := by simpa using he
    exact Run.ensures_bind fun t ht => Run.ensures_pure.mpr (h1.rewound he (log_rewind ht))

theorem obedient_relabel {i : ParseError E} {j : ParseError E₁} {p : S → Run (PResult S O E)} (hp : Obedient i p)
    (f : PResult S O E → Run (PResult S T E₁))
    (hf : ∀ res, ∃ res', f res = pure res' ∧ loc res' = loc res ∧ isFatal res' = isFatal res) :
    Obedient j (fun s => p s >>= f) := by
  intro s
  refine Run.ensures_bind fun res h => ?_
  obtain ⟨res', h1, h2, h3⟩ := hf res
  rw [h1, Run.ensures_pure]
  exact (hp s _ h).relabel (by rw [h2]) h3

theorem obedient_andThen {i : ParseError E} {j : ParseError E₁} {p : Parser S O E} (into : E → E₁) (f : O → Except E₁ T)
    (hi : ∀ e, j.shouldTerminate (into e) = i.shouldTerminate e)
    (hf : ∀ v e, f v = .error e → j.shouldTerminate e = false) (hp : Obedient i p.parse) :
    Obedient j (p.andThen into f).parse := by
  refine obedient_relabel hp _ fun res => ?_
  cases res with
  | ok v r =>
    cases hv : f v with
    | ok w => simp only [hv]; exact ⟨_, rfl, rfl, rfl⟩
    | error e => simp only [hv]; exact ⟨_, rfl, rfl, hf v e hv⟩
  | err e u => exact ⟨_, rfl, rfl, hi e⟩

theorem obedient_binExprLoop {Op ETerm EOp Expr : Type} [Operator Op] {i : ParseError EOp} {j : ParseError ETerm}
    (b : Build) {term : S → Run (PResult S T ETerm)} {op : S → Run (PResult S Op EOp)} (mk : Expr → Op → Expr → Expr)
    (ofTerm : T → Expr) (prec : Nat) (ht : Obedient j term) (ho : Obedient i op) (stack : List (Expr × Op)) (rhs : Expr)
    (s : S) : (binExprLoop b term op mk ofTerm prec stack rhs s).Ensures (Obeys inferInstance s) := by
  revert stack rhs s
  refine binExprLoop.fixpoint_induct (b := b) (parserTerm := term) (parserOp := op) (mk := mk) (ofTerm := ofTerm)
    (prec := prec) (motive := fun g => ∀ stack rhs s, Run.Ensures (g stack rhs s) (Obeys inferInstance s))
    (Run.admissible_ensures₃ _) ?_
  intro g ih stack rhs s
  refine Run.ensures_bind fun res h => ?_
  have h1 := ho s _ h
  cases res with
  | ok o r =>
    refine Run.ensures_ite (fun _ => ?_) (fun _ => Run.ensures_pure.mpr (h1.relabel rfl rfl))
    refine Run.ensures_bind fun res h => ?_
    have h2 := h1.trans rfl (ht r _ h)
    cases res with
    | ok t r' =>
      refine Run.ensures_bind fun ⟨st, rhs'⟩ _ => ?_
      intro res hres
      exact h2.trans rfl (ih _ _ r' res hres)
    | err e u =>
      refine Run.ensures_ite (fun he => ?_) (fun _ => Run.ensures_pure.mpr (h2.relabel rfl rfl))
      have he : shouldTerminate e = false := by simpa using he
      exact Run.ensures_bind fun t ht => Run.ensures_pure.mpr (h2.rewound he (log_rewind ht))
  | err e u =>
    refine Run.ensures_ite (fun _ => Run.ensures_pure.mpr (h1.relabel rfl rfl)) (fun he => ?_)
    have he : shouldTerminate e = false := by simpa using he
    exact Run.ensures_bind fun t ht => Run.ensures_pure.mpr (h1.rewound he (log_rewind ht))

theorem obedient_binExpr {Op ETerm EOp Expr : Type} [Operator Op] {i : ParseError EOp} {j : ParseError ETerm}
    (b : Build) {term : Parser S T ETerm} {op : Parser S Op EOp} (mk : Expr → Op → Expr → Expr) (ofTerm : T → Expr)
    (ht : Obedient j term.parse) (ho : Obedient i op.parse) :
    Obedient inferInstance (binExpr b term op mk ofTerm).parse := by
  intro s
  have himpl : (binExprImpl b term.parse op.parse mk ofTerm s 0).Ensures (Obeys inferInstance s) := by
    refine Run.ensures_bind fun res h => ?_
    have h1 := ht s _ h
    cases res with
    | err e u => exact Run.ensures_pure.mpr (h1.relabel rfl rfl)
    | ok v r =>
      intro res hres
      exact h1.trans rfl (obedient_binExprLoop b mk ofTerm 0 ht ho _ _ r res hres)
  refine Run.ensures_bind fun res h => ?_
  have h1 := himpl _ h
  cases res with
  | ok v r =>
    obtain ⟨e, reason⟩ := v
    cases reason with
    | ok x => exact Run.ensures_fault
    | error x => exact Run.ensures_pure.mpr (h1.relabel rfl rfl)
  | err e u => exact Run.ensures_pure.mpr h1

/-! ### Iterations -/

theorem obedientIter_optional {i : ParseError E} {f : S → Run (PResult S O E)} (hf : Obedient i f) :
    ObedientIter i { init := true, next := optionalNext f } := by
  intro x s
  refine Run.ensures_ite (fun _ => Run.ensures_pure.mpr .refl) (fun _ => ?_)
  refine Run.ensures_bind fun res h => ?_
  have h1 := hf s _ h
  cases res with
  | ok v r => exact Run.ensures_pure.mpr (h1.relabel rfl rfl)
  | err e u =>
    refine Run.ensures_ite (fun _ => Run.ensures_pure.mpr (h1.relabel rfl rfl)) (fun he => ?_)
    have he : shouldTerminate e = false := by simpa using he
    exact Run.ensures_bind fun t ht => Run.ensures_pure.mpr (h1.rewound he (log_rewind ht))

theorem obedientIter_repeat {i : ParseError E} {f : S → Run (PResult S O E)} (hf : Obedient i f) :
    ObedientIter i { init := (), next := repeatNext f } := by
  intro x s
  refine Run.ensures_bind fun res h => ?_
  have h1 := hf s _ h
  cases res with
  | ok v r => exact Run.ensures_pure.mpr (h1.relabel rfl rfl)
  | err e u =>
    refine Run.ensures_ite (fun _ => Run.ensures_pure.mpr (h1.relabel rfl rfl)) (fun he => ?_)
    have he : shouldTerminate e = false := by simpa using he
    exact Run.ensures_bind fun t ht => Run.ensures_pure.mpr (h1.rewound he (log_rewind ht))

theorem obedientIter_relabel {τ : Type} {i : ParseError E} {j : ParseError E₁} {st : IterState σ S O E}
    (hp : ObedientIter i st) (x : σ) (f : PResult S (Option O) E × σ → Run (PResult S (Option T) E₁ × τ))
    (hf : ∀ res, ∃ res', f res = pure res' ∧ loc res'.1 = loc res.1 ∧ isFatal res'.1 = isFatal res.1) (s : S) :
    (st.next x s >>= f).Ensures (fun res => Obeys j s res.1) := by
  refine Run.ensures_bind fun res h => ?_
  obtain ⟨res', h1, h2, h3⟩ := hf res
  rw [h1, Run.ensures_pure]
  exact (hp x s _ h).relabel (by rw [h2]) h3

theorem obedientIter_take {i : ParseError E} {st : IterState σ S O E} (hp : ObedientIter i st) (n : Nat) :
    ObedientIter i (st.take n) := by
  rintro ⟨x, left⟩ s
  by_cases hl : left = 0
  · have h : (st.take n).next (x, left) s = _ := if_pos hl
    rw [h]; exact Run.ensures_pure.mpr .refl
  · have h : (st.take n).next (x, left) s = _ := if_neg hl
    rw [h]
    exact obedientIter_relabel hp x _ (fun ⟨res, x'⟩ => by
      rcases res with ⟨_ | v, r⟩ | _ <;> exact ⟨_, rfl, rfl, rfl⟩) s

theorem obedientIter_tryMapEach {i : ParseError E} {j : ParseError E₁} {st : IterState σ S O E}
    (hp : ObedientIter i st) (into : E → E₁) (f : O → Except E₁ T)
    (hi : ∀ e, j.shouldTerminate (into e) = i.shouldTerminate e)
    (hf : ∀ v e, f v = .error e → j.shouldTerminate e = false) : ObedientIter j (st.tryMapEach into f) :=
  fun x s => obedientIter_relabel hp x _ (fun ⟨res, x'⟩ => by
    rcases res with ⟨_ | v, r⟩ | ⟨e, u⟩
    · exact ⟨_, rfl, rfl, rfl⟩
    · cases hv : f v with
      | ok w => simp only [hv]; exact ⟨_, rfl, rfl, rfl⟩
      | error e =>
        simp only [hv]
        rw [if_neg (by rw [hf v e hv]; simp)]
        exact ⟨_, rfl, rfl, rfl⟩
    · exact ⟨_, rfl, rfl, hi e⟩) s

theorem obedient_foldLoop {i : ParseError E} {st : IterState σ S O E} (hp : ObedientIter i st) (f : A → O → A) (x : σ)
    (acc : A) (s : S) : (foldLoop st f x acc s).Ensures (Obeys i s) := by
  revert x acc s
  refine foldLoop.fixpoint_induct (st := st) (f := f)
    (motive := fun g => ∀ x acc s, Run.Ensures (g x acc s) (Obeys i s)) (Run.admissible_ensures₃ _) ?_
  intro g ih x acc s
  refine Run.ensures_bind fun ⟨res, x'⟩ h => ?_
  have h1 := hp x s _ h
  rcases res with ⟨_ | v, r⟩ | ⟨e, u⟩
  · exact Run.ensures_pure.mpr (h1.relabel rfl rfl)
  · intro res hres; exact h1.trans rfl (ih _ _ r res hres)
  · exact Run.ensures_pure.mpr (h1.relabel rfl rfl)

mutual
theorem strict_obedient {Leaf : FallibleClass S}
    (hl : ∀ {O E : Type} {i : ParseError E} {p : Parser S O E}, Leaf i p → Obedient i p.parse)
    {O E : Type} {i : ParseError E} {p : Parser S O E} : Strict Leaf i p → Obedient i p.parse
  | .leaf h => hl h
  | .join h1 h2 => obedient_join (strict_obedient hl h1) (strict_obedient hl h2)
  | .or h1 h2 => obedient_or (strict_obedient hl h1) (strict_obedient hl h2)
  | .optional h => obedient_optional (strict_obedient hl h)
  | .repeat h => obedient_repeat (strict_obedient hl h)
  | .map f h => obedient_relabel (strict_obedient hl h) _ fun res => by cases res <;> exact ⟨_, rfl, rfl, rfl⟩
  | .mapErr f hf h => obedient_relabel (strict_obedient hl h) _ fun res => by
      cases res
      · exact ⟨_, rfl, rfl, rfl⟩
      · exact ⟨_, rfl, rfl, hf _⟩
  | .andThen into f hi hf h => obedient_andThen into f hi hf (strict_obedient hl h)
  | .unify f₀ f₁ h => obedient_relabel (strict_obedient hl h) _ fun res => by cases res <;> exact ⟨_, rfl, rfl, rfl⟩
  | .unifyErr f₀ f₁ h₀ h₁ h => obedient_relabel (strict_obedient hl h) _ fun res => by
      rcases res with _ | ⟨e | e, u⟩
      · exact ⟨_, rfl, rfl, rfl⟩
      · exact ⟨_, rfl, rfl, h₀ _⟩
      · exact ⟨_, rfl, rfl, h₁ _⟩
  | @Strict.asRef _ _ _ _ _ i p h => (strict_obedient hl h : Obedient i p.parse)
  | @Strict.boxed _ _ _ _ _ i p h => (strict_obedient hl h : Obedient i p.parse)
  | @Strict.binExpr _ _ _ _ _ _ _ _ _ _ _ b _ _ mk ofTerm h1 h2 => obedient_binExpr b mk ofTerm (strict_obedient hl h1) (strict_obedient hl h2)
  | .fold init f h => fun s => obedient_foldLoop (strictIter_obedient hl h) f _ init s

theorem strictIter_obedient {Leaf : FallibleClass S}
    (hl : ∀ {O E : Type} {i : ParseError E} {p : Parser S O E}, Leaf i p → Obedient i p.parse)
    {σ σ₁ O E : Type} {i : ParseError E} {p : IterParser σ σ₁ S O E} : StrictIter Leaf i p → ObedientIter i p.iter
  | .optional h => obedientIter_optional (strict_obedient hl h)
  | .repeat h => obedientIter_repeat (strict_obedient hl h)
  | @StrictIter.byRef _ _ _ _ _ _ _ i p h => (strictIter_obedient hl h : ObedientIter i p.iter)
  | .mapEach f h => fun x s => obedientIter_relabel (strictIter_obedient hl h) x _
      (fun ⟨res, x'⟩ => by cases res <;> exact ⟨_, rfl, rfl, rfl⟩) s
  | .mapWhile f h => fun x s => obedientIter_relabel (strictIter_obedient hl h) x _
      (fun ⟨res, x'⟩ => by cases res <;> exact ⟨_, rfl, rfl, rfl⟩) s
  | .scan init f h => fun ⟨x, y⟩ s => obedientIter_relabel (strictIter_obedient hl h) x _
      (fun ⟨res, x'⟩ => by rcases res with ⟨_ | v, r⟩ | _ <;> exact ⟨_, rfl, rfl, rfl⟩) s
  | .take n h => obedientIter_take (strictIter_obedient hl h) n
  | .tryMapEach into f hi hf h => obedientIter_tryMapEach (strictIter_obedient hl h) into f hi hf
end

/-- C21: in every nesting, over leaf parsers that log their calls on any kind of logging sequence: the whole fails fatally
exactly if some leaf call failed fatally, and that call was then the last one made. -/
theorem C21_fatal_is_final {Leaf : FallibleClass S}
    (hl : ∀ {O E : Type} {i : ParseError E} {p : Parser S O E}, Leaf i p →
      ∀ s res, p.parse s = pure res → Lg.log (loc res) = Lg.log s ++ [isFatal res])
    {i : ParseError E} {p : Parser S O E} (h : Strict Leaf i p) (s : S) (res : PResult S O E)
    (hres : p.parse s = pure res) :
    ∃ calls, Lg.log (loc res) = Lg.log s ++ calls ∧ LastFatal calls (isFatal res) := by
  refine strict_obedient (fun hp s res hres => ⟨[isFatal res], hl hp s res hres, ?_⟩) h s res hres
  cases isFatal res
  · exact .inl ⟨rfl, by simp⟩
  · exact .inr ⟨rfl, [], rfl, by simp⟩

end

/-! ## Watching arbitrary parsers -/

/-- A watched parser and the parser itself. -/
inductive Watched (S : Type) : {O E : Type} → Parser (Logged S) O E → Parser S O E → Prop where
  | mk {O E : Type} (i : ParseError E) (p : Parser S O E) : Watched S (watch i p) p

/-- Leaves that are watched parsers, with the classification of their errors the watcher uses. -/
inductive IsWatched (S : Type) : {O E : Type} → ParseError E → Parser (Logged S) O E → Prop where
  | mk {O E : Type} (i : ParseError E) (p : Parser S O E) : IsWatched S i (watch i p)

/-- C21 for any parsers whatever on any rewindable sequence: watch all of them, and the nesting gives the same results as
without watching, while the log shows that a fatal failure is final. -/
theorem C21_watched [RewindSequence S] {i : ParseError E} {q : Parser (Logged S) O E} {p : Parser S O E}
    (hs : Strict (IsWatched S) i q) (ht : BuiltTwin (Watched S) q p) (s : S) :
    Run.Rel (q.parse { base := s, log := [] }) (p.parse s) (fun res res' =>
      SameResult (fun r r' => r.base = r') res res' ∧ LastFatal (loc res).log (isFatal res')) := by
  let L : TwinLaw (Logged S) S :=
    { Similar := fun l s => l.base = s
      From := fun _ _ _ _ => True
      refl := fun _ => trivial
      trans := fun _ _ => trivial
      rewind := by
        rintro s r _ _ rfl rfl _
        show Run.Rel (do
          let base ← RewindSequence.rewind r.base (anchor s.base)
          return ({ base, log := r.log } : Logged S)) _ _
        cases h : RewindSequence.rewind r.base (anchor s.base) using Run.casesRun with
        | ret t => exact .inl ⟨_, t, rfl, rfl, rfl, trivial⟩
        | fault f => exact .inr (.inl ⟨f, rfl, rfl⟩)
        | diverge => exact .inr (.inr ⟨rfl, rfl⟩) }
  have h1 := built_same (L := L) (Leaf := Watched S) (fun {O E q p} hw => by
    cases hw with
    | mk i p =>
      rintro l _ rfl
      show Run.Rel (watchFn i p.parse l) _ _
      unfold watchFn
      cases h : p.parse l.base using Run.casesRun with
      | ret res =>
        cases res with
        | ok v r => exact .inl ⟨_, _, rfl, rfl, .ok ⟨rfl, trivial⟩⟩
        | err e u => exact .inl ⟨_, _, rfl, rfl, .err ⟨rfl, trivial⟩⟩
      | fault f => exact .inr (.inl ⟨f, rfl, rfl⟩)
      | diverge => exact .inr (.inr ⟨rfl, rfl⟩)) ht { base := s, log := [] } s rfl
  rcases h1 with ⟨a, b, h1, h2, h3⟩ | h1 | h1
  · refine .inl ⟨a, b, h1, h2, h3.mono fun _ _ h => h.1, ?_⟩
    obtain ⟨calls, h4, h5⟩ := C21_fatal_is_final (Leaf := IsWatched S) (fun {O E i p} hw => by
      cases hw with
      | mk p =>
        intro l res hres
        have hres : watchFn i p.parse l = pure res := hres
        unfold watchFn at hres
        rw [Run.bind_eq_pure] at hres
        obtain ⟨r0, _, hres⟩ := hres
        cases r0 <;> (simp at hres; rw [← hres]; rfl)) hs { base := s, log := [] } a h1
    have h6 : isFatal b = isFatal a := by cases h3 <;> rfl
    rw [h6]
    have h7 : (loc a).log = calls := h4
    rw [h7]
    exact h5
  · exact .inr (.inl h1)
  · exact .inr (.inr h1)

/-- Non-vacuity of C21: a fatal error inside `repeat` inside `or`. The second alternative is not run. -/
example : let a : Parser StrRef Unit (Miss Unit) := theChar 'a'
    let b : Parser StrRef Unit (Fatal Unit) := (theChar 'b').mapErr fun _ => ⟨()⟩
    let i : ParseError (Miss Unit) := inferInstance
    let j : ParseError (Fatal Unit) := inferInstance
    Strict (IsWatched StrRef) inferInstance (((watch i a).join (watch j b)).repeat.or (watch i a)) ∧
    BuiltTwin (Watched StrRef) (((watch i a).join (watch j b)).repeat.or (watch i a)) ((a.join b).repeat.or a) := by
  intro a b i j
  exact ⟨.or (.repeat (.join (.leaf (.mk i a)) (.leaf (.mk j b)))) (.leaf (.mk i a)),
    .or (.repeat (.join (.leaf (.mk i a)) (.leaf (.mk j b)))) (.leaf (.mk i a))⟩

end Parcom
