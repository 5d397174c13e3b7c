import Verif.Spec.Observing
/-!
# C51, C52, C68, C75, C76: observers, errors and futures
-/
namespace Parcom
open Spec

/-! ## Observers -/

/-- C51: an observer behind a filter receives exactly the matching items, in order. -/
theorem C51_filtered {T σ : Type} (o : IObserver T σ) (p : T → Bool) (xs : List T) (s : σ) :
    feed (filterObserver o p) xs s = feed o (xs.filter p) s := by
  induction xs generalizing s with
  | nil => rfl
  | cons x xs ih =>
    simp only [feed, filterObserver]
    cases hp : p x with
    | true =>
      rw [List.filter_cons_of_pos (by simp [hp])]
      simp only [feed, if_true]
      congr 1
      funext s
      exact ih s
    | false =>
      rw [List.filter_cons_of_neg (by simp [hp])]
      exact ih s

/-- C51: a filtered observable emits exactly the matching items, in order; so filters can be stacked. -/
theorem C51_filter {T : Type} {o : IObservable T} {xs : List T} (h : Emits o xs) (p : T → Bool) :
    Emits (Filter.toObservable { observable := o, predicate := p }) (xs.filter p) := by
  intro σ obs s
  show o.subscribe (filterObserver obs p) s = _
  rw [h, C51_filtered]

/-- An observable that emits four items. -/
def fourItems : IObservable Nat where
  subscribe obs s := feed obs [1, 2, 3, 4] s

/-- It meets the hypothesis, behind two filters. -/
example : Emits (Filter.toObservable (.mk (Filter.toObservable (.mk fourItems fun n => n % 2 == 0)) fun n => 2 < n)) [4] :=
  C51_filter (C51_filter (o := fourItems) (xs := [1, 2, 3, 4]) (fun _ _ => rfl) _) _

/-! ## Types without values -/

/-- C52 in full. -/
def C52Statement : Prop := ∀ T : Type, ShouldNever T → T → False

/-- C52 does not hold: arrays of length 0 exist. -/
theorem C52_false : ¬ C52Statement := fun h => h (Vector Never 0) (.array 0 .never) #v[]

/-- C52: the consequence. `always_first` can be called, in safe code, on a value that makes it panic. -/
theorem C52_always_first_panics : (Either.last (#v[] : Vector Never 0) : Either Nat _).alwaysFirst (.array 0 .never) =
    Run.fault .unreachable := rfl

theorem NeverTy.isShouldNever (t : NeverTy) : ShouldNever t.den := by
  induction t with
  | never => exact .never
  | result _ _ ih1 ih2 => exact .result ih1 ih2
  | array _ n ih => exact .array n ih
  | either _ _ ih1 ih2 => exact .either ih1 ih2
  | eitherBoth _ _ ih1 ih2 => exact .eitherBoth ih1 ih2

/-- Every type with the trait is one of these. -/
theorem ShouldNever.syntax {T : Type} (h : ShouldNever T) : ∃ t : NeverTy, t.den = T := by
  induction h with
  | never => exact ⟨.never, rfl⟩
  | result _ _ ih1 ih2 => obtain ⟨a, rfl⟩ := ih1; obtain ⟨b, rfl⟩ := ih2; exact ⟨.result a b, rfl⟩
  | array n _ ih => obtain ⟨a, rfl⟩ := ih; exact ⟨.array a n, rfl⟩
  | either _ _ ih1 ih2 => obtain ⟨a, rfl⟩ := ih1; obtain ⟨b, rfl⟩ := ih2; exact ⟨.either a b, rfl⟩
  | eitherBoth _ _ ih1 ih2 => obtain ⟨a, rfl⟩ := ih1; obtain ⟨b, rfl⟩ := ih2; exact ⟨.eitherBoth a b, rfl⟩

/-- C52: the types with the trait are those of `NeverTy`, over which the theorems below range. -/
theorem C52_types (T : Type) : ShouldNever T ↔ ∃ t : NeverTy, t.den = T :=
  ⟨ShouldNever.syntax, fun ⟨t, h⟩ => h ▸ NeverTy.isShouldNever t⟩

/-- C52, exactly: a type with the trait has values iff a value can be built on an array of length 0. -/
theorem C52_exact (t : NeverTy) : (∃ _ : t.den, True) ↔ t.constructible = true := by
  induction t with
  | never => simp [NeverTy.constructible]; intro h; exact nomatch h
  | result t e ih1 ih2 =>
    simp only [NeverTy.constructible, Bool.or_eq_true, ← ih1, ← ih2]
    constructor
    · rintro ⟨v, -⟩
      cases v with
      | ok v => exact .inl ⟨v, trivial⟩
      | error v => exact .inr ⟨v, trivial⟩
    · rintro (⟨v, -⟩ | ⟨v, -⟩)
      · exact ⟨Except.ok v, trivial⟩
      · exact ⟨Except.error v, trivial⟩
  | array t n ih =>
    simp only [NeverTy.constructible, Bool.or_eq_true, decide_eq_true_eq, ← ih]
    constructor
    · rintro ⟨v, -⟩
      cases n with
      | zero => exact .inl rfl
      | succ n => exact .inr ⟨Vector.get (α := t.den) v 0, trivial⟩
    · rintro (rfl | ⟨v, -⟩)
      · exact ⟨(#v[] : Vector t.den 0), trivial⟩
      · exact ⟨Vector.replicate n v, trivial⟩
  | either a b ih1 ih2 =>
    simp only [NeverTy.constructible, Bool.or_eq_true, ← ih1, ← ih2]
    constructor
    · rintro ⟨v, -⟩
      cases v with
      | first v => exact .inl ⟨v, trivial⟩
      | last v => exact .inr ⟨v, trivial⟩
    · rintro (⟨v, -⟩ | ⟨v, -⟩)
      · exact ⟨Either.first v, trivial⟩
      · exact ⟨Either.last v, trivial⟩
  | eitherBoth a b ih1 ih2 =>
    simp only [NeverTy.constructible, Bool.or_eq_true, ← ih1, ← ih2]
    constructor
    · rintro ⟨v, -⟩
      cases v with
      | first v => exact .inl ⟨v, trivial⟩
      | last v => exact .inr ⟨v, trivial⟩
      | both v _ => exact .inl ⟨v, trivial⟩
    · rintro (⟨v, -⟩ | ⟨v, -⟩)
      · exact ⟨EitherBoth.first v, trivial⟩
      · exact ⟨EitherBoth.last v, trivial⟩

/-- C52, what is true: types in which no array of length 0 occurs have no values. Missing: `[T; 0]`. -/
theorem C52_partial (t : NeverTy) (h : t.noEmptyArray = true) : t.den → False := by
  intro v
  have hc := (C52_exact t).mp ⟨v, trivial⟩
  clear v
  induction t with
  | never => simp [NeverTy.constructible] at hc
  | result a b ih1 ih2 | either a b ih1 ih2 | eitherBoth a b ih1 ih2 =>
    simp only [NeverTy.constructible, NeverTy.noEmptyArray, Bool.or_eq_true, Bool.and_eq_true] at hc h
    exact hc.elim (ih1 h.1) (ih2 h.2)
  | array t n ih =>
    simp only [NeverTy.constructible, NeverTy.noEmptyArray, Bool.or_eq_true, Bool.and_eq_true, decide_eq_true_eq] at hc h
    exact hc.elim h.1 (ih h.2)

/-- C52: the consequence for `Either` and `EitherBoth`: on such types `always_first` and `always_last` return the value. -/
theorem C52_always {A : Type} (t : NeverTy) (h : t.noEmptyArray = true) :
    (∀ e : Either A t.den, ∃ a, e = .first a ∧ e.alwaysFirst (NeverTy.isShouldNever t) = Run.ret a) ∧
    (∀ e : Either t.den A, ∃ a, e = .last a ∧ e.alwaysLast (NeverTy.isShouldNever t) = Run.ret a) ∧
    (∀ e : EitherBoth A t.den, ∃ a, e = .first a ∧ e.alwaysFirst (NeverTy.isShouldNever t) = Run.ret a) ∧
    (∀ e : EitherBoth t.den A, ∃ a, e = .last a ∧ e.alwaysLast (NeverTy.isShouldNever t) = Run.ret a) := by
  have hno := C52_partial t h
  refine ⟨?_, ?_, ?_, ?_⟩ <;> intro e <;> cases e <;>
    first | exact (hno ‹_›).elim | exact ⟨_, rfl, rfl⟩

/-- A type to which C52 applies. -/
example : (NeverTy.either (.array (.result .never .never) 3) .never).noEmptyArray = true := rfl

/-! ## Error classification -/

/-- C68: an error terminates iff it contains something that does, for every nesting of the error types. -/
theorem C68_compositional (t : ErrTy) (e : t.den) : t.impl.shouldTerminate e = true ↔ Terminating t e := by
  induction t with
  | user E f => exact ⟨.user, fun h => by cases h; assumption⟩
  | never => exact nomatch e
  | miss E => exact ⟨fun h => Bool.noConfusion (h : false = true), fun h => nomatch h⟩
  | fatal E => exact ⟨fun _ => .fatal e, fun _ => rfl⟩
  | option t ih =>
    cases e with
    | none => exact ⟨fun h => Bool.noConfusion (h : false = true), fun h => nomatch h⟩
    | some e => exact ⟨fun h => .option ((ih e).mp h), fun h => by cases h with | option h => exact (ih e).mpr h⟩
  | either a b ih1 ih2 =>
    cases e with
    | first e => exact ⟨fun h => .eitherFirst ((ih1 e).mp h), fun h => by cases h with | eitherFirst h => exact (ih1 e).mpr h⟩
    | last e => exact ⟨fun h => .eitherLast ((ih2 e).mp h), fun h => by cases h with | eitherLast h => exact (ih2 e).mpr h⟩
  | eitherBoth a b ih1 ih2 =>
    cases e with
    | first e => exact ⟨fun h => .bothFirst ((ih1 e).mp h), fun h => by cases h with | bothFirst h => exact (ih1 e).mpr h⟩
    | last e => exact ⟨fun h => .bothLast ((ih2 e).mp h), fun h => by cases h with | bothLast h => exact (ih2 e).mpr h⟩
    | both e e' =>
      constructor
      · intro h
        have h : (a.impl.shouldTerminate e || b.impl.shouldTerminate e') = true := h
        rw [Bool.or_eq_true] at h
        exact h.elim (fun h => .bothLeft e' ((ih1 e).mp h)) fun h => .bothRight e ((ih2 e').mp h)
      · intro h
        show (a.impl.shouldTerminate e || b.impl.shouldTerminate e') = true
        rw [Bool.or_eq_true]
        cases h with
        | bothLeft _ h => exact .inl ((ih1 e).mpr h)
        | bothRight _ h => exact .inr ((ih2 e').mpr h)

/-- A nested error that terminates, and one that does not. -/
example : Terminating (.eitherBoth (.miss Nat) (.option (.fatal Unit))) (.both ⟨3⟩ (some ⟨()⟩)) ∧
    ¬ Terminating (.eitherBoth (.miss Nat) (.option (.fatal Unit))) (.both ⟨3⟩ none) :=
  ⟨.bothRight _ (.option (.fatal _)), fun h => by cases h with | bothLeft _ h => cases h | bothRight _ h => cases h⟩

/-! ## Option futures -/

/-- C75: an absent future is ready at once, with `None`. -/
theorem C75_none {σ α : Type} (f : Future σ α) {n : Nat} {a : Option α} {s : Option σ} :
    Resolves (optionFuture f) none n a s ↔ n = 0 ∧ a = none ∧ s = none := by
  constructor
  · intro h
    cases h with
    | now h =>
      have h : (pure (Poll.ready none, none) : Run _) = _ := h
      simp at h
      obtain ⟨h1, h2⟩ := h
      exact ⟨rfl, h1.symm, h2.symm⟩
    | later h =>
      have h : (pure (Poll.ready none, none) : Run _) = _ := h
      simp at h
  · rintro ⟨rfl, rfl, rfl⟩
    exact .now rfl

/-- C75: a present future resolves after as many polls, to `Some` of what it resolves to. -/
theorem C75_some {σ α : Type} (f : Future σ α) {s : σ} {n : Nat} {o : Option α} {t : Option σ} :
    Resolves (optionFuture f) (some s) n o t ↔ ∃ a s', o = some a ∧ t = some s' ∧ Resolves f s n a s' := by
  constructor
  · intro h
    generalize hs : some s = os at h
    induction h generalizing s with
    | now h =>
      subst hs
      simp only [optionFuture] at h
      obtain ⟨⟨p, s'⟩, h1, h2⟩ := Run.bind_eq_ret.mp h
      cases p with
      | ready a =>
        simp [Poll.map] at h2
        exact ⟨a, s', h2.1.symm, h2.2.symm, .now h1⟩
      | pending => simp [Poll.map] at h2
    | later h _ ih =>
      subst hs
      simp only [optionFuture] at h
      obtain ⟨⟨p, s'⟩, h1, h2⟩ := Run.bind_eq_ret.mp h
      cases p with
      | ready a => simp [Poll.map] at h2
      | pending =>
        simp [Poll.map] at h2
        obtain ⟨a, s'', e1, e2, e3⟩ := ih h2
        exact ⟨a, s'', e1, e2, .later h1 e3⟩
  · rintro ⟨a, s', rfl, rfl, h⟩
    induction h with
    | now h => exact .now (by simp [optionFuture, h, Poll.map])
    | later h _ ih => exact .later (by simp [optionFuture, h, Poll.map]) ih

/-- A future that is pending once. -/
example : Resolves (optionFuture { poll := fun b : Bool => pure (if b then (.ready 7, b) else (.pending, true)) }) (some false) 1
    (some 7) (some true) := .later rfl (.now rfl)

/-! ## Either -/

/-- C76: `unwrap_first` and `unwrap_last` return the value on their side and panic on the other; `unify` converts
whichever is there. -/
theorem C76_either {A B T : Type} (f : A → T) (g : B → T) (e : Either A B) :
    (∀ a, e.unwrapFirst = Run.ret a ↔ e = .first a) ∧ (∀ b, e.unwrapLast = Run.ret b ↔ e = .last b) ∧
    ((∃ x, e.unwrapFirst = Run.fault x) ↔ ∃ b, e.unwrapLast = Run.ret b) ∧
    ((∃ x, e.unwrapLast = Run.fault x) ↔ ∃ a, e.unwrapFirst = Run.ret a) ∧
    (∀ t, e.unify f g = t ↔ (∃ a, e = .first a ∧ f a = t) ∨ ∃ b, e = .last b ∧ g b = t) := by
  cases e <;> simp [Either.unwrapFirst, Either.unwrapLast, Either.unify]

end Parcom
