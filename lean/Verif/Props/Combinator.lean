import Verif.Lemmas.Combinator
import Verif.Lemmas.Descends
import Verif.Props.Primitive
/-!
# C15-C20: combinators

Component parsers are arbitrary: they may succeed, fail, panic or never return. Where a combinator rewinds, they must
return locations that descend from their input (`Descends`), on a sequence satisfying the rewind law.
-/
namespace Parcom
open Spec

variable {S O O₀ O₁ E E₀ E₁ T T₀ T₁ : Type}

/-! ## C15 -/

section
variable [RewindSequence S] [L : RewindLaw S] [ParseError E₀] [ParseError E₁]
  (p : Parser S O₀ E₀) (q : Parser S O₁ E₁)

omit L in
theorem or_ok {s : S} {v : O₀} {r : S} (h : p.parse s = pure (.ok v r)) :
    (p.or q).parse s = pure (.ok (.first v) r) := by
  simp [Parser.or, h, done]

omit L in
theorem or_fatal {s : S} {e : E₀} {u : UnknownLocation S} (h : p.parse s = pure (.err e u))
    (he : shouldTerminate e = true) : (p.or q).parse s = pure (.err (.first e) u) := by
  simp [Parser.or, h, he, fail]

theorem or_second (hp : Descends p.parse) {s : S} {e : E₀} {u : UnknownLocation S} (h : p.parse s = pure (.err e u))
    (he : shouldTerminate e = false) : (p.or q).parse s = (do
      match ← q.parse s with
      | .ok v r => return .ok (.last v) r
      | .err e1 u1 => return .err (if shouldTerminate e1 then .last e1 else .both e e1) u1) := by
  have hw : u.rewind (anchor s) = pure s := L.rewind (hp.err h)
  simp only [Parser.or, h, Run.pure_bind', he, hw]
  simp only [Bool.false_eq_true, not_false_eq_true, if_true]
  congr 1
  funext r
  rcases r with ⟨v, r⟩ | ⟨e1, u1⟩
  · rfl
  · by_cases h1 : shouldTerminate e1 = true <;> simp [h1, fail]

/-- C15, successes: exactly `p`'s success, or `q`'s success on the input `p` was given after `p` failed recoverably. -/
theorem C15_or_succeeds (hp : Descends p.parse) (s : S) (o : Either O₀ O₁) (r : S) :
    (p.or q).parse s = pure (.ok o r) ↔
      (∃ v, p.parse s = pure (.ok v r) ∧ o = .first v) ∨
      (∃ e u v, p.parse s = pure (.err e u) ∧ shouldTerminate e = false ∧ q.parse s = pure (.ok v r) ∧
        o = .last v) := by
  cases hps : p.parse s using Run.casesRun with
  | ret res =>
    rcases res with ⟨v, r'⟩ | ⟨e, u⟩
    · rw [or_ok p q hps]
      constructor
      · intro h; simp at h; exact .inl ⟨v, by rw [h.2]; rfl, h.1.symm⟩
      · rintro (⟨v', h1, rfl⟩ | ⟨_, _, _, h1, _⟩)
        · simp at h1; simp [h1]
        · simp at h1
    · by_cases he : shouldTerminate e = true
      · rw [or_fatal p q hps he]; 
        constructor
        · intro h; simp at h
        · rintro (⟨v', h1, _⟩ | ⟨_, _, _, h1, h2, _⟩)
          · simp at h1
          · simp at h1; rw [← h1.1, he] at h2; simp at h2
      · rw [or_second p q hp hps (by simpa using he)]
        simp only [Run.bind_eq_pure, Run.ret_eq_pure]
        constructor
        · rintro ⟨res, h1, h2⟩
          rcases res with ⟨v, r'⟩ | ⟨e1, u1⟩
          · simp at h2
            exact .inr ⟨e, u, v, rfl, by simpa using he, by rw [h1, h2.2]; rfl, h2.1.symm⟩
          · simp at h2
        · rintro (⟨v, h1, _⟩ | ⟨e', u', v, _, _, h3, rfl⟩)
          · simp at h1
          · exact ⟨_, h3, rfl⟩
  | fault f => simp [Parser.or, hps]
  | diverge => simp [Parser.or, hps]

/-- C15, failures: exactly `p`'s fatal failure, or `q`'s failure on the input `p` was given after `p` failed recoverably;
two recoverable errors are reported together. -/
theorem C15_or_fails (hp : Descends p.parse) (s : S) (e : EitherBoth E₀ E₁) (u : UnknownLocation S) :
    (p.or q).parse s = pure (.err e u) ↔
      (∃ e0, p.parse s = pure (.err e0 u) ∧ shouldTerminate e0 = true ∧ e = .first e0) ∨
      (∃ e0 u0 e1, p.parse s = pure (.err e0 u0) ∧ shouldTerminate e0 = false ∧ q.parse s = pure (.err e1 u) ∧
        ((shouldTerminate e1 = true ∧ e = .last e1) ∨ (shouldTerminate e1 = false ∧ e = .both e0 e1))) := by
  cases hps : p.parse s using Run.casesRun with
  | ret res =>
    rcases res with ⟨v, r'⟩ | ⟨e0, u0⟩
    · rw [or_ok p q hps]; simp
    · by_cases he : shouldTerminate e0 = true
      · rw [or_fatal p q hps he]
        constructor
        · intro h; simp at h; exact .inl ⟨e0, by rw [h.2]; rfl, he, h.1.symm⟩
        · rintro (⟨e', h1, _, rfl⟩ | ⟨e', u', e1, h1, h2, _⟩)
          · simp at h1; simp [h1]
          · simp at h1; rw [← h1.1, he] at h2; simp at h2
      · rw [or_second p q hp hps (by simpa using he)]
        simp only [Run.bind_eq_pure]
        constructor
        · rintro ⟨res, h1, h2⟩
          rcases res with ⟨v, r'⟩ | ⟨e1, u1⟩
          · simp at h2
          · simp at h2
            refine .inr ⟨e0, u0, e1, rfl, by simpa using he, by rw [h1, h2.2]; rfl, ?_⟩
            by_cases h3 : shouldTerminate e1 = true
            · left; exact ⟨h3, by simpa [h3] using h2.1.symm⟩
            · right; exact ⟨by simpa using h3, by simpa [h3] using h2.1.symm⟩
        · rintro (⟨e', h1, h2, _⟩ | ⟨e', u', e1, h1, _, h3, h4⟩)
          · simp at h1; rw [← h1.1] at h2; exact absurd h2 he
          · simp at h1
            refine ⟨_, h3, ?_⟩
            rcases h4 with ⟨h4, rfl⟩ | ⟨h4, rfl⟩ <;> simp [h4, h1.1]
  | fault f => simp [Parser.or, hps]
  | diverge => simp [Parser.or, hps]

omit L in
/-- C15: `q` is not run unless `p` fails recoverably: whatever `q` would do (panicking and hanging included) makes no
difference. -/
theorem C15_or_second_not_run (q' : Parser S O₁ E₁) (s : S)
    (h : ¬ ∃ e u, p.parse s = pure (.err e u) ∧ shouldTerminate e = false) :
    (p.or q).parse s = (p.or q').parse s := by
  cases hps : p.parse s using Run.casesRun with
  | ret res =>
    rcases res with ⟨v, r'⟩ | ⟨e, u⟩
    · rw [or_ok p q hps, or_ok p q' hps]
    · have he : shouldTerminate e = true := by
        by_cases he : shouldTerminate e = true
        · exact he
        · exact absurd ⟨e, u, hps, by simpa using he⟩ h
      rw [or_fatal p q hps he, or_fatal p q' hps he]
  | fault f => simp [Parser.or, hps]
  | diverge => simp [Parser.or, hps]

end

/-- Non-vacuity of C15: `the_char('a').or(the_char('b'))` on a text where the first alternative fails and the second
succeeds. -/
example : let s : StrRef := { alloc := 1, off := 0, text := ⟨['b', 'あ']⟩ }
    Descends (theChar (S := StrRef) 'a').parse ∧
    ∃ r, ((theChar 'a').or (theChar 'b')).parse s = pure (.ok (.last ()) r) ∧ content r = ['あ'] := by
  intro s
  have hd : Descends (theChar (S := StrRef) 'a').parse := (tidy_iff.mp (tidy_theChar 'a')).1
  obtain ⟨r, h1, h2⟩ := (C10_the_char 'b' s).1 ['あ'] rfl
  obtain ⟨u, h3, _⟩ := (C10_the_char 'a' s).2 (by decide)
  exact ⟨hd, r, (C15_or_succeeds _ _ hd s _ r).mpr (.inr ⟨_, u, (), h3, rfl, h1, rfl⟩), h2⟩

/-! ## C16 -/

section
variable [RewindSequence S] [L : RewindLaw S] [ParseError E] (p : Parser S O E)

/-- C16, successes. -/
theorem C16_optional_succeeds (hp : Descends p.parse) (s : S) (o : Except E O) (r : S) :
    p.optional.parse s = pure (.ok o r) ↔
      (∃ v, p.parse s = pure (.ok v r) ∧ o = .ok v) ∨
      (∃ e u, p.parse s = pure (.err e u) ∧ shouldTerminate e = false ∧ o = .error e ∧ r = s) := by
  cases hps : p.parse s using Run.casesRun with
  | ret res =>
    rcases res with ⟨v, r'⟩ | ⟨e, u⟩
    · simp only [Parser.optional, hps, Run.ret_bind]
      constructor
      · intro h; simp [done] at h; exact .inl ⟨v, by rw [h.2]; rfl, h.1.symm⟩
      · rintro (⟨v', h1, rfl⟩ | ⟨_, _, h1, _⟩)
        · simp at h1; simp [done, h1]
        · simp at h1
    · have hw : u.rewind (anchor s) = pure s := L.rewind (hp.err hps)
      by_cases he : shouldTerminate e = true
      · simp only [Parser.optional, hps, Run.ret_bind, he]
        constructor
        · intro h; simp [fail] at h
        · rintro (⟨v', h1, _⟩ | ⟨_, _, h1, h2, _⟩)
          · simp at h1
          · simp at h1; rw [← h1.1, he] at h2; simp at h2
      · simp only [Parser.optional, hps, Run.ret_bind, he, hw, Run.pure_bind']
        constructor
        · intro h; simp [done] at h
          exact .inr ⟨e, u, rfl, by simpa using he, h.1.symm, h.2.symm⟩
        · rintro (⟨v', h1, _⟩ | ⟨_, _, h1, h2, rfl, rfl⟩)
          · simp at h1
          · simp at h1; simp [done, h1.1]
  | fault f => simp [Parser.optional, hps]
  | diverge => simp [Parser.optional, hps]

/-- C16, failures. -/
theorem C16_optional_fails (hp : Descends p.parse) (s : S) (e : E) (u : UnknownLocation S) :
    p.optional.parse s = pure (.err e u) ↔ p.parse s = pure (.err e u) ∧ shouldTerminate e = true := by
  cases hps : p.parse s using Run.casesRun with
  | ret res =>
    rcases res with ⟨v, r'⟩ | ⟨e', u'⟩
    · simp [Parser.optional, hps, done]
    · have hw : u'.rewind (anchor s) = pure s := L.rewind (hp.err hps)
      by_cases he : shouldTerminate e' = true
      · simp [Parser.optional, hps, he, fail]
        rintro rfl _; exact he
      · simp [Parser.optional, hps, he, hw, done]
        rintro rfl _; simpa using he
  | fault f => simp [Parser.optional, hps]
  | diverge => simp [Parser.optional, hps]

end

/-! ## C17, C18 -/

section
variable [RewindSequence S] [L : RewindLaw S] [ParseError E] (p : Parser S O E)

/-- C17, successes: the values are a run of successes which a recoverable failure ends, and the rest is where that
failure happened, that is, right after the last success. -/
theorem C17_repeat_succeeds (hp : Descends p.parse) (s : S) (vs : List O) (e : E) (t : S) :
    p.repeat.parse s = pure (.ok (vs, e) t) ↔
      RunOf p.parse s vs t ∧ ∃ u, p.parse t = pure (.err e u) ∧ shouldTerminate e = false := by
  constructor
  · intro h
    obtain ⟨vs', t', e', u', h1, h2, h3⟩ := repeatLoop_sound hp [] s _ h
    rcases h3 with ⟨_, h3⟩ | ⟨h4, h3⟩
    · simp at h3
    · simp at h3
      obtain ⟨⟨rfl, rfl⟩, rfl⟩ := h3
      exact ⟨h1, u', h2, h4⟩
  · rintro ⟨h1, u, h2, h3⟩
    show repeatLoop _ _ _ = _
    rw [repeatLoop_run [] h1, repeatLoop_end hp _ h2 h3]
    simp

/-- C17, failures: `repeat` fails exactly when an iteration fails fatally, with that error. -/
theorem C17_repeat_fails (hp : Descends p.parse) (s : S) (e : E) (u : UnknownLocation S) :
    p.repeat.parse s = pure (.err e u) ↔
      ∃ vs t, RunOf p.parse s vs t ∧ p.parse t = pure (.err e u) ∧ shouldTerminate e = true := by
  constructor
  · intro h
    obtain ⟨vs', t', e', u', h1, h2, h3⟩ := repeatLoop_sound hp [] s _ h
    rcases h3 with ⟨h4, h3⟩ | ⟨h4, h3⟩
    · simp at h3
      obtain ⟨rfl, rfl⟩ := h3
      exact ⟨vs', t', h1, h2, h4⟩
    · simp at h3
  · rintro ⟨vs, t, h1, h2, h3⟩
    show repeatLoop _ _ _ = _
    rw [repeatLoop_run [] h1, repeatLoop_fatal _ h2 h3]

/-- Every run of successes from `s` is a part of the run that ended it: the run is maximal. -/
theorem C17_repeat_maximal (hp : Descends p.parse) (s : S) (vs : List O) (e : E) (t : S)
    (h : p.repeat.parse s = pure (.ok (vs, e) t)) (vs' : List O) (t' : S) (h' : RunOf p.parse s vs' t') :
    vs' <+: vs := by
  obtain ⟨h1, u, h2, -⟩ := (C17_repeat_succeeds p hp s vs e t).mp h
  clear h
  induction h1 generalizing vs' with
  | nil s => cases h' with
    | nil => exact List.prefix_refl _
    | cons h3 _ => rw [h3] at h2; simp at h2
  | cons h3 _ ih => cases h' with
    | nil => exact List.nil_prefix
    | cons h4 h5 =>
      rw [h3] at h4
      simp at h4
      obtain ⟨rfl, rfl⟩ := h4
      exact List.cons_prefix_cons.mpr ⟨rfl, ih _ h5 h2⟩

/-- C18, termination: if the body always returns and each success strictly decreases some measure (such as the number of
items left), `repeat` returns. -/
theorem C18_repeat_terminates (hp : Descends p.parse) (m : S → Nat) (hret : ∀ s, ∃ res, p.parse s = pure res)
    (hdec : ∀ s v r, p.parse s = pure (.ok v r) → m r < m s) (s : S) : ∃ res, p.repeat.parse s = pure res := by
  suffices h : ∀ n s buf, m s < n → ∃ res, repeatLoop p.parse buf s = pure res from h _ s [] (Nat.lt_succ_self _)
  intro n
  induction n with
  | zero => intro s buf h; omega
  | succ n ih =>
    intro s buf hn
    obtain ⟨res, hres⟩ := hret s
    rcases res with ⟨v, r⟩ | ⟨e, u⟩
    · obtain ⟨res, h⟩ := ih r (buf ++ [v]) (by have := hdec s v r hres; omega)
      exact ⟨res, by rw [repeatLoop, hres]; simpa using h⟩
    · by_cases he : shouldTerminate e = true
      · exact ⟨_, repeatLoop_fatal _ hres he⟩
      · exact ⟨_, repeatLoop_end hp _ hres (by simpa using he)⟩

/-- C18, non-termination: exactly when there are successes for ever, or the body itself hangs after some successes. -/
theorem C18_repeat_diverges (hp : Descends p.parse) (s : S) :
    p.repeat.parse s = Run.diverge ↔
      (∀ n, ∃ vs t, RunOf p.parse s vs t ∧ vs.length = n) ∨
      (∃ vs t, RunOf p.parse s vs t ∧ p.parse t = Run.diverge) := by
  have key : ∀ vs t, RunOf p.parse s vs t → p.repeat.parse s = repeatLoop p.parse vs t := by
    intro vs t h; show repeatLoop _ _ _ = _; rw [repeatLoop_run [] h]; simp
  constructor
  · intro hd
    by_cases hh : ∃ vs t, RunOf p.parse s vs t ∧ p.parse t = Run.diverge
    · exact .inr hh
    · left
      intro n
      induction n with
      | zero => exact ⟨[], s, .nil s, rfl⟩
      | succ n ih =>
        obtain ⟨vs, t, h1, h2⟩ := ih
        have h3 := key vs t h1
        rw [hd] at h3
        cases hpt : p.parse t using Run.casesRun with
        | ret res =>
          rcases res with ⟨v, r⟩ | ⟨e, u⟩
          · exact ⟨vs ++ [v], r, h1.append (.cons hpt (.nil _)), by simp [h2]⟩
          · exfalso
            by_cases he : shouldTerminate e = true
            · rw [repeatLoop_fatal _ hpt he] at h3; simp at h3
            · rw [repeatLoop_end hp _ hpt (by simpa using he)] at h3; simp at h3
        | fault f => rw [repeatLoop, hpt] at h3; simp at h3
        | diverge => exact absurd ⟨vs, t, h1, hpt⟩ hh
  · rintro (h | ⟨vs, t, h1, h2⟩)
    · cases hr : p.repeat.parse s using Run.casesRun with
      | diverge => rfl
      | ret res =>
        exfalso
        obtain ⟨vs, t, e, u, h1, h2, -⟩ := repeatLoop_sound hp [] s res hr
        obtain ⟨vs', t', h3, h4⟩ := h (vs.length + 1)
        have : ∀ {s : S} {vs vs' : List O} {t t' : S}, RunOf p.parse s vs t → p.parse t = pure (.err e u) →
            RunOf p.parse s vs' t' → vs'.length ≤ vs.length := by
          intro s vs vs' t t' h1 h2 h3
          induction h1 generalizing vs' with
          | nil s => cases h3 with
            | nil => exact Nat.le_refl _
            | cons h _ => rw [h] at h2; simp at h2
          | cons h4 _ ih => cases h3 with
            | nil => simp
            | cons h5 h6 =>
              rw [h4] at h5; simp at h5; obtain ⟨rfl, rfl⟩ := h5
              have := ih h2 h6
              simp; omega
        have := this h1 h2 h3
        omega
      | fault f =>
        exfalso
        -- a fault happens after finitely many successes
        have hf : ∀ buf s, (repeatLoop p.parse buf s) = Run.fault f →
            ∃ vs t, RunOf p.parse s vs t ∧ ∃ f, p.parse t = Run.fault f := by
          refine repeatLoop.fixpoint_induct (parse := p.parse) (motive := fun g => ∀ buf s, g buf s = Run.fault f →
            ∃ vs t, RunOf p.parse s vs t ∧ ∃ f, p.parse t = Run.fault f) ?_ ?_
          · exact Run.admissible_fun₂ (fun _ s x => x = Run.fault f →
              ∃ vs t, RunOf p.parse s vs t ∧ ∃ f, p.parse t = Run.fault f) (by intro _ _ h; simp at h)
          · intro g ih buf s hg
            cases hps : p.parse s using Run.casesRun with
            | ret res =>
              rcases res with ⟨v, r⟩ | ⟨e, u⟩
              · simp only [hps, Run.ret_bind] at hg
                obtain ⟨vs, t, h1, h2⟩ := ih _ _ hg
                exact ⟨v :: vs, t, .cons hps h1, h2⟩
              · have hw : u.rewind (anchor s) = pure s := L.rewind (hp.err hps)
                simp only [hps, Run.ret_bind, hw] at hg
                by_cases he : shouldTerminate e = true <;> simp [he] at hg
            | fault f => exact ⟨[], s, .nil s, f, hps⟩
            | diverge => simp [hps] at hg
        obtain ⟨vs, t, h1, f', h2⟩ := hf [] s hr
        obtain ⟨vs', t', h3, h4⟩ := h (vs.length + 1)
        have : ∀ {s : S} {vs vs' : List O} {t t' : S}, RunOf p.parse s vs t → p.parse t = Run.fault f' →
            RunOf p.parse s vs' t' → vs'.length ≤ vs.length := by
          intro s vs vs' t t' h1 h2 h3
          induction h1 generalizing vs' with
          | nil s => cases h3 with
            | nil => exact Nat.le_refl _
            | cons h _ => rw [h] at h2; simp at h2
          | cons h4 _ ih => cases h3 with
            | nil => simp
            | cons h5 h6 =>
              rw [h4] at h5; simp at h5; obtain ⟨rfl, rfl⟩ := h5
              have := ih h2 h6
              simp; omega
        have := this h1 h2 h3
        omega
    · rw [key vs t h1, repeatLoop, h2]; rfl

/-- C18: a body that succeeds without consuming makes `repeat` hang. -/
theorem C18_repeat_non_consuming (hp : Descends p.parse) (s : S) (v : O) (h : p.parse s = pure (.ok v s)) :
    p.repeat.parse s = Run.diverge := by
  refine (C18_repeat_diverges p hp s).mpr (.inl fun n => ?_)
  induction n with
  | zero => exact ⟨[], s, .nil s, rfl⟩
  | succ n ih =>
    obtain ⟨vs, t, h1, h2⟩ := ih
    exact ⟨v :: vs, t, .cons h h1, by simp [h2]⟩

/-- Non-vacuity of C16 to C18: `the_char('a')` meets the hypotheses, and repeats twice here. -/
example : let s : StrRef := { alloc := 1, off := 0, text := ⟨['a', 'a', 'b']⟩ }
    Descends (theChar (S := StrRef) 'a').parse ∧
    (∀ s, ∃ res, (theChar (S := StrRef) 'a').parse s = pure res) ∧
    (∀ s v r, (theChar (S := StrRef) 'a').parse s = pure (.ok v r) → (content r).length < (content s).length) ∧
    ∃ e t, (theChar 'a').repeat.parse s = pure (.ok ([(), ()], e) t) ∧ content t = ['b'] := by
  intro s
  have hd : Descends (theChar (S := StrRef) 'a').parse := (tidy_iff.mp (tidy_theChar 'a')).1
  refine ⟨hd, ?_, ?_, ?_⟩
  · intro s
    by_cases h : (content s).head? = some 'a'
    · obtain ⟨cs, hcs⟩ := List.head?_eq_some_iff.mp h
      obtain ⟨r, h1, _⟩ := (C10_the_char 'a' s).1 cs hcs
      exact ⟨_, h1⟩
    · obtain ⟨u, h1, _⟩ := (C10_the_char 'a' s).2 h
      exact ⟨_, h1⟩
  · intro s v r hr
    by_cases h : (content s).head? = some 'a'
    · obtain ⟨cs, hcs⟩ := List.head?_eq_some_iff.mp h
      obtain ⟨r', h1, h2⟩ := (C10_the_char 'a' s).1 cs hcs
      rw [h1] at hr
      simp at hr
      rw [← hr, h2, hcs]
      simp
    · obtain ⟨u, h1, _⟩ := (C10_the_char 'a' s).2 h
      rw [h1] at hr
      simp at hr
  · obtain ⟨r1, h1, c1⟩ := (C10_the_char 'a' s).1 ['a', 'b'] rfl
    obtain ⟨r2, h2, c2⟩ := (C10_the_char 'a' r1).1 ['b'] c1
    obtain ⟨u, h3, _⟩ := (C10_the_char 'a' r2).2 (by rw [c2]; decide)
    exact ⟨_, r2, (C17_repeat_succeeds _ hd s _ _ r2).mpr ⟨.cons h1 (.cons h2 (.nil r2)), u, h3, rfl⟩, c2⟩

/-- Non-vacuity of the hang: a function parser that succeeds without consuming. -/
example (s : StrRef) : (Parser.ofFn (fun s : StrRef => pure (.ok () s)) : Parser StrRef Unit (Miss Unit)).repeat.parse s
    = Run.diverge := by
  refine C18_repeat_non_consuming _ ⟨?_, ?_⟩ s () rfl
  · intro s v r h; simp [Parser.ofFn] at h; subst h; exact RewindLaw.refl _
  · intro s e u h; simp [Parser.ofFn] at h

end

/-! ## C19 -/

section
variable (p : Parser S O₀ E₀) (q : Parser S O₁ E₁)

/-- C19, successes. -/
theorem C19_join_succeeds (s : S) (v : O₀) (w : O₁) (t : S) :
    (p.join q).parse s = pure (.ok (v, w) t) ↔
      ∃ r, p.parse s = pure (.ok v r) ∧ q.parse r = pure (.ok w t) := by
  cases hp : p.parse s using Run.casesRun with
  | ret res =>
    rcases res with ⟨v', r'⟩ | ⟨e, u⟩
    · simp only [Parser.join, hp, Run.ret_bind]
      cases hq : q.parse r' using Run.casesRun with
      | ret res =>
        rcases res with ⟨w', t'⟩ | ⟨e, u⟩
        · simp only [Run.ret_bind]
          constructor
          · intro h
            simp [done] at h
            obtain ⟨⟨rfl, rfl⟩, rfl⟩ := h
            exact ⟨r', rfl, hq⟩
          · rintro ⟨r, h1, h2⟩
            simp at h1
            obtain ⟨rfl, rfl⟩ := h1
            rw [hq] at h2
            simp at h2
            simp [done, h2]
        · simp only [Run.ret_bind]
          constructor
          · intro h; simp at h
          · rintro ⟨r, h1, h2⟩
            simp at h1
            obtain ⟨rfl, rfl⟩ := h1
            rw [hq] at h2; simp at h2
      | fault f =>
        simp; rintro _ h; simp [hq] at h
      | diverge =>
        simp; rintro _ h; simp [hq] at h
    · simp [Parser.join, hp]
  | fault f => simp [Parser.join, hp]
  | diverge => simp [Parser.join, hp]

/-- C19, failures. -/
theorem C19_join_fails (s : S) (e : Either E₀ E₁) (u : UnknownLocation S) :
    (p.join q).parse s = pure (.err e u) ↔
      (∃ e0, p.parse s = pure (.err e0 u) ∧ e = .first e0) ∨
      (∃ v r e1, p.parse s = pure (.ok v r) ∧ q.parse r = pure (.err e1 u) ∧ e = .last e1) := by
  cases hp : p.parse s using Run.casesRun with
  | ret res =>
    rcases res with ⟨v', r'⟩ | ⟨e0, u0⟩
    · simp only [Parser.join, hp, Run.ret_bind]
      cases hq : q.parse r' using Run.casesRun with
      | ret res =>
        rcases res with ⟨w', t'⟩ | ⟨e1, u1⟩
        · simp [done]
          rintro _ h
          rw [hq] at h; simp at h
        · simp only [Run.ret_bind]
          constructor
          · intro h
            simp at h
            exact .inr ⟨v', r', e1, rfl, by rw [hq, h.2]; rfl, h.1.symm⟩
          · rintro (⟨_, h1, _⟩ | ⟨v, r, e', h1, h2, rfl⟩)
            · simp at h1
            · simp at h1
              rw [← h1.2, hq] at h2
              simp at h2
              simp [h2]
      | fault f =>
        simp; rintro _ h; simp [hq] at h
      | diverge =>
        simp; rintro _ h; simp [hq] at h
    · simp only [Parser.join, hp, Run.ret_bind]
      constructor
      · intro h; simp at h; exact .inl ⟨e0, by rw [h.2]; rfl, h.1.symm⟩
      · rintro (⟨_, h1, rfl⟩ | ⟨_, _, _, h1, _⟩)
        · simp at h1; simp [h1]
        · simp at h1
  | fault f => simp [Parser.join, hp]
  | diverge => simp [Parser.join, hp]

end

/-! ## C20 -/

/-- How a parser relates to the one it wraps: values go through `f` and errors through `g`, everything else is kept,
panicking and hanging included. -/
def Relabels (p : Parser S O E) (p' : Parser S T E₁) (f : O → T) (g : E → E₁) : Prop :=
  ∀ s, (∀ v r, p.parse s = pure (.ok v r) → p'.parse s = pure (.ok (f v) r)) ∧
    (∀ e u, p.parse s = pure (.err e u) → p'.parse s = pure (.err (g e) u)) ∧
    (∀ x, p.parse s = Run.fault x → p'.parse s = Run.fault x) ∧
    (p.parse s = Run.diverge → p'.parse s = Run.diverge)

theorem C20_map (p : Parser S O E) (f : O → T) : Relabels p (p.map f) f id := by
  intro s; refine ⟨?_, ?_, ?_, ?_⟩ <;> intros <;> simp_all [Parser.map]

theorem C20_map_err (p : Parser S O E) (g : E → T) : Relabels p (p.mapErr g) id g := by
  intro s; refine ⟨?_, ?_, ?_, ?_⟩ <;> intros <;> simp_all [Parser.mapErr]

theorem C20_unify (p : Parser S (Either T₀ T₁) E) (f0 : T₀ → T) (f1 : T₁ → T) :
    Relabels p (p.unify f0 f1) (fun | .first a => f0 a | .last b => f1 b) id := by
  intro s
  refine ⟨?_, ?_, ?_, ?_⟩
  · intro v r h; cases v <;> simp_all [Parser.unify, Either.unify, done]
  all_goals intros; simp_all [Parser.unify]

theorem C20_unify_err (p : Parser S O (Either T₀ T₁)) (f0 : T₀ → T) (f1 : T₁ → T) :
    Relabels p (p.unifyErr f0 f1) id (fun | .first a => f0 a | .last b => f1 b) := by
  intro s
  refine ⟨?_, ?_, ?_, ?_⟩
  · intros; simp_all [Parser.unifyErr]
  · intro e u h; cases e <;> simp_all [Parser.unifyErr, Either.unify]
  all_goals intros; simp_all [Parser.unifyErr]

theorem C20_as_ref (p : Parser S O E) : Relabels p p.asRef id id := by
  intro s; refine ⟨?_, ?_, ?_, ?_⟩ <;> intros <;> simp_all [Parser.asRef]

theorem C20_boxed (p : Parser S O E) : Relabels p p.boxed id id := by
  intro s; refine ⟨?_, ?_, ?_, ?_⟩ <;> intros <;> simp_all [Parser.boxed]

/-- C20 (`and_then`), for every outcome of the inner parser. -/
theorem C20_and_then (p : Parser S O E) (into : E → E₁) (f : O → Except E₁ T) (s : S) :
    (∀ v r w, p.parse s = pure (.ok v r) → f v = .ok w → (p.andThen into f).parse s = pure (.ok w r)) ∧
    (∀ v r e, p.parse s = pure (.ok v r) → f v = .error e → (p.andThen into f).parse s = pure (.err e ⟨r⟩)) ∧
    (∀ e u, p.parse s = pure (.err e u) → (p.andThen into f).parse s = pure (.err (into e) u)) ∧
    (∀ x, p.parse s = Run.fault x → (p.andThen into f).parse s = Run.fault x) ∧
    (p.parse s = Run.diverge → (p.andThen into f).parse s = Run.diverge) := by
  refine ⟨?_, ?_, ?_, ?_, ?_⟩ <;> intros <;> simp_all [Parser.andThen, done, failAt]

/-- C20, functor laws, for `parse` and `parse_once` alike. -/
theorem C20_map_id (p : Parser S O E) : p.map id = p := by
  obtain ⟨parse, once⟩ := p
  simp only [Parser.map, Parser.mk.injEq]
  constructor
  · funext s; cases parse s using Run.casesRun with
    | ret r => cases r <;> rfl
    | fault f => rfl
    | diverge => rfl
  · funext s; cases once s using Run.casesRun with
    | ret r => cases r <;> rfl
    | fault f => rfl
    | diverge => rfl

theorem C20_map_comp (p : Parser S O E) (f : O → T₀) (g : T₀ → T) : (p.map f).map g = p.map (g ∘ f) := by
  obtain ⟨parse, once⟩ := p
  simp only [Parser.map, Parser.mk.injEq]
  constructor
  · funext s; cases parse s using Run.casesRun with
    | ret r => cases r <;> rfl
    | fault f => rfl
    | diverge => rfl
  · funext s; cases once s using Run.casesRun with
    | ret r => cases r <;> rfl
    | fault f => rfl
    | diverge => rfl

theorem C20_map_err_comp (p : Parser S O E) (f : E → T₀) (g : T₀ → T) :
    (p.mapErr f).mapErr g = p.mapErr (g ∘ f) := by
  obtain ⟨parse, once⟩ := p
  simp only [Parser.mapErr, Parser.mk.injEq]
  constructor
  · funext s; cases parse s using Run.casesRun with
    | ret r => cases r <;> rfl
    | fault f => rfl
    | diverge => rfl
  · funext s; cases once s using Run.casesRun with
    | ret r => cases r <;> rfl
    | fault f => rfl
    | diverge => rfl

end Parcom
