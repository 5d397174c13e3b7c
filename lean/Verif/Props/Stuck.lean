import Verif.Props.Combinator
import Verif.Props.Leaves
/-!
# C107: where combinators panic and hang

C15 to C19 say when combinators succeed and fail. Here is what is left: a combinator panics, or never returns, exactly where a
parser it runs does. (For `repeat`, which can also go on for ever, see C18; for `map` and its like, and `and_then`, see C20; for
`fold` and `collect`, see C26 and C27.)
-/
namespace Parcom
open Spec

variable {S O O₀ O₁ E E₀ E₁ : Type}

/-- C107 (`join`). -/
theorem C107_join (p : Parser S O₀ E₀) (q : Parser S O₁ E₁) (s : S) :
    (∀ f, (p.join q).parse s = Run.fault f ↔
      p.parse s = Run.fault f ∨ ∃ v r, p.parse s = pure (.ok v r) ∧ q.parse r = Run.fault f) ∧
    ((p.join q).parse s = Run.diverge ↔
      p.parse s = Run.diverge ∨ ∃ v r, p.parse s = pure (.ok v r) ∧ q.parse r = Run.diverge) := by
  cases hps : p.parse s using Run.casesRun with
  | ret res =>
    rcases res with ⟨v, r⟩ | ⟨e, u⟩
    · cases hqr : q.parse r using Run.casesRun with
      | ret res => rcases res with ⟨w, t⟩ | ⟨e, u⟩ <;> simp [Parser.join, hps, hqr, done]
      | fault f =>
        simp only [Parser.join, hps, hqr, Run.ret_bind, Run.fault_bind]
        refine ⟨fun f' => ⟨fun h => .inr ⟨v, r, rfl, by simp at h; rw [hqr, h]⟩, ?_⟩, ⟨by simp, ?_⟩⟩
        · rintro (h | ⟨v', r', h, h'⟩)
          · simp at h
          · simp at h; rw [← h.2, hqr] at h'; simp at h' ⊢ <;> exact h'
        · rintro (h | ⟨v', r', h, h'⟩)
          · simp at h
          · simp at h; rw [← h.2, hqr] at h'; simp at h' ⊢ <;> exact h'
      | diverge =>
        simp only [Parser.join, hps, hqr, Run.ret_bind, Run.diverge_bind]
        refine ⟨fun f' => ⟨by simp, ?_⟩, ⟨fun _ => .inr ⟨v, r, rfl, hqr⟩, fun _ => trivial⟩⟩
        rintro (h | ⟨v', r', h, h'⟩)
        · simp at h
        · simp at h; rw [← h.2, hqr] at h'; simp at h' ⊢ <;> exact h'
    · simp [Parser.join, hps]
  | fault f => simp [Parser.join, hps]
  | diverge => simp [Parser.join, hps]

section
variable [RewindSequence S] [L : RewindLaw S] [ParseError E₀] [ParseError E₁]

/-- C107 (`or`). -/
theorem C107_or (p : Parser S O₀ E₀) (q : Parser S O₁ E₁) (hp : Descends p.parse) (s : S) :
    (∀ f, (p.or q).parse s = Run.fault f ↔ p.parse s = Run.fault f ∨
      ∃ e u, p.parse s = pure (.err e u) ∧ shouldTerminate e = false ∧ q.parse s = Run.fault f) ∧
    ((p.or q).parse s = Run.diverge ↔ p.parse s = Run.diverge ∨
      ∃ e u, p.parse s = pure (.err e u) ∧ shouldTerminate e = false ∧ q.parse s = Run.diverge) := by
  cases hps : p.parse s using Run.casesRun with
  | ret res =>
    rcases res with ⟨v, r⟩ | ⟨e, u⟩
    · simp [or_ok p q hps]
    · by_cases he : shouldTerminate e = true
      · simp [or_fatal p q hps he]
        exact ⟨fun f h => by rw [he] at h; simp at h, fun h => by rw [he] at h; simp at h⟩
      · have he' : shouldTerminate e = false := by simpa using he
        rw [or_second p q hp hps he']
        cases hqs : q.parse s using Run.casesRun with
        | ret res => rcases res with ⟨w, t⟩ | ⟨e, u⟩ <;> simp
        | fault f => simp [he']
        | diverge => simp [he']
  | fault f => simp [Parser.or, hps]
  | diverge => simp [Parser.or, hps]

end

section
variable [RewindSequence S] [L : RewindLaw S] [ParseError E]

/-- C107 (`optional`). -/
theorem C107_optional (p : Parser S O E) (hp : Descends p.parse) (s : S) :
    (∀ f, p.optional.parse s = Run.fault f ↔ p.parse s = Run.fault f) ∧
    (p.optional.parse s = Run.diverge ↔ p.parse s = Run.diverge) := by
  cases hps : p.parse s using Run.casesRun with
  | ret res =>
    rcases res with ⟨v, r⟩ | ⟨e, u⟩
    · simp [Parser.optional, hps, done]
    · have hw : u.rewind (anchor s) = pure s := L.rewind (hp.err hps)
      by_cases he : shouldTerminate e = true <;> simp [Parser.optional, hps, hw, he, done, fail]
  | fault f => simp [Parser.optional, hps]
  | diverge => simp [Parser.optional, hps]

/-- C107 (`repeat`): it panics exactly when its body does, after some successes. -/
theorem C107_repeat (p : Parser S O E) (hp : Descends p.parse) (s : S) (f : Fault) :
    p.repeat.parse s = Run.fault f ↔ ∃ vs t, RunOf p.parse s vs t ∧ p.parse t = Run.fault f := by
  constructor
  · suffices hf : ∀ buf s, (repeatLoop p.parse buf s) = Run.fault f → ∃ vs t, RunOf p.parse s vs t ∧ p.parse t = Run.fault f from
      hf [] s
    refine repeatLoop.fixpoint_induct (parse := p.parse) (motive := fun g => ∀ buf s, g buf s = Run.fault f →
      ∃ vs t, RunOf p.parse s vs t ∧ p.parse t = Run.fault f) ?_ ?_
    · exact Run.admissible_fun₂ (fun _ s x => x = Run.fault f →
        ∃ vs t, RunOf p.parse s vs t ∧ p.parse t = Run.fault f) (by intro _ _ h; simp at h)
    · intro g ih buf s hg
      cases hps : p.parse s using Run.casesRun with
      | ret res =>
        rcases res with ⟨v, r⟩ | ⟨e, u⟩
        · simp only [hps, Run.ret_bind] at hg
          obtain ⟨vs, t, h1, h2⟩ := ih _ _ hg
          exact ⟨v :: vs, t, .cons hps h1, h2⟩
        · have hw : u.rewind (anchor s) = pure s := L.rewind (hp.err hps)
          simp only [hps, Run.ret_bind, hw] at hg
          by_cases he : shouldTerminate e = true <;> simp [he] at hg
      | fault f' =>
        simp [hps] at hg
        exact ⟨[], s, .nil s, by rw [hps, hg]⟩
      | diverge => simp [hps] at hg
  · rintro ⟨vs, t, h1, h2⟩
    show repeatLoop _ _ _ = _
    rw [repeatLoop_run [] h1, repeatLoop, h2]
    rfl

end

/-- A keyword of two bytes in front of a char of three: `atom` panics there, and with it what is made of it. -/
example : let s : StrRef := { alloc := 1, off := 0, text := ⟨['あ']⟩ }
    ((atom (⟨['a', 'b']⟩ : Str)).join (theChar 'c')).parse s = Run.fault .charBoundary ∧
    ((theChar 'c').or (atom (⟨['a', 'b']⟩ : Str))).parse s = Run.fault .charBoundary ∧
    ((atom (⟨['a', 'b']⟩ : Str)).repeat).parse s = Run.fault .charBoundary := by
  intro s
  have hd : Descends (theChar (S := StrRef) 'c').parse := (tidy_iff.mp (tidy_theChar 'c')).1
  have hd' : Descends (atom (S := StrRef) (⟨['a', 'b']⟩ : Str)).parse := (tidy_iff.mp (tidy_atomText strRef_one _)).1
  have ha : (atom (⟨['a', 'b']⟩ : Str)).parse s = Run.fault .charBoundary := by
    refine (atom_str ⟨['a', 'b']⟩ s).2.2 ?_
    rintro (⟨q, h1, h2⟩ | ⟨q, h1, h2⟩)
    · have h3 := h1.length_le
      rw [List.prefix_iff_eq_take] at h1
      have : ∀ n ≤ 1, textBytes (['あ'].take n) ≠ 2 := by decide
      exact this q.length h3 (by rw [← h1]; exact h2)
    · have h3 := h1.length_le
      rw [List.prefix_iff_eq_take] at h1
      have : ∀ n ≤ 2, textBytes (['a', 'b'].take n) ≠ 3 := by decide
      exact this q.length h3 (by rw [← h1]; exact h2)
  obtain ⟨u, hm, _⟩ := (C10_the_char 'c' s).2 (by decide)
  exact ⟨((C107_join _ _ s).1 _).mpr (.inl ha), ((C107_or _ _ hd s).1 _).mpr (.inr ⟨_, u, hm, rfl, ha⟩),
    (C107_repeat _ hd' s _).mpr ⟨[], s, .nil s, ha⟩⟩

end Parcom
