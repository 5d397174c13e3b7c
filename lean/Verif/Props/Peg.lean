import Verif.Spec.Peg
import Verif.Props.Nesting
import Verif.Props.Primitive
import Verif.Props.Combinator
/-!
# C25: grammars
-/
namespace Parcom
open Spec

/-- The semantics leaves no choice. -/
theorem Spec.Peg.Matches.det {g : Peg} {cs : List Char} {r r' : Option (List Char)} (h : g.Matches cs r)
    (h' : g.Matches cs r') : r = r' := by
  induction h generalizing r' with
  | char c cs => cases h' with
    | char => rfl
    | charFails _ _ h => simp at h
  | charFails c cs h => cases h' with
    | char => simp at h
    | charFails => rfl
  | any c cs => cases h'; rfl
  | anyFails => cases h'; rfl
  | seq _ _ ih1 ih2 => cases h' with
    | seq a b => have := ih1 a; simp at this; subst this; exact ih2 b
    | seqFails a => have := ih1 a; simp at this
  | seqFails _ ih => cases h' with
    | seq a b => have := ih a; simp at this
    | seqFails a => rfl
  | altFirst _ ih => cases h' with
    | altFirst a => exact ih a
    | altSecond a b => have := ih a; simp at this
  | altSecond _ _ ih1 ih2 => cases h' with
    | altFirst a => have := ih1 a; simp at this
    | altSecond a b => exact ih2 b
  | opt _ ih => cases h' with
    | opt a => exact ih a
    | optNot a => have := ih a; simp at this
  | optNot _ ih => cases h' with
    | opt a => have := ih a; simp at this
    | optNot a => rfl
  | starEnd _ ih => cases h' with
    | starEnd a => rfl
    | starMore a b => have := ih a; simp at this
  | starMore _ _ ih1 ih2 => cases h' with
    | starEnd a => have := ih1 a; simp at this
    | starMore a b => have := ih1 a; simp at this; subst this; exact ih2 b

variable {S O O₀ O₁ E E₀ E₁ T : Type} [Sequence S Str] [RewindSequence S] [LawfulSequence S] [L : LawfulRewind S]

/-- What C25 says of one parser, with what the induction needs. -/
structure FollowsPeg (i : ParseError E) (f : S → Run (PResult S O E)) (g : Peg) : Prop where
  tidy : Tidy f
  sane : ∀ s x, f s ≠ Run.fault x
  mild : ∀ s e u, f s = pure (.err e u) → i.shouldTerminate e = false
  ok : ∀ s v r, f s = pure (.ok v r) → g.Matches (content s) (some (content r))
  err : ∀ s e u, f s = pure (.err e u) → g.Matches (content s) none
  hits : ∀ s ds, g.Matches (content s) (some ds) → ∃ v r, f s = pure (.ok v r) ∧ content r = ds
  misses : ∀ s, g.Matches (content s) none → ∃ e u, f s = pure (.err e u)

theorem FollowsPeg.descends {i : ParseError E} {f : S → Run (PResult S O E)} {g : Peg} (h : FollowsPeg i f g) :
    Descends f := (tidy_iff.mp h.tidy).1

theorem follows_char (c : Char) : FollowsPeg inferInstance (theChar (S := S) c).parse (.char c) := by
  have key : ∀ s : S, (∃ cs r, content s = c :: cs ∧ (theChar c).parse s = pure (.ok () r) ∧ content r = cs) ∨
      ((content s).head? ≠ some c ∧ ∃ u, (theChar c).parse s = pure (.err ⟨()⟩ u)) := by
    intro s
    by_cases h : (content s).head? = some c
    · obtain ⟨cs, hcs⟩ := List.head?_eq_some_iff.mp h
      obtain ⟨r, h1, h2⟩ := (C10_the_char c s).1 cs hcs
      exact .inl ⟨cs, r, hcs, h1, h2⟩
    · obtain ⟨u, h1, _⟩ := (C10_the_char c s).2 h
      exact .inr ⟨h, u, h1⟩
  refine ⟨tidy_theChar c, ?_, fun _ _ _ _ => rfl, ?_, ?_, ?_, ?_⟩
  · intro s x h; rcases key s with ⟨cs, r, h1, h2, h3⟩ | ⟨h1, u, h2⟩ <;> rw [h2] at h <;> simp at h
  · intro s v r h
    rcases key s with ⟨cs, r, h1, h2, h3⟩ | ⟨h1, u, h2⟩ <;> rw [h2] at h <;> simp at h
    rw [h1, ← h, h3]; exact .char c cs
  · intro s v r h
    rcases key s with ⟨cs, r, h1, h2, h3⟩ | ⟨h1, u, h2⟩ <;> rw [h2] at h <;> simp at h
    exact .charFails c _ h1
  · intro s ds h
    rcases key s with ⟨cs, r, h1, h2, h3⟩ | ⟨h1, u, h2⟩
    · rw [h1] at h
      cases h
      exact ⟨_, _, h2, h3⟩
    · have := h.det (.charFails c _ h1); simp at this
  · intro s h
    rcases key s with ⟨cs, r, h1, h2, h3⟩ | ⟨h1, u, h2⟩
    · rw [h1] at h
      have := h.det (.char c cs); simp at this
    · exact ⟨_, _, h2⟩

theorem follows_any : FollowsPeg inferInstance (anyChar (S := S)).parse .any := by
  have key : ∀ s : S, (∃ c cs r, content s = c :: cs ∧ anyChar.parse s = pure (.ok c r) ∧ content r = cs) ∨
      (content s = [] ∧ ∃ u, anyChar.parse s = pure (.err ⟨()⟩ u)) := by
    intro s
    cases h : content s with
    | cons c cs =>
      obtain ⟨r, h1, h2⟩ := (C09_any_char s).1 c cs h
      exact .inl ⟨c, cs, r, rfl, h1, h2⟩
    | nil =>
      obtain ⟨u, h1, _⟩ := (C09_any_char s).2 h
      exact .inr ⟨rfl, u, h1⟩
  refine ⟨tidy_anyChar, ?_, fun _ _ _ _ => rfl, ?_, ?_, ?_, ?_⟩
  · intro s x h; rcases key s with ⟨c, cs, r, h1, h2, h3⟩ | ⟨h1, u, h2⟩ <;> rw [h2] at h <;> simp at h
  · intro s v r h
    rcases key s with ⟨c, cs, r, h1, h2, h3⟩ | ⟨h1, u, h2⟩ <;> rw [h2] at h <;> simp at h
    rw [h1, ← h.2, h3]; exact .any c cs
  · intro s v r h
    rcases key s with ⟨c, cs, r, h1, h2, h3⟩ | ⟨h1, u, h2⟩ <;> rw [h2] at h <;> simp at h
    rw [h1]; exact .anyFails
  · intro s ds h
    rcases key s with ⟨c, cs, r, h1, h2, h3⟩ | ⟨h1, u, h2⟩
    · rw [h1] at h
      cases h
      exact ⟨_, _, h2, h3⟩
    · rw [h1] at h; cases h
  · intro s h
    rcases key s with ⟨c, cs, r, h1, h2, h3⟩ | ⟨h1, u, h2⟩
    · rw [h1] at h; cases h
    · exact ⟨_, _, h2⟩

theorem follows_seq [i₀ : ParseError E₀] [i₁ : ParseError E₁] {p : Parser S O₀ E₀} {q : Parser S O₁ E₁} {g h : Peg}
    (hp : FollowsPeg i₀ p.parse g) (hq : FollowsPeg i₁ q.parse h) :
    FollowsPeg inferInstance (p.join q).parse (.seq g h) := by
  refine ⟨tidy_join hp.tidy hq.tidy, ?_, ?_, ?_, ?_, ?_, ?_⟩
  · intro s x
    refine Run.avoids_bind (bad := fun _ => True) (fun f _ => hp.sane s f) (fun res _ => ?_) x trivial
    cases res with
    | ok v r =>
      refine Run.avoids_bind (fun f _ => hq.sane r f) (fun res _ => ?_)
      cases res <;> exact Run.avoids_pure
    | err e u => exact Run.avoids_pure
  · intro s e u ht
    rcases (C19_join_fails p q s e u).mp ht with ⟨e0, h1, rfl⟩ | ⟨v, r, e1, h1, h2, rfl⟩
    · exact hp.mild _ _ _ h1
    · exact hq.mild _ _ _ h2
  · rintro s ⟨v, w⟩ t ht
    obtain ⟨r, h1, h2⟩ := (C19_join_succeeds p q s v w t).mp ht
    exact .seq (hp.ok _ _ _ h1) (hq.ok _ _ _ h2)
  · intro s e u ht
    rcases (C19_join_fails p q s e u).mp ht with ⟨e0, h1, -⟩ | ⟨v, r, e1, h1, h2, -⟩
    · exact .seqFails (hp.err _ _ _ h1)
    · exact .seq (hp.ok _ _ _ h1) (hq.err _ _ _ h2)
  · intro s ds hm
    cases hm with
    | seq a b =>
      obtain ⟨v, r, h1, rfl⟩ := hp.hits _ _ a
      obtain ⟨w, t, h2, rfl⟩ := hq.hits _ _ b
      exact ⟨(v, w), t, (C19_join_succeeds p q s v w t).mpr ⟨r, h1, h2⟩, rfl⟩
  · intro s hm
    cases hm with
    | seq a b =>
      obtain ⟨v, r, h1, rfl⟩ := hp.hits _ _ a
      obtain ⟨e, u, h2⟩ := hq.misses _ b
      exact ⟨_, u, (C19_join_fails p q s _ u).mpr (.inr ⟨v, r, e, h1, h2, rfl⟩)⟩
    | seqFails a =>
      obtain ⟨e, u, h1⟩ := hp.misses _ a
      exact ⟨_, u, (C19_join_fails p q s _ u).mpr (.inl ⟨e, h1, rfl⟩)⟩

theorem follows_alt [i₀ : ParseError E₀] [i₁ : ParseError E₁] {p : Parser S O₀ E₀} {q : Parser S O₁ E₁} {g h : Peg}
    (hp : FollowsPeg i₀ p.parse g) (hq : FollowsPeg i₁ q.parse h) :
    FollowsPeg inferInstance (p.or q).parse (.alt g h) := by
  refine ⟨tidy_or hp.tidy hq.tidy, ?_, ?_, ?_, ?_, ?_, ?_⟩
  · intro s x hx
    cases h0 : p.parse s using Run.casesRun with
    | ret res =>
      rcases res with ⟨v, r⟩ | ⟨e, u⟩
      · rw [or_ok p q h0] at hx; simp at hx
      · rw [or_second p q hp.descends h0 (hp.mild _ _ _ h0)] at hx
        revert hx
        refine Run.avoids_bind (bad := fun _ => True) (fun f _ => hq.sane s f) (fun res _ => ?_) x trivial
        cases res <;> exact Run.avoids_pure
    | fault f => exact hp.sane _ _ h0
    | diverge => simp [Parser.or, h0] at hx
  · intro s e u ht
    rcases (C15_or_fails p q hp.descends s e u).mp ht with ⟨e0, h1, h2, rfl⟩ | ⟨e0, u0, e1, h1, h3, h2, h4⟩
    · exact hp.mild _ _ _ h1
    · have h5 := hq.mild _ _ _ h2
      rcases h4 with ⟨h4, rfl⟩ | ⟨h4, rfl⟩
      · exact h5
      · show (shouldTerminate e0 || shouldTerminate e1) = false; rw [h3, h4]; rfl
  · intro s o r ht
    rcases (C15_or_succeeds p q hp.descends s o r).mp ht with ⟨v, h1, -⟩ | ⟨e, u, v, h1, -, h2, -⟩
    · exact .altFirst (hp.ok _ _ _ h1)
    · exact .altSecond (hp.err _ _ _ h1) (hq.ok _ _ _ h2)
  · intro s e u ht
    rcases (C15_or_fails p q hp.descends s e u).mp ht with ⟨e0, h1, h2, -⟩ | ⟨e0, u0, e1, h1, -, h2, -⟩
    · rw [hp.mild _ _ _ h1] at h2; simp at h2
    · exact .altSecond (hp.err _ _ _ h1) (hq.err _ _ _ h2)
  · intro s ds hm
    cases hm with
    | altFirst a =>
      obtain ⟨v, r, h1, rfl⟩ := hp.hits _ _ a
      exact ⟨_, r, (C15_or_succeeds p q hp.descends s _ r).mpr (.inl ⟨v, h1, rfl⟩), rfl⟩
    | altSecond a b =>
      obtain ⟨e, u, h1⟩ := hp.misses _ a
      obtain ⟨v, r, h2, rfl⟩ := hq.hits _ _ b
      exact ⟨_, r, (C15_or_succeeds p q hp.descends s _ r).mpr (.inr ⟨e, u, v, h1, hp.mild _ _ _ h1, h2, rfl⟩), rfl⟩
  · intro s hm
    cases hm with
    | altSecond a b =>
      obtain ⟨e, u, h1⟩ := hp.misses _ a
      obtain ⟨e1, u1, h2⟩ := hq.misses _ b
      exact ⟨_, u1, (C15_or_fails p q hp.descends s _ u1).mpr
        (.inr ⟨e, u, e1, h1, hp.mild _ _ _ h1, h2, .inr ⟨hq.mild _ _ _ h2, rfl⟩⟩)⟩

theorem follows_opt [i : ParseError E] {p : Parser S O E} {g : Peg} (hp : FollowsPeg i p.parse g) :
    FollowsPeg i p.optional.parse (.opt g) := by
  refine ⟨tidy_optional hp.tidy, ?_, fun s e u h => hp.mild s e u ((C16_optional_fails p hp.descends s e u).mp h).1, ?_, ?_, ?_, ?_⟩
  · intro s x hx
    revert hx
    refine Run.avoids_bind (bad := fun _ => True) (fun f _ => hp.sane s f) (fun res h => ?_) x trivial
    cases res with
    | ok v r => exact Run.avoids_pure
    | err e u =>
      refine Run.avoids_ite (fun _ => ?_) (fun _ => Run.avoids_pure)
      have hw : u.rewind (anchor s) = pure s := L.rewind (hp.descends.err h)
      rw [hw]
      exact Run.avoids_pure
  · intro s o r ht
    rcases (C16_optional_succeeds p hp.descends s o r).mp ht with ⟨v, h1, -⟩ | ⟨e, u, h1, -, -, rfl⟩
    · exact .opt (hp.ok _ _ _ h1)
    · exact .optNot (hp.err _ _ _ h1)
  · intro s e u ht
    have := (C16_optional_fails p hp.descends s e u).mp ht
    rw [hp.mild _ _ _ this.1] at this
    simp at this
  · intro s ds hm
    cases hm with
    | opt a =>
      obtain ⟨v, r, h1, rfl⟩ := hp.hits _ _ a
      exact ⟨_, r, (C16_optional_succeeds p hp.descends s _ r).mpr (.inl ⟨v, h1, rfl⟩), rfl⟩
    | optNot a =>
      obtain ⟨e, u, h1⟩ := hp.misses _ a
      exact ⟨_, s, (C16_optional_succeeds p hp.descends s _ s).mpr (.inr ⟨e, u, h1, hp.mild _ _ _ h1, rfl, rfl⟩), rfl⟩
  · intro s hm; cases hm

theorem follows_star [i : ParseError E] {p : Parser S O E} {g : Peg} (hp : FollowsPeg i p.parse g) :
    FollowsPeg i p.repeat.parse (.star g) := by
  have hrun : ∀ s t vs e u, RunOf p.parse s vs t → p.parse t = pure (.err e u) →
      (Peg.star g).Matches (content s) (some (content t)) := by
    intro s t vs e u hr he
    induction hr with
    | nil s => exact .starEnd (hp.err _ _ _ he)
    | cons h1 _ ih => exact .starMore (hp.ok _ _ _ h1) (ih he)
  refine ⟨tidy_repeat hp.tidy, ?_, ?_, ?_, ?_, ?_, ?_⟩
  · suffices H : ∀ buf s, (repeatLoop p.parse buf s).Avoids fun _ => True from fun s x hx => H [] s x trivial hx
    refine repeatLoop.fixpoint_induct (parse := p.parse) (motive := fun g => ∀ buf s, Run.Avoids (fun _ => True) (g buf s))
      Run.admissible_avoids₂ ?_
    intro k ih buf s
    refine Run.avoids_bind (fun f _ => hp.sane s f) (fun res h => ?_)
    cases res with
    | ok v r => exact ih _ _
    | err e u =>
      refine Run.avoids_ite (fun _ => Run.avoids_pure) (fun _ => ?_)
      have hw : u.rewind (anchor s) = pure s := L.rewind (hp.descends.err h)
      rw [hw]
      exact Run.avoids_pure
  · intro s e u ht
    obtain ⟨_, _, _, h1, -⟩ := (C17_repeat_fails p hp.descends s e u).mp ht
    exact hp.mild _ _ _ h1
  · rintro s ⟨vs, e⟩ r ht
    obtain ⟨h1, u, h2, -⟩ := (C17_repeat_succeeds p hp.descends s vs e r).mp ht
    exact hrun _ _ _ _ _ h1 h2
  · intro s e u ht
    obtain ⟨_, _, _, h1, h⟩ := (C17_repeat_fails p hp.descends s e u).mp ht
    rw [hp.mild _ _ _ h1] at h
    simp at h
  · intro s ds hm
    have H : ∀ g' cs r, Peg.Matches g' cs r → g' = .star g → ∀ s : S, content s = cs → ∀ ds, r = some ds →
        ∃ vs t e u, RunOf p.parse s vs t ∧ p.parse t = pure (.err e u) ∧ content t = ds := by
      intro g' cs r hm
      induction hm <;> intro hg s hs ds hds <;> cases hg
      case starEnd a _ =>
        subst hs
        simp at hds
        obtain ⟨e, u, h1⟩ := hp.misses _ a
        exact ⟨[], s, e, u, .nil s, h1, hds⟩
      case starMore a _ _ ih =>
        subst hs
        obtain ⟨v, r, h1, h2⟩ := hp.hits _ _ a
        obtain ⟨vs, t, e, u, h3, h4, h5⟩ := ih rfl r h2 ds hds
        exact ⟨v :: vs, t, e, u, .cons h1 h3, h4, h5⟩
    obtain ⟨vs, t, e, u, h1, h2, h3⟩ := H _ _ _ hm rfl s rfl ds rfl
    exact ⟨(vs, e), t, (C17_repeat_succeeds p hp.descends s vs e t).mpr ⟨h1, u, h2, hp.mild _ _ _ h2⟩, h3⟩
  · intro s hm
    have H : ∀ g' cs r, Peg.Matches g' cs r → g' = .star g → r ≠ none := by
      intro g' cs r hm
      induction hm <;> intro hg <;> cases hg
      case starEnd => simp
      case starMore ih => exact ih rfl
    exact absurd rfl (H _ _ _ hm rfl)

theorem follows_map [i : ParseError E] {p : Parser S O E} {g : Peg} (f : O → T) (hp : FollowsPeg i p.parse g) :
    FollowsPeg i (p.map f).parse g := by
  have key : ∀ s, (p.map f).parse s = (do
      match ← p.parse s with
      | .ok v r => return .ok (f v) r
      | .err e u => return .err e u) := by
    intro s
    cases h0 : p.parse s using Run.casesRun with
    | ret res => cases res <;> simp [Parser.map, h0]
    | fault f => simp [Parser.map, h0]
    | diverge => simp [Parser.map, h0]
  refine ⟨tidy_bind hp.tidy _ fun res => by cases res <;> exact ⟨_, rfl, rfl⟩, ?_, ?_, ?_, ?_, ?_, ?_⟩
  · intro s x
    rw [key]
    refine Run.avoids_bind (bad := fun _ => True) (fun f _ => hp.sane s f) (fun res _ => ?_) x trivial
    cases res <;> exact Run.avoids_pure
  · intro s e u h
    rw [key, Run.bind_eq_pure] at h
    obtain ⟨⟨v', r'⟩ | ⟨e, u⟩, h1, h2⟩ := h <;> simp [Run.pure_eq] at h2
    obtain ⟨rfl, rfl⟩ := h2
    exact hp.mild _ _ _ h1
  · intro s v r h
    rw [key, Run.bind_eq_pure] at h
    obtain ⟨⟨v', r'⟩ | ⟨e, u⟩, h1, h2⟩ := h <;> simp [Run.pure_eq] at h2
    obtain ⟨-, rfl⟩ := h2
    exact hp.ok _ _ _ h1
  · intro s v r h
    rw [key, Run.bind_eq_pure] at h
    obtain ⟨⟨v', r'⟩ | ⟨e, u⟩, h1, h2⟩ := h <;> simp [Run.pure_eq] at h2
    exact hp.err _ _ _ h1
  · intro s ds hm
    obtain ⟨v, r, h1, h2⟩ := hp.hits _ _ hm
    exact ⟨f v, r, by simp [key, h1], h2⟩
  · intro s hm
    obtain ⟨e, u, h1⟩ := hp.misses _ hm
    exact ⟨e, u, by simp [key, h1]⟩

theorem follows_mapErr [i : ParseError E] [j : ParseError T] {p : Parser S O E} {g : Peg} (f : E → T)
    (hf : ∀ e, shouldTerminate (f e) = false) (hp : FollowsPeg i p.parse g) :
    FollowsPeg j (p.mapErr f).parse g := by
  have key : ∀ s, (p.mapErr f).parse s = (do
      match ← p.parse s with
      | .ok v r => return .ok v r
      | .err e u => return .err (f e) u) := by
    intro s
    cases h0 : p.parse s using Run.casesRun with
    | ret res => cases res <;> simp [Parser.mapErr, h0]
    | fault f => simp [Parser.mapErr, h0]
    | diverge => simp [Parser.mapErr, h0]
  refine ⟨tidy_bind hp.tidy _ fun res => by cases res <;> exact ⟨_, rfl, rfl⟩, ?_, ?_, ?_, ?_, ?_, ?_⟩
  · intro s x
    rw [key]
    refine Run.avoids_bind (bad := fun _ => True) (fun f _ => hp.sane s f) (fun res _ => ?_) x trivial
    cases res <;> exact Run.avoids_pure
  · intro s e u h
    rw [key, Run.bind_eq_pure] at h
    obtain ⟨⟨v', r'⟩ | ⟨e, u⟩, h1, h2⟩ := h <;> simp [Run.pure_eq] at h2
    obtain ⟨rfl, rfl⟩ := h2
    exact hf _
  · intro s v r h
    rw [key, Run.bind_eq_pure] at h
    obtain ⟨⟨v', r'⟩ | ⟨e, u⟩, h1, h2⟩ := h <;> simp [Run.pure_eq] at h2
    obtain ⟨-, rfl⟩ := h2
    exact hp.ok _ _ _ h1
  · intro s v r h
    rw [key, Run.bind_eq_pure] at h
    obtain ⟨⟨v', r'⟩ | ⟨e, u⟩, h1, h2⟩ := h <;> simp [Run.pure_eq] at h2
    exact hp.err _ _ _ h1
  · intro s ds hm
    obtain ⟨v, r, h1, h2⟩ := hp.hits _ _ hm
    exact ⟨v, r, by simp [key, h1], h2⟩
  · intro s hm
    obtain ⟨e, u, h1⟩ := hp.misses _ hm
    exact ⟨f e, u, by simp [key, h1]⟩

theorem follows {i : ParseError E} {p : Parser S O E} {g : Peg} (h : Spells i p g) : FollowsPeg i p.parse g := by
  induction h with
  | char c => exact follows_char c
  | any => exact follows_any
  | seq _ _ h1 h2 => exact follows_seq h1 h2
  | alt _ _ h1 h2 => exact follows_alt h1 h2
  | opt _ h => exact follows_opt h
  | star _ h => exact follows_star h
  | map f _ h => exact follows_map f h
  | mapErr f hf _ h => exact follows_mapErr f hf h

/-- C25: a parser that spells out a grammar succeeds with rest `ds` exactly when the grammar matches leaving `ds`. -/
theorem C25_recognises [i : ParseError E] {p : Parser S O E} {g : Peg} (h : Spells i p g) (s : S) (ds : List Char) :
    (∃ v r, p.parse s = pure (.ok v r) ∧ content r = ds) ↔ g.Matches (content s) (some ds) := by
  constructor
  · rintro ⟨v, r, h1, rfl⟩; exact (follows h).ok _ _ _ h1
  · exact (follows h).hits s ds

/-- C25: it fails exactly when the grammar does not match. -/
theorem C25_rejects [i : ParseError E] {p : Parser S O E} {g : Peg} (h : Spells i p g) (s : S) :
    (∃ e u, p.parse s = pure (.err e u)) ↔ g.Matches (content s) none := by
  constructor
  · rintro ⟨v, r, h1⟩; exact (follows h).err _ _ _ h1
  · exact (follows h).misses s

/-- C25: it runs for ever exactly when the grammar gives no verdict (a repetition that matches the empty prefix for
ever), and never panics. -/
theorem C25_diverges [i : ParseError E] {p : Parser S O E} {g : Peg} (h : Spells i p g) (s : S) :
    (p.parse s = Run.diverge ↔ ∀ r, ¬ g.Matches (content s) r) ∧ ∀ x, p.parse s ≠ Run.fault x := by
  refine ⟨⟨?_, ?_⟩, (follows h).sane s⟩
  · rintro h1 (_ | ds) hm
    · obtain ⟨e, u, h2⟩ := (follows h).misses s hm; rw [h1] at h2; simp at h2
    · obtain ⟨v, r, h2, -⟩ := (follows h).hits s ds hm; rw [h1] at h2; simp at h2
  · intro hn
    cases h1 : p.parse s using Run.casesRun with
    | ret res =>
      rcases res with ⟨v, r⟩ | ⟨e, u⟩
      · exact absurd ((follows h).ok _ _ _ h1) (hn _)
      · exact absurd ((follows h).err _ _ _ h1) (hn _)
    | fault f => exact absurd h1 ((follows h).sane s f)
    | diverge => rfl

omit [Sequence S Str] [RewindSequence S] [LawfulSequence S] L in
/-- C25: every grammar has a parser, so the theorems above are about all grammars. -/
theorem C25_every_grammar [Sequence S Str] [RewindSequence S] (g : Peg) :
    ∃ p : Parser S Unit (Miss Unit), Spells inferInstance p g := by
  induction g with
  | char c => exact ⟨theChar c, .char c⟩
  | any => exact ⟨_, .map (fun _ => ()) .any⟩
  | seq g h ihg ihh =>
    obtain ⟨p, hp⟩ := ihg; obtain ⟨q, hq⟩ := ihh
    exact ⟨_, .map (fun _ => ()) (.mapErr (fun _ => ⟨()⟩) (fun _ => rfl) (.seq hp hq))⟩
  | alt g h ihg ihh =>
    obtain ⟨p, hp⟩ := ihg; obtain ⟨q, hq⟩ := ihh
    exact ⟨_, .map (fun _ => ()) (.mapErr (fun _ => ⟨()⟩) (fun _ => rfl) (.alt hp hq))⟩
  | opt g ih => obtain ⟨p, hp⟩ := ih; exact ⟨_, .map (fun _ => ()) (.opt hp)⟩
  | star g ih => obtain ⟨p, hp⟩ := ih; exact ⟨_, .map (fun _ => ()) (.star hp)⟩

/-- Non-vacuity: `(a / ab) c` on `abc`. The choice is committed to `a`, so the text is rejected. -/
example : ∃ e u, (((theChar 'a').or ((theChar 'a').join (theChar 'b'))).join (theChar 'c')).parse
    ({ alloc := 1, off := 0, text := ⟨['a', 'b', 'c']⟩ } : StrRef) = pure (.err e u) := by
  refine (C25_rejects (g := .seq (.alt (.char 'a') (.seq (.char 'a') (.char 'b'))) (.char 'c'))
    (.seq (.alt (.char _) (.seq (.char _) (.char _))) (.char _)) _).mpr ?_
  exact .seq (.altFirst (.char 'a' ['b', 'c'])) (.charFails 'c' _ (by simp))

/-- Non-vacuity: `a* b? .` on `aab`: the repetition and the option are greedy, so nothing is left for `.`. -/
example : ∃ e u, (((theChar 'a').repeat.join (theChar 'b').optional).join anyChar).parse
    ({ alloc := 1, off := 0, text := ⟨['a', 'a', 'b']⟩ } : StrRef) = pure (.err e u) := by
  refine (C25_rejects (g := .seq (.seq (.star (.char 'a')) (.opt (.char 'b'))) .any)
    (.seq (.seq (.star (.char _)) (.opt (.char _))) .any) _).mpr ?_
  exact .seq (.seq (.starMore (.char 'a' _) (.starMore (.char 'a' _) (.starEnd (.charFails 'a' ['b'] (by simp)))))
    (.opt (.char 'b' []))) .anyFails

/-! ## C73 -/

omit [Sequence S Str] [RewindSequence S] [LawfulSequence S] L in
theorem Spec.Peg.Matches.length {g : Peg} {cs ds : List Char} {r : Option (List Char)} (h : g.Matches cs r)
    (hr : r = some ds) : ds.length ≤ cs.length ∧ (g.mayBeEmpty = false → ds.length < cs.length) := by
  induction h generalizing ds with
  | char => simp at hr; subst hr; simp
  | charFails => simp at hr
  | any => simp at hr; subst hr; simp
  | anyFails => simp at hr
  | seq _ _ ih1 ih2 =>
    obtain ⟨h1, h2⟩ := ih1 rfl
    obtain ⟨h3, h4⟩ := ih2 hr
    refine ⟨by omega, fun he => ?_⟩
    simp [Peg.mayBeEmpty] at he
    rename_i g h _ _ _ _ _
    cases hg : g.mayBeEmpty with
    | true => have := h4 (he hg); omega
    | false => have := h2 hg; omega
  | seqFails => simp at hr
  | altFirst _ ih =>
    obtain ⟨h1, h2⟩ := ih hr
    exact ⟨h1, fun he => h2 (by simp [Peg.mayBeEmpty] at he; exact he.1)⟩
  | altSecond _ _ _ ih =>
    obtain ⟨h1, h2⟩ := ih hr
    exact ⟨h1, fun he => h2 (by simp [Peg.mayBeEmpty] at he; exact he.2)⟩
  | opt _ ih => exact ⟨(ih hr).1, by simp [Peg.mayBeEmpty]⟩
  | optNot => simp at hr; subst hr; simp [Peg.mayBeEmpty]
  | starEnd => simp at hr; subst hr; simp [Peg.mayBeEmpty]
  | starMore _ _ ih1 ih2 =>
    have h1 := (ih1 rfl).1
    have h2 := (ih2 hr).1
    exact ⟨by omega, by simp [Peg.mayBeEmpty]⟩

omit [Sequence S Str] [RewindSequence S] [LawfulSequence S] L in
theorem Spec.Peg.verdict {g : Peg} (h : g.noEmptyLoop = true) (cs : List Char) : ∃ r, g.Matches cs r := by
  induction g generalizing cs with
  | char c =>
    by_cases hc : cs.head? = some c
    · obtain ⟨ds, rfl⟩ := List.head?_eq_some_iff.mp hc
      exact ⟨_, .char c ds⟩
    · exact ⟨_, .charFails c cs hc⟩
  | any => cases cs with
    | nil => exact ⟨_, .anyFails⟩
    | cons c cs => exact ⟨_, .any c cs⟩
  | seq g k ihg ihk =>
    simp [Peg.noEmptyLoop] at h
    obtain ⟨_ | ds, h1⟩ := ihg h.1 cs
    · exact ⟨_, .seqFails h1⟩
    · obtain ⟨r, h2⟩ := ihk h.2 ds
      exact ⟨_, .seq h1 h2⟩
  | alt g k ihg ihk =>
    simp [Peg.noEmptyLoop] at h
    obtain ⟨_ | ds, h1⟩ := ihg h.1 cs
    · obtain ⟨r, h2⟩ := ihk h.2 cs
      exact ⟨_, .altSecond h1 h2⟩
    · exact ⟨_, .altFirst h1⟩
  | opt g ih =>
    obtain ⟨_ | ds, h1⟩ := ih h cs
    · exact ⟨_, .optNot h1⟩
    · exact ⟨_, .opt h1⟩
  | star g ih =>
    simp [Peg.noEmptyLoop] at h
    suffices H : ∀ n cs, cs.length < n → ∃ r, (Peg.star g).Matches cs r from H _ cs (Nat.lt_succ_self _)
    intro n
    induction n with
    | zero => intro cs hn; omega
    | succ n ihn =>
      intro cs hn
      obtain ⟨_ | ds, h1⟩ := ih h.2 cs
      · exact ⟨_, .starEnd h1⟩
      · have := (h1.length rfl).2 h.1
        obtain ⟨r, h2⟩ := ihn ds (by omega)
        exact ⟨r, .starMore h1 h2⟩

/-- C73: a parser that spells out a grammar that repeats nothing that might match the empty text returns on every text. -/
theorem C73_terminates [i : ParseError E] {p : Parser S O E} {g : Peg} (h : Spells i p g) (hg : g.noEmptyLoop = true)
    (s : S) : ∃ res, p.parse s = pure res := by
  obtain ⟨_ | ds, hr⟩ := Spec.Peg.verdict hg (content s)
  · obtain ⟨e, u, h1⟩ := (C25_rejects h s).mpr hr; exact ⟨_, h1⟩
  · obtain ⟨e, u, h1, -⟩ := (C25_recognises h s ds).mpr hr; exact ⟨_, h1⟩

/-- C73: and what it leaves is never longer than what it was given. -/
theorem C73_rest_is_shorter [i : ParseError E] {p : Parser S O E} {g : Peg} (h : Spells i p g) {s r : S} {v : O}
    (hp : p.parse s = pure (.ok v r)) : (content r).length ≤ (content s).length ∧
      (g.mayBeEmpty = false → (content r).length < (content s).length) :=
  ((follows h).ok _ _ _ hp).length rfl

/-- Non-vacuity: `(a / b)* .?` -/
example : ∃ (O E : Type) (i : ParseError E) (p : Parser StrRef O E) (g : Peg), Spells i p g ∧ g.noEmptyLoop = true :=
  ⟨_, _, _, _, _, .seq (.star (.alt (.char 'a') (.char 'b'))) (.opt .any), rfl⟩

end Parcom
