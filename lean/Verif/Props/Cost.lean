import Verif.Spec.Counting
import Verif.Props.Peg
import Verif.Spec.Chunked
/-!
# C105: how much a grammar asks of its input
-/
namespace Parcom
open Spec Sequence

/-! ## What the calls of a counted sequence do -/

section
variable {S Seg : Type} [Sequence S Seg]

theorem counted_next {st : Stream S} {n k : Nat} {o : Option Seg} {st' : Stream S} (h : next st n = pure (o, st')) :
    next (S := Counted S) (st, k) n = pure (o, (st', k + 1)) := by
  show (do let (o, st') ← next st n; return (o, (st', k + 1)) : Run _) = _
  rw [h]; simp

theorem counted_advance {s s' : S} {n k : Nat} (h : advance s n = pure s') :
    advance (S := Counted S) { inner := s, calls := k } n = pure { inner := s', calls := k + 1 } := by
  show (do let s' ← advance s n; return (⟨s', k + 1⟩ : Counted S)) = _
  rw [h]; simp

theorem counted_rewind {S : Type} [RewindSequence S] {s r : S} {k j : Nat} (h : RewindSequence.rewind r (anchor s) = pure s) :
    UnknownLocation.rewind (S := Counted S) ⟨{ inner := r, calls := k }⟩ (anchor ({ inner := s, calls := j } : Counted S)) =
      pure { inner := s, calls := k + 1 } := by
  show (do let s' ← RewindSequence.rewind r (anchor s); return (⟨s', k + 1⟩ : Counted S)) = _
  rw [h]; simp

end

variable {S O O₀ O₁ E E₀ E₁ T : Type} [Sequence S Str] [RewindSequence S] [LS : LawfulSequence S]
  [L : LawfulRewind S]

/-! ## The bound, expression by expression -/

/-- What an expression can ask for at most, on `n` characters in pieces of which at most `k` are ahead. -/
def Spec.Peg.toll (k : Nat) : Peg → Nat → Nat
  | .char _, _ => k + 3
  | .any, _ => k + 3
  | .seq g h, n => g.toll k n + h.toll k n
  | .alt g h, n => g.toll k n + h.toll k n + 1
  | .opt g, n => g.toll k n + 1
  | .star g, n => (n + 1) * g.toll k n + 1

theorem Spec.Peg.toll_mono {k m n : Nat} (h : m ≤ n) (g : Peg) : g.toll k m ≤ g.toll k n := by
  induction g with
  | char | any => exact Nat.le_refl _
  | seq g h ih1 ih2 => exact Nat.add_le_add ih1 ih2
  | alt g h ih1 ih2 => exact Nat.add_le_add_right (Nat.add_le_add ih1 ih2) 1
  | opt g ih => exact Nat.add_le_add_right ih 1
  | star g ih => exact Nat.add_le_add_right (Nat.mul_le_mul (by omega) ih) 1

theorem Spec.Peg.toll_le (k n : Nat) (g : Peg) : g.toll k n ≤ (k + 4) * g.size * (n + 1) ^ g.depth := by
  have up : ∀ {a d e : Nat}, d ≤ e → a * (n + 1) ^ d ≤ a * (n + 1) ^ e := fun h =>
    Nat.mul_le_mul_left _ (Nat.pow_le_pow_right (by omega) h)
  have one : ∀ d, 1 ≤ (k + 4) * 1 * (n + 1) ^ d := fun d =>
    Nat.mul_pos (by omega) (Nat.pow_pos (by omega))
  induction g with
  | char | any => simp [toll, size, depth]
  | seq g h ih1 ih2 =>
    have h1 := Nat.le_trans ih1 (up (Nat.le_max_left g.depth h.depth))
    have h2 := Nat.le_trans ih2 (up (Nat.le_max_right g.depth h.depth))
    simp only [toll, size, depth, Nat.mul_add, Nat.add_mul]
    simp only [Nat.mul_add, Nat.add_mul] at h1 h2
    omega
  | alt g h ih1 ih2 =>
    have h1 := Nat.le_trans ih1 (up (Nat.le_max_left g.depth h.depth))
    have h2 := Nat.le_trans ih2 (up (Nat.le_max_right g.depth h.depth))
    have h3 := one (max g.depth h.depth)
    simp only [toll, size, depth, Nat.mul_add, Nat.add_mul]
    simp only [Nat.mul_add, Nat.add_mul] at h1 h2 h3
    omega
  | opt g ih =>
    have h3 := one g.depth
    simp only [toll, size, depth]
    rw [Nat.mul_add, Nat.add_mul]
    omega
  | star g ih =>
    have h3 := one (g.depth + 1)
    have h1 := Nat.mul_le_mul_left (n + 1) ih
    have h2 : (n + 1) * ((k + 4) * g.size * (n + 1) ^ g.depth) = (k + 4) * g.size * (n + 1) ^ (g.depth + 1) := by
      rw [Nat.pow_succ, ← Nat.mul_assoc, Nat.mul_comm (n + 1), Nat.mul_assoc, Nat.mul_assoc, Nat.mul_assoc,
        Nat.mul_comm (n + 1)]
    simp only [toll, size, depth]
    rw [Nat.mul_add (k + 4), Nat.add_mul _ _ ((n + 1) ^ (g.depth + 1)), ← h2]
    omega

/-! ## Costs -/

theorem Spec.Leads.trans {s r t : S} (h : Leads s r) (h' : Leads r t) : Leads s t := by
  induction h' with
  | here => exact h
  | read _ hr ih => exact .read ih hr
  | move pre post _ hc ha ih => exact .move pre post ih hc ha

theorem Spec.Leads.desc {s r : S} (h : Leads s r) : L.Desc s r := by
  induction h with
  | here => exact L.refl _
  | read _ hr ih => exact L.trans ih (L.release _ _ hr)
  | move pre post _ hc ha ih => exact L.trans ih (L.advance _ _ pre post hc ha)

theorem fewSegments_desc {k : Nat} {s r : S} (h : FewSegments k s) (hd : Leads s r) : FewSegments k r :=
  fun t ht => h t (hd.trans ht)

/-- What C105 says of one parser, with what the induction needs. -/
def Takes (i : ParseError E) (f : Counted S → Run (PResult (Counted S) O E)) (g : Peg) : Prop :=
  ∀ (k : Nat) (s : Counted S), FewSegments k s.inner → ∃ res, f s = pure res ∧
    Leads s.inner (left res).inner ∧ s.calls < (left res).calls ∧
    (left res).calls ≤ s.calls + g.toll k (content s.inner).length ∧
    match res with
    | .ok _ r => g.Matches (content s.inner) (some (content r.inner))
    | .err e _ => i.shouldTerminate e = false ∧ g.Matches (content s.inner) none

theorem theCharLoop_counted (c : Char) (s : S) {st : Stream S} {es : List Str} (j : Nat) (hy : Yields st es)
    (hr : Reads (segments s) st) (hc : es.flatMap Str.chars = content s) :
    ∃ res, theCharLoop (S := Counted S) c (st, j) = pure res ∧ Leads s (left res).inner ∧
      j ≤ (left res).calls ∧ (left res).calls ≤ j + es.length + 2 ∧
      match res with
      | .ok _ r => (Peg.char c).Matches (content s) (some (content r.inner))
      | .err e _ => shouldTerminate e = false ∧ (Peg.char c).Matches (content s) none := by
  induction es generalizing st j with
  | nil =>
    cases hy with
    | done f hn =>
      refine ⟨.err ⟨()⟩ ⟨⟨release (f c.utf8Size), j + 1⟩⟩, ?_, .read .here (hr.trans (.step (hn _) (.refl _))),
        by simp [left], by simp [left], rfl, ?_⟩
      · rw [theCharLoop, counted_next (hn _)]; simp; rfl
      · rw [← hc]; exact .charFails c _ (by simp)
  | cons e es ih =>
    cases hy with
    | seg f hn ht =>
      have hr' := hr.trans (.step (hn c.utf8Size) (.refl _))
      cases he : e.chars with
      | nil =>
        obtain ⟨res, h1, h2, h3, h4, h5⟩ := ih (j + 1) (ht c.utf8Size) hr' (by simpa [he] using hc)
        exact ⟨res, by rw [theCharLoop, counted_next (hn _)]; simpa [he] using h1, h2, by omega,
          by simp only [List.length_cons]; omega, h5⟩
      | cons d ds =>
        have hc' : content s = d :: (ds ++ es.flatMap Str.chars) := by rw [← hc]; simp [he]
        by_cases hd : d = c
        · subst hd
          obtain ⟨s', h1, h2⟩ := LS.advance (release (f d.utf8Size)) [d] (ds ++ es.flatMap Str.chars)
            (by rw [LS.release s _ hr']; exact hc')
          have h3 : Leads s s' := .move [d] (ds ++ es.flatMap Str.chars) (.read .here hr')
            (by show LS.content (release (f d.utf8Size)) = _; rw [LS.release s _ hr']; exact hc') h1
          refine ⟨.ok () ⟨s', j + 2⟩, ?_, h3, by simp [left],
            by simp only [left, List.length_cons]; omega, ?_⟩
          · have h4 : advance (release (f d.utf8Size)) d.utf8Size = pure s' := by simpa [extent, ItemSegment.size] using h1
            rw [theCharLoop, counted_next (hn _)]
            simp only [pure_bind, he, List.head?_cons, if_true]
            show (do let s ← advance (S := Counted S) ⟨release (f d.utf8Size), j + 1⟩ d.utf8Size; return done () s : Run _) = _
            rw [counted_advance h4]; simp [done]
          · rw [hc']
            show (Peg.char d).Matches _ (some (LS.content s'))
            rw [h2]; exact .char d _
        · refine ⟨.err ⟨()⟩ ⟨⟨release (f c.utf8Size), j + 1⟩⟩, ?_, .read .here hr',
            by simp [left], by simp only [left, List.length_cons]; omega, rfl, ?_⟩
          · rw [theCharLoop, counted_next (hn _)]; simp [he, hd]; rfl
          · rw [hc']; exact .charFails c _ (by simpa using hd)

theorem anyCharLoop_counted (s : S) {st : Stream S} {es : List Str} (j : Nat) (hy : Yields st es)
    (hr : Reads (segments s) st) (hc : es.flatMap Str.chars = content s) :
    ∃ res, anyCharLoop (S := Counted S) (st, j) = pure res ∧ Leads s (left res).inner ∧
      j ≤ (left res).calls ∧ (left res).calls ≤ j + es.length + 2 ∧
      match res with
      | .ok _ r => Peg.any.Matches (content s) (some (content r.inner))
      | .err e _ => shouldTerminate e = false ∧ Peg.any.Matches (content s) none := by
  induction es generalizing st j with
  | nil =>
    cases hy with
    | done f hn =>
      refine ⟨.err ⟨()⟩ ⟨⟨release (f 0), j + 1⟩⟩, ?_, .read .here (hr.trans (.step (hn _) (.refl _))),
        by simp [left], by simp [left], rfl, ?_⟩
      · rw [anyCharLoop, counted_next (hn _)]; simp; rfl
      · rw [← hc]; exact .anyFails
  | cons e es ih =>
    cases hy with
    | seg f hn ht =>
      have hr' := hr.trans (.step (hn 0) (.refl _))
      cases he : e.chars with
      | nil =>
        obtain ⟨res, h1, h2, h3, h4, h5⟩ := ih (j + 1) (ht 0) hr' (by simpa [he] using hc)
        exact ⟨res, by rw [anyCharLoop, counted_next (hn _)]; simpa [he] using h1, h2, by omega,
          by simp only [List.length_cons]; omega, h5⟩
      | cons d ds =>
        have hc' : content s = d :: (ds ++ es.flatMap Str.chars) := by rw [← hc]; simp [he]
        obtain ⟨s', h1, h2⟩ := LS.advance (release (f 0)) [d] (ds ++ es.flatMap Str.chars)
          (by rw [LS.release s _ hr']; exact hc')
        have h3 : Leads s s' := .move [d] (ds ++ es.flatMap Str.chars) (.read .here hr')
          (by show LS.content (release (f 0)) = _; rw [LS.release s _ hr']; exact hc') h1
        refine ⟨.ok d ⟨s', j + 2⟩, ?_, h3, by simp [left],
          by simp only [left, List.length_cons]; omega, ?_⟩
        · have h4 : advance (release (f 0)) d.utf8Size = pure s' := by simpa [extent, ItemSegment.size] using h1
          rw [anyCharLoop, counted_next (hn _)]
          simp only [pure_bind, he, List.head?_cons]
          show (do let s ← advance (S := Counted S) ⟨release (f 0), j + 1⟩ d.utf8Size; return done d s : Run _) = _
          rw [counted_advance h4]; simp [done]
        · rw [hc']
          show Peg.any.Matches _ (some (LS.content s'))
          rw [h2]; exact .any d _

theorem takes_char (c : Char) : Takes (S := S) inferInstance (theChar c).parse (.char c) := by
  intro k s hk
  obtain ⟨res, h1, h2, h3, h4, h5⟩ := theCharLoop_counted c s.inner (s.calls + 1) (LS.yields s.inner) (.refl _)
    (LS.concat s.inner)
  have := hk _ (.here)
  have h6 : (LS.segs s.inner).length ≤ k := this
  exact ⟨res, h1, h2, by omega, by simp only [Peg.toll]; omega, by cases res <;> exact h5⟩

theorem takes_any : Takes (S := S) inferInstance anyChar.parse .any := by
  intro k s hk
  obtain ⟨res, h1, h2, h3, h4, h5⟩ := anyCharLoop_counted s.inner (s.calls + 1) (LS.yields s.inner) (.refl _)
    (LS.concat s.inner)
  have := hk _ (.here)
  have h6 : (LS.segs s.inner).length ≤ k := this
  exact ⟨res, h1, h2, by omega, by simp only [Peg.toll]; omega, by cases res <;> exact h5⟩

theorem takes_seq [i₀ : ParseError E₀] [i₁ : ParseError E₁] {p : Parser (Counted S) O₀ E₀} {q : Parser (Counted S) O₁ E₁}
    {g h : Peg} (hp : Takes i₀ p.parse g) (hq : Takes i₁ q.parse h) :
    Takes inferInstance (p.join q).parse (.seq g h) := by
  intro k s hk
  obtain ⟨res, h1, h2, h3, h4, h5⟩ := hp k s hk
  cases res with
  | err e u =>
    exact ⟨.err (.first e) u, by simp [Parser.join, h1], h2, h3, by simp only [left, Peg.toll] at h4 ⊢; omega, h5.1,
      .seqFails h5.2⟩
  | ok v r =>
    obtain ⟨res', h1', h2', h3', h4', h5'⟩ := hq k r (fewSegments_desc hk h2)
    have hm := h.toll_mono (k := k) (h5.length rfl).1
    simp only [left] at h3 h4
    cases res' with
    | err e u =>
      exact ⟨.err (.last e) u, by simp [Parser.join, h1, h1'], h2.trans h2', by simp only [left] at h3' ⊢; omega,
        by simp only [left, Peg.toll] at h4' ⊢; omega, h5'.1, .seq h5 h5'.2⟩
    | ok w t =>
      exact ⟨.ok (v, w) t, by simp [Parser.join, h1, h1', done], h2.trans h2', by simp only [left] at h3' ⊢; omega,
        by simp only [left, Peg.toll] at h4' ⊢; omega, .seq h5 h5'⟩

theorem takes_alt [i₀ : ParseError E₀] [i₁ : ParseError E₁] {p : Parser (Counted S) O₀ E₀} {q : Parser (Counted S) O₁ E₁}
    {g h : Peg} (hp : Takes i₀ p.parse g) (hq : Takes i₁ q.parse h) :
    Takes inferInstance (p.or q).parse (.alt g h) := by
  intro k s hk
  obtain ⟨res, h1, h2, h3, h4, h5⟩ := hp k s hk
  cases res with
  | ok v r =>
    exact ⟨.ok (.first v) r, by simp [Parser.or, h1, done], h2, h3, by simp only [left, Peg.toll] at h4 ⊢; omega,
      .altFirst h5⟩
  | err e u =>
    have hw : u.rewind (anchor s) = pure ⟨s.inner, u.val.calls + 1⟩ := counted_rewind (L.rewind h2.desc)
    have he : shouldTerminate e = false := h5.1
    obtain ⟨res', h1', h2', h3', h4', h5'⟩ := hq k ⟨s.inner, u.val.calls + 1⟩ hk
    simp only [left] at h3 h4
    cases res' with
    | ok w t =>
      exact ⟨.ok (.last w) t, by simp [Parser.or, h1, he, hw, h1', done], h2', by simp only [left] at h3' ⊢; omega,
        by simp only [left, Peg.toll] at h4' ⊢; omega, .altSecond h5.2 h5'⟩
    | err e' u' =>
      have he' : shouldTerminate e' = false := h5'.1
      refine ⟨.err (.both e e') u', by simp [Parser.or, h1, he, hw, h1', he', fail], h2', by simp only [left] at h3' ⊢; omega,
        by simp only [left, Peg.toll] at h4' ⊢; omega, ?_, .altSecond h5.2 h5'.2⟩
      show (shouldTerminate e || shouldTerminate e') = false
      rw [he, he']; rfl

theorem takes_opt [i : ParseError E] {p : Parser (Counted S) O E} {g : Peg} (hp : Takes i p.parse g) :
    Takes i p.optional.parse (.opt g) := by
  intro k s hk
  obtain ⟨res, h1, h2, h3, h4, h5⟩ := hp k s hk
  cases res with
  | ok v r =>
    exact ⟨.ok (.ok v) r, by simp [Parser.optional, h1, done], h2, h3, by simp only [left, Peg.toll] at h4 ⊢; omega,
      .opt h5⟩
  | err e u =>
    have hw : u.rewind (anchor s) = pure ⟨s.inner, u.val.calls + 1⟩ := counted_rewind (L.rewind h2.desc)
    have he : shouldTerminate e = false := h5.1
    exact ⟨.ok (.error e) ⟨s.inner, u.val.calls + 1⟩, by simp [Parser.optional, h1, he, hw, done], .here,
      by simp only [left] at h3 ⊢; omega, by simp only [left, Peg.toll] at h4 ⊢; omega, .optNot h5.2⟩

theorem takes_star [i : ParseError E] {p : Parser (Counted S) O E} {g : Peg} (hg : g.mayBeEmpty = false)
    (hp : Takes i p.parse g) : Takes i p.repeat.parse (.star g) := by
  suffices H : ∀ (n k : Nat) (s : Counted S) (buf : List O), (content s.inner).length = n → FewSegments k s.inner →
      ∃ vs r, repeatLoop p.parse buf s = pure (.ok vs r) ∧ Leads s.inner r.inner ∧ s.calls < r.calls ∧
        r.calls ≤ s.calls + (n + 1) * g.toll k n + 1 ∧ (Peg.star g).Matches (content s.inner) (some (content r.inner)) by
    intro k s hk
    obtain ⟨vs, r, h1, h2, h3, h4, h5⟩ := H _ k s [] rfl hk
    exact ⟨.ok vs r, h1, h2, h3, by simp only [left, Peg.toll]; omega, h5⟩
  intro n
  induction n using Nat.strongRecOn with
  | ind n ih =>
    intro k s buf hn hk
    obtain ⟨res, h1, h2, h3, h4, h5⟩ := hp k s hk
    simp only [left] at h3 h4
    have hx : g.toll k n ≤ (n + 1) * g.toll k n := Nat.le_mul_of_pos_left _ (by omega)
    rw [hn] at h4
    cases res with
    | err e u =>
      have hw : u.rewind (anchor s) = pure ⟨s.inner, u.val.calls + 1⟩ := counted_rewind (L.rewind h2.desc)
      have he : shouldTerminate e = false := h5.1
      simp only at h3 h4
      exact ⟨(buf, e), ⟨s.inner, u.val.calls + 1⟩, by rw [repeatLoop]; simp [h1, he, hw, done], .here,
        by show s.calls < u.val.calls + 1; omega,
        by show u.val.calls + 1 ≤ _; omega, .starEnd h5.2⟩
    | ok v r =>
      have hl := (h5.length rfl).2 hg
      rw [hn] at hl
      obtain ⟨vs, t, h1', h2', h3', h4', h5'⟩ := ih _ hl k r (buf ++ [v]) rfl (fewSegments_desc hk h2)
      have hm := g.toll_mono (k := k) (Nat.le_of_lt hl)
      have hy : ((content r.inner).length + 1) * g.toll k (content r.inner).length ≤ n * g.toll k n :=
        Nat.mul_le_mul hl hm
      have hz : (n + 1) * g.toll k n = n * g.toll k n + g.toll k n := Nat.succ_mul _ _
      simp only at h3 h4
      exact ⟨vs, t, by rw [repeatLoop]; simp [h1, h1'], h2.trans h2', by omega, by omega, .starMore h5 h5'⟩

theorem takes_map [i : ParseError E] {p : Parser (Counted S) O E} {g : Peg} (f : O → T) (hp : Takes i p.parse g) :
    Takes i (p.map f).parse g := by
  intro k s hk
  obtain ⟨res, h1, h2, h3, h4, h5⟩ := hp k s hk
  cases res with
  | ok v r => exact ⟨.ok (f v) r, by simp [Parser.map, h1, done], h2, h3, h4, h5⟩
  | err e u => exact ⟨.err e u, by simp [Parser.map, h1], h2, h3, h4, h5⟩

theorem takes_mapErr [i : ParseError E] [j : ParseError T] {p : Parser (Counted S) O E} {g : Peg} (f : E → T)
    (hf : ∀ e, j.shouldTerminate (f e) = false) (hp : Takes i p.parse g) : Takes j (p.mapErr f).parse g := by
  intro k s hk
  obtain ⟨res, h1, h2, h3, h4, h5⟩ := hp k s hk
  cases res with
  | ok v r => exact ⟨.ok v r, by simp [Parser.mapErr, h1], h2, h3, h4, h5⟩
  | err e u => exact ⟨.err (f e) u, by simp [Parser.mapErr, h1, fail], h2, h3, h4, hf e, h5.2⟩

theorem takes {i : ParseError E} {p : Parser (Counted S) O E} {g : Peg} (h : Spells i p g) (hg : g.noEmptyLoop = true) :
    Takes i p.parse g := by
  induction h with
  | char c => exact takes_char c
  | any => exact takes_any
  | seq _ _ ih1 ih2 =>
    simp only [Peg.noEmptyLoop, Bool.and_eq_true] at hg
    exact takes_seq (ih1 hg.1) (ih2 hg.2)
  | alt _ _ ih1 ih2 =>
    simp only [Peg.noEmptyLoop, Bool.and_eq_true] at hg
    exact takes_alt (ih1 hg.1) (ih2 hg.2)
  | opt _ ih => exact takes_opt (ih hg)
  | star _ ih =>
    simp only [Peg.noEmptyLoop, Bool.and_eq_true, Bool.not_eq_true'] at hg
    exact takes_star hg.1 (ih hg.2)
  | map f _ ih => exact takes_map f (ih hg)
  | mapErr f hf _ ih => exact takes_mapErr f hf (ih hg)

/-! ## Nested repetitions that read the same text again and again -/

variable {S' : Type} [Sequence S' Str] [RewindSequence S']

/-- One level of nesting: `((p b) / a)*`. -/
def again (p : Parser S' Unit (Miss Unit)) : Parser S' Unit (Miss Unit) :=
  ((((p.join (theChar 'b')).or (theChar 'a')).map (fun _ => ())).mapErr (fun _ => ⟨()⟩)).repeat.map (fun _ => ())

/-- `a*` in `d` levels of nesting. -/
def towers : Nat → Parser S' Unit (Miss Unit)
  | 0 => (theChar 'a').repeat.map (fun _ => ())
  | d + 1 => again (towers d)

/-- The expressions they spell. -/
def towerPeg : Nat → Peg
  | 0 => .star (.char 'a')
  | d + 1 => .star (.alt (.seq (towerPeg d) (.char 'b')) (.char 'a'))

theorem towers_spell (d : Nat) : Spells inferInstance (towers (S' := S') d) (towerPeg d) := by
  induction d with
  | zero => exact .map _ (.star (.char 'a'))
  | succ d ih => exact .map _ (.star (.mapErr _ (fun _ => rfl) (.map _ (.alt (.seq ih (.char 'b')) (.char 'a')))))

theorem towerPeg_loops (d : Nat) : (towerPeg d).noEmptyLoop = true := by
  induction d with
  | zero => rfl
  | succ d ih => simp [towerPeg, Peg.noEmptyLoop, Peg.mayBeEmpty, ih]

theorem towerPeg_depth (d : Nat) : (towerPeg d).depth = d + 1 := by
  induction d with
  | zero => rfl
  | succ d ih => simp [towerPeg, Peg.depth, ih]

theorem towerPeg_matches (d n : Nat) : (towerPeg d).Matches (List.replicate n 'a') (some []) := by
  induction d generalizing n with
  | zero =>
    induction n with
    | zero => exact .starEnd (.charFails _ _ (by simp))
    | succ n ih => exact .starMore (.char _ _) ih
  | succ d ihd =>
    have hb : ∀ m, (Peg.seq (towerPeg d) (.char 'b')).Matches (List.replicate m 'a') none := fun m =>
      .seq (ihd m) (.charFails _ _ (by simp))
    induction n with
    | zero => exact .starEnd (.altSecond (hb 0) (.charFails _ _ (by simp)))
    | succ n ih => exact .starMore (.altSecond (hb (n + 1)) (.char _ _)) ih

/-- How often the innermost `a` is looked at: `n + 1` times without nesting, and each level runs the level below once from
every place. -/
def looks : Nat → Nat → Nat
  | 0, n => n + 1
  | d + 1, 0 => looks d 0
  | d + 1, n + 1 => looks d (n + 1) + looks (d + 1) n

theorem again_body (d n : Nat) (s : Counted S) (hs : content s.inner = List.replicate n 'a') (k : Nat)
    (hk : FewSegments k s.inner) {r : Counted S} (hr : (towers d).parse s = pure (.ok () r)) (hc : content r.inner = []) :
    ∃ res, ((((towers d).join (theChar 'b')).or (theChar 'a')).map (fun _ => ())).parse s = pure res ∧
      Leads s.inner (left res).inner ∧ r.calls ≤ (left res).calls ∧
      match res with
      | .ok _ t => content s.inner = 'a' :: content t.inner
      | .err e _ => shouldTerminate e = false ∧ n = 0 := by
  obtain ⟨res, g1, g2, g3, g4, g5⟩ := takes (towers_spell d) (towerPeg_loops d) k s hk
  rw [hr] at g1
  have g1 := Run.pure_inj'.mp g1
  subst g1
  obtain ⟨res, h1, h2, h3, h4, h5⟩ := takes_char 'b' k r (fewSegments_desc hk g2)
  cases res with
  | ok v t =>
    have := h5.det (.charFails 'b' _ (by rw [hc]; simp))
    simp at this
  | err e u =>
    have hw : u.rewind (anchor s) = pure ⟨s.inner, u.val.calls + 1⟩ := counted_rewind (L.rewind (g2.trans h2).desc)
    obtain ⟨res, f1, f2, f3, f4, f5⟩ := takes_char 'a' k ⟨s.inner, u.val.calls + 1⟩ hk
    have he : shouldTerminate e = false := h5.1
    have he' : shouldTerminate (Either.last e : Either (Miss Unit) (Miss Unit)) = false := h5.1
    simp only [left] at h3
    have f3' : u.val.calls + 1 < (left res).calls := f3
    cases res with
    | ok v t =>
      refine ⟨.ok () t, by simp [Parser.map, Parser.or, Parser.join, hr, h1, he', hw, f1, done], f2, ?_, ?_⟩
      · show r.calls ≤ t.calls
        simp only [left] at f3'; omega
      · generalize content s.inner = cs at f5 ⊢
        generalize content t.inner = ds at f5 ⊢
        cases f5
        rfl
    | err e1 u1 =>
      have he1 : shouldTerminate e1 = false := f5.1
      refine ⟨.err (.both (.last e) e1) u1, by simp [Parser.map, Parser.or, Parser.join, hr, h1, he', he1, hw, f1, fail], f2, ?_, ?_, ?_⟩
      · show r.calls ≤ u1.val.calls
        simp only [left] at f3'; omega
      · show (shouldTerminate e || shouldTerminate e1) = false
        rw [he, he1]; rfl
      · cases n with
        | zero => rfl
        | succ n =>
          have f5' : (Peg.char 'a').Matches (content s.inner) none := f5.2
          rw [hs] at f5'
          have := f5'.det (.char 'a' _)
          simp at this

theorem towers_calls (d n : Nat) (s : Counted S) (hs : content s.inner = List.replicate n 'a') (k : Nat)
    (hk : FewSegments k s.inner) : ∃ r, (towers d).parse s = pure (.ok () r) ∧ content r.inner = [] ∧
      s.calls + looks d n ≤ r.calls := by
  induction d generalizing n s with
  | zero =>
    suffices H : ∀ (n : Nat) (s : Counted S) (buf : List Unit), content s.inner = List.replicate n 'a' →
        FewSegments k s.inner → ∃ vs r, repeatLoop (theChar 'a').parse buf s = pure (.ok vs r) ∧ content r.inner = [] ∧
          s.calls + (n + 1) ≤ r.calls by
      obtain ⟨vs, r, h1, h2, h3⟩ := H n s [] hs hk
      exact ⟨r, by simp [towers, Parser.map, Parser.repeat, h1, done], h2, by simpa [looks] using h3⟩
    intro n
    induction n with
    | zero =>
      intro s buf hs hk
      obtain ⟨res, h1, h2, h3, h4, h5⟩ := takes_char 'a' k s hk
      cases res with
      | ok v t =>
        have := h5.det (.charFails 'a' _ (by rw [hs]; simp))
        simp at this
      | err e u =>
        have hw : u.rewind (anchor s) = pure ⟨s.inner, u.val.calls + 1⟩ := counted_rewind (L.rewind h2.desc)
        have he : shouldTerminate e = false := h5.1
        simp only [left] at h3
        exact ⟨(buf, e), ⟨s.inner, u.val.calls + 1⟩, by rw [repeatLoop]; simp [h1, he, hw, done], hs,
          by show _ ≤ u.val.calls + 1; omega⟩
    | succ n ih =>
      intro s buf hs hk
      obtain ⟨res, h1, h2, h3, h4, h5⟩ := takes_char 'a' k s hk
      cases res with
      | err e u =>
        have h5' := h5.2
        rw [hs] at h5'
        have := h5'.det (.char 'a' _)
        simp at this
      | ok v r =>
        rw [hs] at h5
        have h6 := h5.det (.char 'a' _)
        simp only [Option.some.injEq] at h6
        obtain ⟨vs, t, g1, g2, g3⟩ := ih r (buf ++ [v]) h6 (fewSegments_desc hk h2)
        simp only [left] at h3
        exact ⟨vs, t, by rw [repeatLoop]; simp [h1, g1], g2, by omega⟩
  | succ d ihd =>
    suffices H : ∀ (n : Nat) (s : Counted S) (buf : List Unit), content s.inner = List.replicate n 'a' →
        FewSegments k s.inner → ∃ vs r, repeatLoop ((((((towers d).join (theChar 'b')).or (theChar 'a')).map
          (fun _ => ())).mapErr (fun _ => (⟨()⟩ : Miss Unit))).parse) buf s = pure (.ok vs r) ∧ content r.inner = [] ∧
          s.calls + looks (d + 1) n ≤ r.calls by
      obtain ⟨vs, r, h1, h2, h3⟩ := H n s [] hs hk
      refine ⟨r, ?_, h2, h3⟩
      rw [towers, again, Parser.map, Parser.repeat]
      simp only
      rw [h1]; simp [done]
    intro n
    induction n with
    | zero =>
      intro s buf hs hk
      obtain ⟨r, f1, f2, f3⟩ := ihd 0 s hs hk
      obtain ⟨res, h1, h2, h3, h4⟩ := again_body d 0 s hs k hk f1 f2
      cases res with
      | ok v t => rw [hs] at h4; simp at h4
      | err e u =>
        have hw : u.rewind (anchor s) = pure ⟨s.inner, u.val.calls + 1⟩ := counted_rewind (L.rewind h2.desc)
        simp only [left] at h3
        refine ⟨(buf, ⟨()⟩), ⟨s.inner, u.val.calls + 1⟩, ?_, hs, by show _ ≤ u.val.calls + 1; simp only [looks]; omega⟩
        rw [repeatLoop]
        simp [Parser.mapErr, h1, fail, shouldTerminate, hw, done]
    | succ n ih =>
      intro s buf hs hk
      obtain ⟨r, f1, f2, f3⟩ := ihd (n + 1) s hs hk
      obtain ⟨res, h1, h2, h3, h4⟩ := again_body d (n + 1) s hs k hk f1 f2
      cases res with
      | err e u => simp at h4
      | ok v t =>
        have h4' : content t.inner = List.replicate n 'a' := by
          have h5 : content s.inner = 'a' :: content t.inner := h4
          rw [hs, List.replicate_succ] at h5
          simpa using h5.symm
        obtain ⟨vs, t', g1, g2, g3⟩ := ih t (buf ++ [v]) h4' (fewSegments_desc hk h2)
        simp only [left] at h3
        refine ⟨vs, t', ?_, g2, by simp only [looks]; omega⟩
        rw [repeatLoop]
        simp [Parser.mapErr, h1]
        exact g1

theorem pow_step (b k : Nat) : (b + 1) ^ (k + 1) ≤ (k + 1) * (b + 1) ^ k + b ^ (k + 1) := by
  induction k with
  | zero => simp; omega
  | succ k ih =>
    have h1 := Nat.mul_le_mul_left (b + 1) ih
    have h2 : b ^ (k + 1) ≤ (b + 1) ^ (k + 1) := Nat.pow_le_pow_left (by omega) _
    have h3 : (b + 1) * ((k + 1) * (b + 1) ^ k + b ^ (k + 1)) = (k + 1) * (b + 1) ^ (k + 1) + (b ^ (k + 2) + b ^ (k + 1)) := by
      rw [Nat.pow_succ (b + 1) k, Nat.pow_succ b (k + 1), Nat.mul_add, Nat.mul_left_comm, Nat.mul_comm (b + 1) ((b + 1) ^ k),
        Nat.mul_comm (b + 1) (b ^ (k + 1)), Nat.mul_succ (b ^ (k + 1))]
    rw [h3] at h1
    have h4 : (b + 1) ^ (k + 1 + 1) = (b + 1) * (b + 1) ^ (k + 1) := by rw [Nat.pow_succ, Nat.mul_comm]
    rw [h4, Nat.add_mul (k + 1) 1, Nat.one_mul]
    have h5 : b ^ (k + 1 + 1) = b ^ (k + 2) := rfl
    omega

/-- Products of the first numbers. -/
def prod : Nat → Nat
  | 0 => 1
  | d + 1 => (d + 2) * prod d

theorem looks_grow (d n : Nat) : (n + 1) ^ (d + 1) ≤ prod d * looks d n := by
  induction d generalizing n with
  | zero => simp [prod, looks]
  | succ d ihd =>
    induction n with
    | zero =>
      have := ihd 0
      simp only [prod, looks]
      simp at this ⊢
      exact Nat.le_trans this (Nat.mul_le_mul_right _ (Nat.le_mul_of_pos_left _ (by omega)))
    | succ n ihn =>
      have h1 := pow_step (n + 1) (d + 1)
      have h2 := Nat.mul_le_mul_left (d + 2) (ihd (n + 1))
      simp only [prod, looks] at ihn ⊢
      rw [Nat.mul_add]
      have h3 : (d + 2) * (prod d * looks d (n + 1)) = (d + 2) * prod d * looks d (n + 1) := by rw [Nat.mul_assoc]
      rw [h3] at h2
      have h4 : d + 1 + 1 = d + 2 := rfl
      rw [h4] at h1 ihn ⊢
      omega

/-! ## C105 -/

/-- C105: a grammar that repeats nothing empty takes a number of calls that is linear in the length of the text. -/
def C105Statement : Prop :=
  ∀ {O E : Type} (i : ParseError E) (p : Parser (Counted StrRef) O E) (g : Peg), Spells i p g → g.noEmptyLoop = true →
    ∃ c, ∀ s : Counted StrRef, ∃ res, p.parse s = pure res ∧
      (left res).calls ≤ s.calls + c * (s.inner.text.chars.length + 1)

theorem strRef_few (s : StrRef) : FewSegments 1 s := fun _ _ => Nat.le_refl 1

/-- What does hold: it comes back with the verdict of the grammar, and the number of calls is bounded by a polynomial whose
degree is the depth to which repetitions are nested. On any sequence, however it is cut. -/
theorem C105_exact [i : ParseError E] {p : Parser (Counted S) O E} {g : Peg} (h : Spells i p g) (hg : g.noEmptyLoop = true)
    (k : Nat) (s : Counted S) (hk : FewSegments k s.inner) : ∃ res, p.parse s = pure res ∧
      (left res).calls ≤ s.calls + (k + 4) * g.size * ((content s.inner).length + 1) ^ g.depth ∧
      g.Matches (content s.inner) (match res with | .ok _ r => some (content r.inner) | .err _ _ => none) := by
  obtain ⟨res, h1, h2, h3, h4, h5⟩ := takes h hg k s hk
  refine ⟨res, h1, ?_, ?_⟩
  · have := g.toll_le k (content s.inner).length
    omega
  · cases res with
    | ok v r => exact h5
    | err e u => exact h5.2

/-- Grammars without nested repetitions take linearly many calls. -/
theorem C105_partial [i : ParseError E] {p : Parser (Counted StrRef) O E} {g : Peg} (h : Spells i p g)
    (hg : g.noEmptyLoop = true) (hd : g.depth ≤ 1) (s : Counted StrRef) : ∃ res, p.parse s = pure res ∧
      (left res).calls ≤ s.calls + 5 * g.size * (s.inner.text.chars.length + 1) := by
  obtain ⟨res, h1, h2, -⟩ := C105_exact h hg 1 s (strRef_few _)
  refine ⟨res, h1, Nat.le_trans h2 (Nat.add_le_add_left (Nat.mul_le_mul_left _ ?_) _)⟩
  exact Nat.le_trans (Nat.pow_le_pow_right (by omega) hd) (by rw [Nat.pow_one]; exact Nat.le_refl _)

/-- No polynomial of smaller degree would do: for every depth there is a grammar of that depth, and a constant, such that
the number of calls on `aaa…a` is at least that power of the length over the constant. -/
theorem C105_sharp (d : Nat) : ∃ (p : Parser (Counted S) Unit (Miss Unit)) (g : Peg) (c : Nat), Spells inferInstance p g ∧
    g.noEmptyLoop = true ∧ g.depth = d + 1 ∧ ∀ (k n : Nat) (s : Counted S), FewSegments k s.inner →
      content s.inner = List.replicate n 'a' → ∃ r, p.parse s = pure (.ok () r) ∧
        (n + 1) ^ (d + 1) ≤ c * (r.calls - s.calls) := by
  refine ⟨towers d, towerPeg d, prod d, towers_spell d, towerPeg_loops d, towerPeg_depth d, ?_⟩
  intro k n s hk hs
  obtain ⟨r, h1, h2, h3⟩ := towers_calls d n s hs k hk
  exact ⟨r, h1, Nat.le_trans (looks_grow d n) (Nat.mul_le_mul_left _ (by omega))⟩

theorem dropExtent_chunks (cs cs' : List (List Char)) (n : Nat) (h : dropExtent Str cs n = some cs') :
    cs'.length ≤ cs.length := by
  fun_induction dropExtent Str cs n with
  | case1 cs => simp at h; rw [h]; exact Nat.le_refl _
  | case2 => simp at h
  | case3 cs n ih => exact Nat.le_trans (ih h) (by simp)
  | case4 x xs cs n hx ih => simpa using ih h
  | case5 => simp at h

/-- A text in `k` pieces: however far one gets, at most `k` pieces are ahead. -/
theorem chunked_few (s : Chunked Str Char) : FewSegments s.chunks.length s := by
  intro r hr
  show (r.chunks.map OfItems.ofItems).length ≤ _
  rw [List.length_map]
  induction hr with
  | here => exact Nat.le_refl _
  | @read r st _ hr ih => rw [show Sequence.release (S := Chunked Str Char) st = r from chunked_owner r hr rfl]; exact ih
  | @move r r' pre post _ hc ha ih =>
    rcases hd : dropExtent Str r.chunks (extent Str pre) with _ | cs
    · simp [Sequence.advance, hd] at ha
    · simp [Sequence.advance, hd] at ha
      rw [← ha]
      exact Nat.le_trans (dropExtent_chunks _ _ _ hd) ih

/-- `("ab" / "a")*` on "a", "", "ba" in three pieces: at most `7 * 6 * 4` calls. -/
example : ∃ res, (((theChar 'a').join (theChar 'b')).or (theChar 'a')).repeat.parse
      (⟨⟨0, [['a'], [], ['b', 'a']]⟩, 0⟩ : Counted (Chunked Str Char)) = pure res ∧ (left res).calls ≤ 168 := by
  obtain ⟨res, h1, h2, -⟩ := C105_exact (S := Chunked Str Char)
    (.star (.alt (.seq (.char 'a') (.char 'b')) (.char 'a'))) rfl 3 ⟨⟨0, [['a'], [], ['b', 'a']]⟩, 0⟩ (chunked_few _)
  exact ⟨res, h1, h2⟩

/-- C105 is false: `((a* b) / a)*` reads the rest of `aaa…a` again at every `a`. -/
theorem C105_false : ¬ C105Statement := by
  intro H
  obtain ⟨c, hc⟩ := H _ (towers (S' := Counted StrRef) 1) (towerPeg 1) (towers_spell 1) (towerPeg_loops 1)
  obtain ⟨r, h1, h2, h3⟩ := towers_calls (S := StrRef) 1 (2 * c)
    ⟨{ alloc := 0, off := 0, text := ⟨List.replicate (2 * c) 'a'⟩ }, 0⟩ rfl 1 (strRef_few _)
  obtain ⟨res, h4, h5⟩ := hc ⟨{ alloc := 0, off := 0, text := ⟨List.replicate (2 * c) 'a'⟩ }, 0⟩
  rw [h1] at h4
  have h4 := Run.pure_inj'.mp h4
  subst h4
  have h6 := looks_grow 1 (2 * c)
  simp only [left, List.length_replicate] at h5 h3
  simp only [prod] at h6
  have h7 : (2 * c + 1) ^ 2 = (2 * c + 1) * (2 * c + 1) := by rw [Nat.pow_two]
  have h8 : (2 * c + 1) * (2 * c + 1) = 2 * (c * (2 * c + 1)) + (2 * c + 1) := by
    rw [Nat.add_mul, Nat.one_mul, Nat.mul_assoc]
  have h9 : (1 + 1) = 2 := rfl
  rw [h9] at h6
  omega

end Parcom
