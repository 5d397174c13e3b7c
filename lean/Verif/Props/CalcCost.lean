import Verif.Props.Cost
import Verif.Props.CalcCuts
import Verif.Lemmas.Twin
import Verif.Lemmas.BinExprVec
/-!
# C106: how much the calculator asks of its input
-/
namespace Parcom
open Spec Spec.Calc Calc Sequence

namespace Run
variable {α β : Type}

/-- It comes back with a result of this kind, or it panics. -/
def Within (x : Run α) (Q : α → Prop) : Prop := (∃ a, x = pure a ∧ Q a) ∨ ∃ f, x = fault f

theorem within_pure {a : α} {Q : α → Prop} (h : Q a) : Within (pure a) Q := .inl ⟨a, rfl, h⟩

theorem within_fault {f : Fault} {Q : α → Prop} : Within (fault f) Q := .inr ⟨f, rfl⟩

theorem within_bind {x : Run α} {f : α → Run β} {Q : α → Prop} {Q' : β → Prop} (h : Within x Q)
    (hf : ∀ a, Q a → Within (f a) Q') : Within (x >>= f) Q' := by
  rcases h with ⟨a, rfl, h⟩ | ⟨e, rfl⟩
  · simpa using hf a h
  · exact .inr ⟨e, rfl⟩

theorem within_mono {x : Run α} {Q Q' : α → Prop} (h : Within x Q) (hf : ∀ a, Q a → Q' a) : Within x Q' := by
  rcases h with ⟨a, h1, h2⟩ | h
  · exact .inl ⟨a, h1, hf a h2⟩
  · exact .inr h

end Run

variable {S : Type} [Sequence S Str] [RewindSequence S] [LS : LawfulSequence S] [L : LawfulRewind S]

omit [Sequence S Str] [RewindSequence S] LS L in
theorem within_ret {α : Type} {x : Run α} {Q : α → Prop} (h : ∃ a, x = pure a ∧ Q a) : Run.Within x Q := .inl h

section
omit [Sequence S Str] [RewindSequence S] LS L
variable {O O₀ O₁ E E₀ E₁ T : Type}

theorem within_join {p : Parser S O₀ E₀} {q : Parser S O₁ E₁} {s : S} {Q₀ : PResult S O₀ E₀ → Prop}
    {Q : PResult S (O₀ × O₁) (Either E₀ E₁) → Prop} (h : Run.Within (p.parse s) Q₀)
    (he : ∀ e u, Q₀ (.err e u) → Q (.err (.first e) u))
    (hq : ∀ v r, Q₀ (.ok v r) → Run.Within (q.parse r) fun res => match res with
      | .ok w t => Q (.ok (v, w) t)
      | .err e u => Q (.err (.last e) u)) : Run.Within ((p.join q).parse s) Q := by
  refine Run.within_bind h ?_
  rintro (⟨v, r⟩ | ⟨e, u⟩) h0
  · refine Run.within_bind (hq v r h0) ?_
    rintro (⟨w, t⟩ | ⟨e, u⟩) h1
    · exact Run.within_pure h1
    · exact Run.within_pure h1
  · exact Run.within_pure (he e u h0)

theorem within_map {p : Parser S O E} (f : O → T) {s : S} {Q : PResult S T E → Prop}
    (h : Run.Within (p.parse s) fun res => match res with
      | .ok v r => Q (.ok (f v) r)
      | .err e u => Q (.err e u)) : Run.Within ((p.map f).parse s) Q := by
  refine Run.within_bind h ?_
  rintro (⟨v, r⟩ | ⟨e, u⟩) h0
  · exact Run.within_pure h0
  · exact Run.within_pure h0

theorem within_mapErr {p : Parser S O E} (f : E → T) {s : S} {Q : PResult S O T → Prop}
    (h : Run.Within (p.parse s) fun res => match res with
      | .ok v r => Q (.ok v r)
      | .err e u => Q (.err (f e) u)) : Run.Within ((p.mapErr f).parse s) Q := by
  refine Run.within_bind h ?_
  rintro (⟨v, r⟩ | ⟨e, u⟩) h0
  · exact Run.within_pure h0
  · exact Run.within_pure h0

end

/-! ## Accounts -/

/-- How many characters are ahead. -/
def ahead (s : Counted S) : Nat := (content s.inner).length

/-- On the way from `s` to `r`, at most `a` calls a character and `b` more were made. -/
def Pays (a b : Nat) (s r : Counted S) : Prop :=
  Leads s.inner r.inner ∧ r.calls + a * ahead r ≤ s.calls + a * ahead s + b

theorem Spec.Leads.shorter {s r : S} (h : Leads s r) : (content r).length ≤ (content s).length := by
  induction h with
  | here => exact Nat.le_refl _
  | @read r st _ hr ih =>
    have : content (release st) = content r := LS.release _ _ hr
    rw [this]; exact ih
  | @move r r' pre post _ hc ha ih =>
    obtain ⟨s', h1, h2⟩ := LS.advance r pre post hc
    rw [ha] at h1
    have h1 := Run.pure_inj'.mp h1
    subst h1
    have h2 : content r' = post := h2
    rw [hc] at ih
    rw [h2]
    simp at ih; omega

theorem Pays.trans {a b b' : Nat} {s r t : Counted S} (h : Pays a b s r) (h' : Pays a b' r t) : Pays a (b + b') s t :=
  ⟨h.1.trans h'.1, by have := h.2; have := h'.2; omega⟩

theorem Pays.more {a b b' : Nat} {s r : Counted S} (h : Pays a b s r) (hb : b ≤ b') : Pays a b' s r :=
  ⟨h.1, by have := h.2; omega⟩

/-- What is left of a higher price. -/
theorem Pays.raise {a b d m b' : Nat} {s r : Counted S} (h : Pays a b s r) (hm : ahead r + m ≤ ahead s)
    (hb : b ≤ d * m + b') : Pays (a + d) b' s r := by
  refine ⟨h.1, ?_⟩
  have h1 := h.2
  have h2 := Nat.mul_le_mul_left d hm
  rw [Nat.mul_add] at h2
  rw [Nat.add_mul, Nat.add_mul]
  omega

/-- The same characters are ahead of both. -/
theorem ahead_same {s r : Counted S} (h : content r.inner = content s.inner) : ahead r = ahead s := by
  unfold ahead; rw [h]

/-! ## The leaves -/

/-- Moving over what was read. -/
theorem counted_consume {s : S} {st : Stream S} (hr : Reads (segments s) st) (j : Nat) {pre post : List Char}
    (hc : content s = pre ++ post) : ∃ s', advance (S := Counted S) ⟨release st, j⟩ (byteLen pre) = pure ⟨s', j + 1⟩ ∧
      Leads s s' ∧ content s' = post := by
  have hc' : content (release st) = pre ++ post := (LS.release s st hr).trans hc
  obtain ⟨s', h1, h2⟩ := LS.advance (release st) pre post hc'
  have h3 := h1
  rw [extent_str] at h3
  exact ⟨s', counted_advance h3, .move pre post (.read .here hr) hc' h1, h2⟩

theorem headLoop_counted (s : S) {st : Stream S} {es : List Str} (j : Nat) (hy : Yields st es)
    (hr : Reads (segments s) st) (hc : es.flatMap Str.chars = content s) :
    ∃ st' j', headLoop (S := Counted S) (st, j) = pure ((content s).head?, (st', j')) ∧ Reads (segments s) st' ∧
      j' ≤ j + es.length + 1 := by
  induction es generalizing st j with
  | nil =>
    cases hy with
    | done f hn =>
      refine ⟨f 0, j + 1, ?_, hr.trans (.step (hn _) (.refl _)), by simp⟩
      rw [headLoop, counted_next (hn _), ← hc]; rfl
  | cons e es ih =>
    cases hy with
    | seg f hn ht =>
      have hr' := hr.trans (.step (hn 0) (.refl _))
      cases he : e.chars with
      | nil =>
        obtain ⟨st', j', h1, h2, h3⟩ := ih (j + 1) (ht 0) hr' (by simpa [he] using hc)
        exact ⟨st', j', by rw [headLoop, counted_next (hn _)]; simpa [he] using h1, h2,
          by simp only [List.length_cons]; omega⟩
      | cons d ds =>
        refine ⟨f 0, j + 1, ?_, hr', by simp only [List.length_cons]; omega⟩
        rw [headLoop, counted_next (hn _), ← hc]; simp [he]

theorem op_counted (k : Nat) (s : Counted S) (hk : FewSegments k s.inner) :
    Run.Within (op s) fun res => Pays (k + 3) (k + 3) s (left res) ∧
      match res with
      | .ok _ r => ahead r + 1 = ahead s ∧ Pays (k + 3) 0 s r
      | .err _ u => content u.val.inner = content s.inner := by
  obtain ⟨st', j', h1, h2, h3⟩ := headLoop_counted s.inner (s.calls + 1) (LS.yields s.inner) (.refl _) (LS.concat s.inner)
  have hk' : (LS.segs s.inner).length ≤ k := hk _ .here
  have hrel : content (release st') = content s.inner := LS.release _ _ h2
  have hmiss : Pays (k + 3) (k + 3) s ⟨release st', j'⟩ := by
    refine ⟨.read .here h2, ?_⟩
    rw [ahead_same (s := s) (r := ⟨release st', j'⟩) hrel]
    show j' + _ ≤ _
    omega
  rw [op]
  have h1' : headLoop (segments s) = pure ((content s.inner).head?, (st', j')) := h1
  rw [h1']
  simp only [Run.pure_bind']
  cases hc : (content s.inner).head? with
  | none => exact Run.within_pure ⟨hmiss, hrel⟩
  | some c =>
    simp only
    split
    · exact Run.within_pure ⟨hmiss, hrel⟩
    · rename_i o _
      obtain ⟨cs, hcs⟩ := List.head?_eq_some_iff.mp hc
      obtain ⟨s', g1, g2, g3⟩ := counted_consume h2 j' (pre := [c]) (post := cs) hcs
      have g1' : advance (S := Counted S) (release (S := Counted S) (st', j')) c.utf8Size = pure ⟨s', j' + 1⟩ := by
        rw [show c.utf8Size = byteLen [c] by simp]; exact g1
      rw [g1']
      have hl : ahead (⟨s', j' + 1⟩ : Counted S) + 1 = ahead s := by
        show (content s').length + 1 = (content s.inner).length
        rw [g3, hcs]; rfl
      have hp : Pays (k + 3) 0 s ⟨s', j' + 1⟩ := by
        refine ⟨g2, ?_⟩
        rw [← hl, Nat.mul_add]
        show j' + 1 + _ ≤ _
        omega
      simp only [Run.pure_bind']
      exact Run.within_pure ⟨hp.more (by omega), hl, hp⟩

theorem integerLoop_counted (s : S) {st : Stream S} {es : List Str} (j : Nat) (hy : Yields st es)
    (hr : Reads (segments s) st) (buf : List Char) (n : Nat) :
    ∃ ds post st' j', integerLoop (S := Counted S) (st, j) buf n = pure (buf ++ ds, n + byteLen ds, (st', j')) ∧
      Reads (segments s) st' ∧ es.flatMap Str.chars = ds ++ post ∧ j' ≤ j + es.length + 1 := by
  induction es generalizing st j buf n with
  | nil =>
    cases hy with
    | done f hn =>
      refine ⟨[], [], f 0, j + 1, ?_, hr.trans (.step (hn _) (.refl _)), rfl, by simp⟩
      rw [integerLoop, counted_next (hn _)]; simp
  | cons e es ih =>
    cases hy with
    | seg f hn ht =>
      have hr' := hr.trans (.step (hn 0) (.refl _))
      rw [integerLoop, counted_next (hn _)]
      simp only [Run.pure_bind', List.flatMap_cons, List.length_cons]
      have hsplit := List.takeWhile_append_dropWhile (p := isAsciiDigit) (l := e.chars)
      rcases lastDigit_eq e with ⟨h1, h2⟩ | ⟨idx, c, h1, h2, h3⟩
      · rw [h2]
        exact ⟨[], _, f 0, j + 1, by simp, hr', rfl, by omega⟩
      · rw [h1]
        simp only [h2]
        have hp : strPrefix e (byteLen (e.chars.takeWhile isAsciiDigit)) = pure ⟨e.chars.takeWhile isAsciiDigit⟩ := by
          unfold strPrefix
          have := cutBytes_append (e.chars.takeWhile isAsciiDigit) (e.chars.dropWhile isAsciiDigit)
          rw [hsplit] at this
          rw [this]
        rw [hp]
        simp only [Run.pure_bind']
        by_cases hlt : byteLen (e.chars.takeWhile isAsciiDigit) < byteLen e.chars
        · rw [if_pos hlt]
          exact ⟨e.chars.takeWhile isAsciiDigit, e.chars.dropWhile isAsciiDigit ++ es.flatMap Str.chars, f 0, j + 1, rfl, hr',
            by rw [← List.append_assoc, hsplit], by omega⟩
        · rw [if_neg hlt]
          have hlen : byteLen e.chars = byteLen (e.chars.takeWhile isAsciiDigit) + byteLen (e.chars.dropWhile isAsciiDigit) := by
            rw [← byteLen_append, hsplit]
          have hd : e.chars.dropWhile isAsciiDigit = [] := by
            rw [← byteLen_eq_zero]; omega
          have hall : e.chars.takeWhile isAsciiDigit = e.chars := by rw [hd] at hsplit; simpa using hsplit
          obtain ⟨ds, post, st', j', r1, r2, r3, r4⟩ := ih (j + 1) (ht 0) hr' (buf ++ e.chars) (n + byteLen e.chars)
          refine ⟨e.chars ++ ds, post, st', j', ?_, r2, by rw [r3, List.append_assoc], by omega⟩
          rw [hall, r1]
          simp [Nat.add_assoc]

theorem integer_counted (k : Nat) (s : Counted S) (hk : FewSegments k s.inner) :
    Run.Within (integer s) fun res => match res with
      | .ok _ r => Pays (k + 3) 0 s r ∧ ahead r + 1 ≤ ahead s
      | .err e u => shouldTerminate e = false ∧ Pays (k + 3) (k + 3) s u.val ∧ content u.val.inner = content s.inner := by
  obtain ⟨ds, post, st', j', h1, h2, h3, h4⟩ := integerLoop_counted s.inner (s.calls + 1) (LS.yields s.inner) (.refl _) [] 0
  have hk' : (LS.segs s.inner).length ≤ k := hk _ .here
  have hrel : content (release st') = content s.inner := LS.release _ _ h2
  have hmiss : Pays (k + 3) (k + 3) s ⟨release st', j'⟩ := by
    refine ⟨.read .here h2, ?_⟩
    rw [ahead_same (s := s) (r := ⟨release st', j'⟩) hrel]
    show j' + _ ≤ _
    omega
  have h1' : integerLoop (segments s) [] 0 = pure (ds, byteLen ds, (st', j')) := by
    have := h1
    rw [List.nil_append, Nat.zero_add] at this
    exact this
  rw [integer, h1']
  simp only [Run.pure_bind']
  by_cases hz : byteLen ds = 0
  · rw [if_pos hz]; exact Run.within_pure ⟨rfl, hmiss, hrel⟩
  · rw [if_neg hz]
    cases fromDecimal ds 0 with
    | none => exact Run.within_fault
    | some n =>
      have hcs : content s.inner = ds ++ post := (LS.concat s.inner).symm.trans h3
      obtain ⟨s', g1, g2, g3⟩ := counted_consume h2 j' hcs
      have g1' : advance (S := Counted S) (release (S := Counted S) (st', j')) (byteLen ds) = pure ⟨s', j' + 1⟩ := g1
      simp only
      rw [g1']
      have hl : ahead (⟨s', j' + 1⟩ : Counted S) + 1 ≤ ahead s := by
        show (content s').length + 1 ≤ (content s.inner).length
        rw [g3, hcs]
        have : ds ≠ [] := fun h => hz (by simp [h])
        have := List.length_pos_iff.mpr this
        simp; omega
      simp only [Run.pure_bind']
      refine Run.within_pure ⟨⟨g2, ?_⟩, hl⟩
      have := Nat.mul_le_mul_left (k + 3) hl
      rw [Nat.mul_add] at this
      show j' + 1 + _ ≤ _
      omega

theorem atomLoop_counted (c : Char) (hc1 : c.utf8Size = 1) (s : S) {st : Stream S} {es : List Str} (j : Nat)
    (hy : Yields st es) (hr : Reads (segments s) st) (hc : es.flatMap Str.chars = content s) :
    Run.Within (atomLoop (S := Counted S) (⟨[c]⟩ : Str) (st, j)) fun res => Leads s (left res).inner ∧
      (left res).calls ≤ j + es.length + 2 ∧
      match res with
      | .ok _ r => content s = c :: content r.inner
      | .err e u => shouldTerminate e = false ∧ content u.val.inner = content s := by
  have hlc : SequenceSegment.len (⟨[c]⟩ : Str) = 1 := by simp [SequenceSegment.len, hc1]
  induction es generalizing st j with
  | nil =>
    cases hy with
    | done f hn =>
      have hr' := hr.trans (.step (hn 1) (.refl _))
      rw [atomLoop, hlc, counted_next (hn _)]
      exact Run.within_pure ⟨.read .here hr', by simp [left, failAt, release], rfl, LS.release _ _ hr'⟩
  | cons e es ih =>
    cases hy with
    | seg f hn ht =>
      have hr' := hr.trans (.step (hn 1) (.refl _))
      rw [atomLoop, hlc, counted_next (hn _)]
      simp only [Run.pure_bind']
      cases he : e.chars with
      | nil =>
        have he0 : e = ⟨[]⟩ := by cases e; simpa using he
        subst he0
        rw [if_neg (by simp [SequenceSegment.len])]
        have : SequenceSegment.splitAt (⟨[c]⟩ : Str) (SequenceSegment.len (⟨[]⟩ : Str)) = pure ((⟨[]⟩ : Str), (⟨[c]⟩ : Str)) := rfl
        rw [this]
        simp only [Run.pure_bind']
        refine Run.within_mono (ih (j + 1) (ht 1) hr' (by simpa using hc)) ?_
        rintro res ⟨h1, h2, h3⟩
        exact ⟨h1, by simp only [List.length_cons]; omega, by cases res <;> exact h3⟩
      | cons x xs =>
        have hx := utf8Size_pos' x
        have hle : SequenceSegment.len e ≥ 1 := by simp only [SequenceSegment.len, he, byteLen_cons]; omega
        rw [if_pos hle]
        have hc' : content s = [x] ++ (xs ++ es.flatMap Str.chars) := by rw [← hc]; simp [he]
        by_cases hw : 1 < x.utf8Size
        · have : SequenceSegment.splitAt e 1 = Run.fault .charBoundary := by
            show strSplitAt e 1 = _
            unfold strSplitAt
            rw [he]
            simp [cutBytes, show ¬ x.utf8Size ≤ 1 by omega]
          rw [this]
          exact .inr ⟨_, rfl⟩
        · have hx1 : x.utf8Size = 1 := by omega
          have : SequenceSegment.splitAt e 1 = pure ((⟨[x]⟩ : Str), (⟨xs⟩ : Str)) := by
            show strSplitAt e 1 = _
            unfold strSplitAt
            rw [he]
            simp [cutBytes, hx1]
          rw [this]
          simp only [Run.pure_bind']
          have hb : ((⟨[x]⟩ : Str) == (⟨[c]⟩ : Str)) = decide (x = c) := by
            by_cases hxc : x = c
            · subst hxc; simp
            · simp [hxc]
          rw [hb]
          by_cases hxc : x = c
          · subst hxc
            obtain ⟨s', g1, g2, g3⟩ := counted_consume hr' (j + 1) hc'
            have g1' : advance (S := Counted S) (release (S := Counted S) (f 1, j + 1)) 1 = pure ⟨s', j + 1 + 1⟩ := by
              have hb1 : byteLen [x] = 1 := by simp [hx1]
              rw [hb1] at g1; exact g1
            simp only [decide_true, if_true]
            rw [g1']
            simp only [Run.pure_bind']
            refine Run.within_pure ⟨g2, ?_, ?_⟩
            · show j + 1 + 1 ≤ _
              simp only [List.length_cons]; omega
            · show content s = x :: content s'
              rw [g3]; exact hc'
          · simp only [hxc, decide_false, Bool.false_eq_true, if_false]
            refine Run.within_pure ⟨.read .here hr', ?_, rfl, LS.release _ _ hr'⟩
            show j + 1 ≤ _
            simp only [List.length_cons]; omega

theorem atom_counted (c : Char) (hc1 : c.utf8Size = 1) (k : Nat) (s : Counted S) (hk : FewSegments k s.inner) :
    Run.Within ((atom (⟨[c]⟩ : Str)).parse s) fun res => match res with
      | .ok _ r => Pays (k + 3) 0 s r ∧ ahead r + 1 = ahead s ∧ content s.inner = c :: content r.inner
      | .err e u => shouldTerminate e = false ∧ Pays (k + 3) (k + 3) s u.val ∧ content u.val.inner = content s.inner := by
  have hk' : (LS.segs s.inner).length ≤ k := hk _ .here
  refine Run.within_mono (atomLoop_counted c hc1 s.inner (s.calls + 1) (LS.yields s.inner) (.refl _) (LS.concat s.inner)) ?_
  rintro (⟨_, r⟩ | ⟨e, u⟩) ⟨h1, h2, h3⟩
  · have hl : ahead r + 1 = ahead s := by
      show (content r.inner).length + 1 = (content s.inner).length
      rw [h3]; rfl
    refine ⟨⟨h1, ?_⟩, hl, h3⟩
    rw [← hl, Nat.mul_add]
    simp only [left] at h2
    omega
  · refine ⟨h3.1, ⟨h1, ?_⟩, h3.2⟩
    rw [ahead_same h3.2]
    simp only [left] at h2
    omega

theorem spaces_counted (k n : Nat) (s : Counted S) (hn : ahead s = n) (hk : FewSegments k s.inner) (buf : List Unit) :
    ∃ vs e r, repeatLoop (theChar ' ').parse buf s = pure (.ok (buf ++ vs, e) r) ∧ Pays (k + 3) (k + 4) s r ∧
      (vs = [] → content r.inner = content s.inner) ∧
      (vs ≠ [] → ahead r + 1 ≤ ahead s ∧ (content s.inner).head? = some ' ') := by
  induction n generalizing s buf with
  | zero =>
    obtain ⟨res, h1, h2, h3, h4, h5⟩ := takes_char ' ' k s hk
    have hnil : content s.inner = [] := List.eq_nil_of_length_eq_zero hn
    cases res with
    | ok v r =>
      rw [hnil] at h5
      have := h5.det (.charFails ' ' _ (by simp))
      simp at this
    | err e u =>
      have hw : u.rewind (anchor s) = pure ⟨s.inner, u.val.calls + 1⟩ := counted_rewind (L.rewind h2.desc)
      have he : shouldTerminate e = false := h5.1
      simp only [left, Peg.toll] at h4
      refine ⟨[], e, ⟨s.inner, u.val.calls + 1⟩, by rw [repeatLoop]; simp [h1, he, hw, done], ⟨.here, ?_⟩, fun _ => rfl,
        fun h => absurd rfl h⟩
      show u.val.calls + 1 + (k + 3) * ahead s ≤ _
      omega
  | succ n ih =>
    obtain ⟨res, h1, h2, h3, h4, h5⟩ := takes_char ' ' k s hk
    simp only [left, Peg.toll] at h4
    cases res with
    | ok v r =>
      have hc : content s.inner = ' ' :: content r.inner := by
        revert h5
        show (Peg.char ' ').Matches (content s.inner) (some (content r.inner)) → _
        generalize content s.inner = cs
        generalize content r.inner = ds
        intro h5
        cases h5
        rfl
      have hl : ahead r + 1 = ahead s := by
        show (content r.inner).length + 1 = (content s.inner).length
        rw [hc]; rfl
      obtain ⟨vs, e, t, g1, g2, g3, g4⟩ := ih r (by omega) (fewSegments_desc hk h2) (buf ++ [v])
      have hp : Pays (k + 3) 0 s r := by
        refine ⟨h2, ?_⟩
        rw [← hl, Nat.mul_add]
        simp only at h4
        omega
      refine ⟨v :: vs, e, t, by rw [repeatLoop]; simp [h1, g1], (hp.trans g2).more (by omega), fun h => by simp at h, fun _ => ⟨?_, by rw [hc]; rfl⟩⟩
      have : ahead t ≤ ahead r := g2.1.shorter
      omega
    | err e u =>
      have hw : u.rewind (anchor s) = pure ⟨s.inner, u.val.calls + 1⟩ := counted_rewind (L.rewind h2.desc)
      have he : shouldTerminate e = false := h5.1
      simp only at h4
      refine ⟨[], e, ⟨s.inner, u.val.calls + 1⟩, by rw [repeatLoop]; simp [h1, he, hw, done], ⟨.here, ?_⟩, fun _ => rfl,
        fun h => absurd rfl h⟩
      show u.val.calls + 1 + (k + 3) * ahead s ≤ _
      omega

theorem space_counted (k : Nat) (s : Counted S) (hk : FewSegments k s.inner) :
    ∃ res, space s = pure res ∧ Pays (k + 3) (k + 4) s (left res) ∧
      match res with
      | .ok _ r => ahead r + 1 ≤ ahead s ∧ (content s.inner).head? = some ' '
      | .err _ u => content u.val.inner = content s.inner := by
  obtain ⟨vs, e, r, h1, h2, h3, h4⟩ := spaces_counted k _ s rfl hk []
  have h1' : (theChar ' ').repeat.parse s = pure (.ok (vs, e) r) := h1
  cases vs with
  | nil => exact ⟨.err ⟨()⟩ ⟨r⟩, by simp [space, Parser.andThen, h1', failAt], h2, h3 rfl⟩
  | cons v vs => exact ⟨.ok () r, by simp [space, Parser.andThen, h1', done], h2, h4 (by simp)⟩

/-- An operator with its spaces: what it takes, and that it moves only over a text that begins with a space. -/
theorem spacedOp_counted (k : Nat) (s : Counted S) (hk : FewSegments k s.inner) :
    Run.Within (spacedOp.parse s) fun res => Pays (k + 3) (3 * k + 11) s (left res) ∧
      match res with
      | .ok _ r => ahead r + 3 ≤ ahead s ∧ (content s.inner).head? = some ' '
      | .err e u => shouldTerminate e = false ∧
          (content u.val.inner = content s.inner ∨ (content s.inner).head? = some ' ') := by
  have hspace := fun (r : Counted S) (hr : FewSegments k r.inner) => within_ret (space_counted k r hr)
  refine within_map _ (within_join (Q₀ := fun res => match res with
    | .ok _ t => Pays (k + 3) (2 * k + 7) s t ∧ ahead t + 2 ≤ ahead s ∧ (content s.inner).head? = some ' '
    | .err e u => Pays (k + 3) (3 * k + 11) s u.val ∧ shouldTerminate e = false ∧
        (content u.val.inner = content s.inner ∨ (content s.inner).head? = some ' '))
    (within_join (hspace s hk) ?_ ?_) ?_ ?_)
  · rintro e u ⟨h2, h3⟩
    exact ⟨h2.more (by omega), rfl, .inl h3⟩
  · rintro v r ⟨h2, h3⟩
    refine Run.within_mono (op_counted k r (fewSegments_desc hk h2.1)) ?_
    rintro (⟨o, t⟩ | ⟨e, u⟩) ⟨g2, g3⟩
    · exact ⟨((h2.trans g2).more (by omega) : Pays _ (2 * k + 7) s t),
        (by have := h3.1; have := g3.1; omega : ahead t + 2 ≤ ahead s), h3.2⟩
    · exact ⟨(h2.trans g2).more (by omega), rfl, .inr h3.2⟩
  · rintro e u h
    exact h
  · rintro v r ⟨h2, h3, h4⟩
    refine Run.within_mono (hspace r (fewSegments_desc hk h2.1)) ?_
    rintro (⟨o, t⟩ | ⟨e, u⟩) ⟨g2, g3⟩
    · have := g3.1
      exact ⟨(h2.trans g2).more (by omega), by show ahead t + 3 ≤ _; omega, h4⟩
    · exact ⟨(h2.trans g2).more (by omega), rfl, .inr h4⟩

/-! ## The rules -/

theorem within_or {O₀ O₁ E₀ E₁ : Type} [ParseError E₀] [ParseError E₁] {p : Parser (Counted S) O₀ E₀}
    {q : Parser (Counted S) O₁ E₁} {s : Counted S} {Q₀ : PResult (Counted S) O₀ E₀ → Prop}
    {Q : PResult (Counted S) (Either O₀ O₁) (EitherBoth E₀ E₁) → Prop} (h : Run.Within (p.parse s) Q₀)
    (hok : ∀ v r, Q₀ (.ok v r) → Q (.ok (.first v) r))
    (herr : ∀ e u, Q₀ (.err e u) → shouldTerminate e = false ∧ Leads s.inner u.val.inner ∧
      Run.Within (q.parse ⟨s.inner, u.val.calls + 1⟩) fun res => match res with
        | .ok w t => Q (.ok (.last w) t)
        | .err e' u' => shouldTerminate e' = false ∧ Q (.err (.both e e') u')) : Run.Within ((p.or q).parse s) Q := by
  refine Run.within_bind h ?_
  rintro (⟨v, r⟩ | ⟨e, u⟩) h0
  · exact Run.within_pure (hok v r h0)
  · obtain ⟨h1, h2, h3⟩ := herr e u h0
    have hw : u.rewind (anchor s) = pure ⟨s.inner, u.val.calls + 1⟩ := counted_rewind (L.rewind h2.desc)
    simp only [h1, hw, Run.pure_bind', Bool.false_eq_true, not_false_eq_true, if_true]
    refine Run.within_bind h3 ?_
    rintro (⟨w, t⟩ | ⟨e', u'⟩) h4
    · exact Run.within_pure h4
    · simp only [h4.1, Bool.false_eq_true, not_false_eq_true, if_true]
      exact Run.within_pure h4.2

/-- No more than the price of everything that is ahead. -/
def Capped (k : Nat) (s r : Counted S) : Prop :=
  Leads s.inner r.inner ∧ r.calls ≤ s.calls + (5 * k + 19) * ahead s + (4 * k + 16)

/-- What a `term` may take, up to this length. -/
def TermCost (k n : Nat) (term : Counted S → Run (PResult (Counted S) Term (Miss Unit))) : Prop :=
  ∀ s, FewSegments k s.inner → ahead s ≤ n → Run.Within (term s) fun res => match res with
    | .ok _ r => Pays (5 * k + 19) 0 s r ∧ ahead r + 1 ≤ ahead s
    | .err _ u => Capped k s u.val

/-- What an `expr` may take: either it ends at the furthest place it has looked at, or it stands before a space. -/
def ExprCost (k n : Nat) (expr : Counted S → Run (PResult (Counted S) Expr (Miss Unit))) : Prop :=
  ∀ s, FewSegments k s.inner → ahead s ≤ n → Run.Within (expr s) fun res => match res with
    | .ok _ r => Pays (5 * k + 19) (4 * k + 16) s r ∨ (Capped k s r ∧ (content r.inner).head? = some ' ')
    | .err _ u => Capped k s u.val

theorem Pays.capped {k b : Nat} {s r : Counted S} (h : Pays (5 * k + 19) b s r) (hb : b ≤ 4 * k + 16) : Capped k s r :=
  ⟨h.1, by have := h.2; omega⟩

/-- After some way that was paid for, the rest is still within the cap. -/
theorem Pays.then_capped {k : Nat} {s r t : Counted S} (h : Pays (5 * k + 19) 0 s r) (h' : Capped k r t) : Capped k s t :=
  ⟨h.1.trans h'.1, by have := h.2; have := h'.2; omega⟩

theorem Pays.dear {k b m b' : Nat} {s r : Counted S} (h : Pays (k + 3) b s r) (hm : ahead r + m ≤ ahead s)
    (hb : b ≤ (4 * k + 16) * m + b') : Pays (5 * k + 19) b' s r := by
  have := h.raise hm hb
  rwa [show k + 3 + (4 * k + 16) = 5 * k + 19 by omega] at this

theorem Pays.slack' {k b m : Nat} {s r : Counted S} (h : Pays (k + 3) b s r) (hm : ahead r + m ≤ ahead s) :
    r.calls + (5 * k + 19) * ahead r + (4 * k + 16) * m ≤ s.calls + (5 * k + 19) * ahead s + b := by
  have h1 := h.2
  have h2 := Nat.mul_le_mul_left (4 * k + 16) hm
  rw [Nat.mul_add] at h2
  have h3 : ∀ x, (5 * k + 19) * x = (k + 3) * x + (4 * k + 16) * x := fun x => by
    rw [← Nat.add_mul]; congr 1; omega
  rw [h3, h3]
  omega

theorem Pays.slack {k : Nat} {s r : Counted S} (h : Pays (k + 3) 0 s r) (hm : ahead r + 1 ≤ ahead s) :
    r.calls + (5 * k + 19) * ahead r + (4 * k + 16) ≤ s.calls + (5 * k + 19) * ahead s := by
  have := h.slack' hm
  omega

/-- A term takes its time, if the expressions in it do. -/
theorem termOf_counted (k n : Nat) {expr : Counted S → Run (PResult (Counted S) Expr (Miss Unit))}
    (hE : ∀ m, m < n → ExprCost k m expr) : TermCost k n (termOf expr) := by
  intro s hk hn
  refine within_mapErr _ (within_map _ (within_or (integer_counted k s hk) ?_ ?_))
  · rintro v r ⟨h1, h2⟩
    exact ⟨h1.dear h2 (by omega), h2⟩
  · rintro e u ⟨h1, h2, h3⟩
    refine ⟨h1, h2.1, ?_⟩
    have hc : u.val.calls ≤ s.calls + (k + 3) := by
      have := h2.2
      rw [ahead_same h3] at this
      omega
    generalize u.val.calls = c at hc
    clear h1 h2 h3 u
    have hs' : ahead (⟨s.inner, c + 1⟩ : Counted S) = ahead s := rfl
    refine within_map _ (within_join (Q₀ := fun res => match res with
      | .ok _ t => Leads s.inner t.inner ∧ ahead t + 1 ≤ ahead s ∧
          (t.calls + (5 * k + 19) * ahead t + (4 * k + 16) ≤ s.calls + (k + 4) + (5 * k + 19) * ahead s + (4 * k + 16) ∨
            (t.calls + (4 * k + 16) ≤ s.calls + (k + 4) + (5 * k + 19) * ahead s + (4 * k + 16) ∧
              (content t.inner).head? = some ' '))
      | .err _ u => Capped k s u.val)
      (within_join (atom_counted '(' rfl k ⟨s.inner, c + 1⟩ hk) ?_ ?_) ?_ ?_)
    · rintro e u ⟨-, h2, h3⟩
      refine ⟨h2.1, ?_⟩
      have := h2.2
      rw [ahead_same (s := ⟨s.inner, c + 1⟩) (r := u.val) h3] at this
      simp only at this
      omega
    · rintro _ r ⟨h2, h3, -⟩
      have hsl := h2.slack (by omega)
      rw [hs'] at hsl h3
      simp only at hsl
      refine Run.within_mono (hE (ahead r) (by omega) r (fewSegments_desc hk h2.1) (Nat.le_refl _)) ?_
      rintro (⟨x, t⟩ | ⟨e, u⟩) g
      · rcases g with g | ⟨g, gs⟩
        · have := g.2
          have : ahead t ≤ ahead r := g.1.shorter
          exact ⟨h2.1.trans g.1, by omega, .inl (by omega)⟩
        · have := g.2
          have : ahead t ≤ ahead r := g.1.shorter
          exact ⟨h2.1.trans g.1, by omega, .inr ⟨by omega, gs⟩⟩
      · have := g.2
        exact ⟨h2.1.trans g.1, by omega⟩
    · rintro e u h
      exact ⟨by cases e with | first e => cases e <;> rfl | last e => rfl, h⟩
    · rintro x t ⟨h2, h3, h4⟩
      refine Run.within_mono (atom_counted ')' rfl k t (fewSegments_desc hk h2)) ?_
      rintro (⟨_, q⟩ | ⟨e, u⟩) g
      · obtain ⟨g1, g2, g3⟩ := g
        have hsl := g1.slack (by omega)
        rcases h4 with h4 | ⟨-, h4⟩
        · exact ⟨⟨h2.trans g1.1, by omega⟩, by omega⟩
        · rw [g3] at h4; simp at h4
      · obtain ⟨g1, g2, g3⟩ := g
        refine ⟨by rfl, h2.trans g2.1, ?_⟩
        have := g2.2
        rw [ahead_same g3] at this
        rcases h4 with h4 | ⟨h4, -⟩ <;> omega

/-- The loop of the expression, from a place where a term has ended. -/
theorem loop_counted (k n : Nat) (b : Build) {term : Counted S → Run (PResult (Counted S) Term (Miss Unit))}
    (hT : TermCost k n term) (m : Nat) (s : Counted S) (hk : FewSegments k s.inner) (hm : ahead s = m) (hn : m ≤ n)
    (stack : List (Expr × Op)) (rhs : Expr) :
    Run.Within (binExprLoop b term spacedOp.parse (fun l o r => Expr.binOp l o r) Expr.term 0 stack rhs s)
      fun res => ∃ e reason r, res = .ok (e, .error reason) r ∧
        (Pays (5 * k + 19) (4 * k + 16) s r ∨ (Capped k s r ∧ (content r.inner).head? = some ' ')) := by
  induction m using Nat.strongRecOn generalizing s stack rhs with
  | ind m ih =>
    rw [binExprLoop]
    refine Run.within_bind (spacedOp_counted k s hk) ?_
    rintro (⟨o, r⟩ | ⟨e, u⟩) ⟨h2, h3⟩
    · simp only [left] at h2 h3
      simp only [ge_iff_le, Nat.zero_le, if_true]
      have hp : Pays (5 * k + 19) 0 s r := h2.dear h3.1 (by omega)
      refine Run.within_bind (hT r (fewSegments_desc hk h2.1) (by omega)) ?_
      rintro (⟨t, q⟩ | ⟨e, u⟩) g
      · obtain ⟨g1, g2⟩ := g
        refine Run.within_bind (Q := fun _ => True) ?_ ?_
        · cases hred : reduceFor b (fun l o r => Expr.binOp l o r) o (Expr.term t) stack rhs using Run.casesRun with
          | ret a => exact .inl ⟨a, rfl, trivial⟩
          | fault f => exact .inr ⟨f, rfl⟩
          | diverge => exact absurd hred (reduceFor_returns b _ o _ stack rhs)
        · rintro ⟨stack', rhs'⟩ -
          refine Run.within_mono (ih (ahead q) (by omega) q (fewSegments_desc hk (h2.1.trans g1.1)) rfl (by omega) stack' rhs') ?_
          rintro res ⟨e, reason, x, rfl, h | ⟨h, h'⟩⟩
          · exact ⟨e, reason, x, rfl, .inl (((hp.trans g1).trans h).more (by omega))⟩
          · exact ⟨e, reason, x, rfl, .inr ⟨hp.then_capped (g1.then_capped h), h'⟩⟩
      · have hw : u.rewind (anchor s) = pure ⟨s.inner, u.val.calls + 1⟩ := counted_rewind (L.rewind (h2.1.trans g.1).desc)
        have he : shouldTerminate e = false := rfl
        simp only [he, hw, Run.pure_bind', Bool.false_eq_true, not_false_eq_true, if_true]
        refine Run.within_pure ⟨_, _, _, rfl, .inr ⟨⟨.here, ?_⟩, h3.2⟩⟩
        have h4 := h2.slack' h3.1
        have h5 := g.2
        show u.val.calls + 1 ≤ _
        omega
    · simp only [left] at h2 h3
      have hw : u.rewind (anchor s) = pure ⟨s.inner, u.val.calls + 1⟩ := counted_rewind (L.rewind h2.1.desc)
      simp only [h3.1, hw, Run.pure_bind', Bool.false_eq_true, if_false]
      refine Run.within_pure ⟨_, _, _, rfl, ?_⟩
      rcases h3.2 with h4 | h4
      · left
        refine ⟨.here, ?_⟩
        have h5 := h2.2
        rw [ahead_same h4] at h5
        show u.val.calls + 1 + (5 * k + 19) * ahead s ≤ _
        omega
      · right
        refine ⟨⟨.here, ?_⟩, h4⟩
        have h5 := h2.slack' (m := 0) h2.1.shorter
        show u.val.calls + 1 ≤ _
        omega

/-- An expression takes its time, if the terms in it do. -/
theorem exprOf_counted (k n : Nat) (b : Build) {term : Counted S → Run (PResult (Counted S) Term (Miss Unit))}
    (hT : TermCost k n term) : ExprCost k n (exprOf b term) := by
  intro s hk hn
  refine within_mapErr _ (within_map _ (Run.within_bind (Q := fun res => match res with
    | .ok (_, .error _) r => Pays (5 * k + 19) (4 * k + 16) s r ∨ (Capped k s r ∧ (content r.inner).head? = some ' ')
    | .ok (_, .ok _) _ => False
    | .err _ u => Capped k s u.val) (Run.within_bind (hT s hk hn) ?_) ?_))
  · rintro (⟨t, r⟩ | ⟨e, u⟩) h
    · obtain ⟨h1, h2⟩ := h
      refine Run.within_mono (loop_counted k n b hT _ r (fewSegments_desc hk h1.1) rfl (by omega) [] (Expr.term t)) ?_
      rintro res ⟨e, reason, x, rfl, h | ⟨h, h'⟩⟩
      · exact .inl ((h1.trans h).more (by omega))
      · exact .inr ⟨h1.then_capped h, h'⟩
    · exact Run.within_pure h
  · rintro (⟨⟨e, reason | _⟩, r⟩ | ⟨e, u⟩) h
    · exact Run.within_pure h
    · exact absurd h id
    · exact Run.within_pure h

theorem calc_counted (k : Nat) (b : Build) (n : Nat) :
    TermCost (S := S) k n (term b) ∧ ExprCost (S := S) k n (expr b) := by
  induction n using Nat.strongRecOn with
  | ind n ih =>
    have hT : TermCost (S := S) k n (term b) := by
      intro s hk hn
      rw [term]
      exact termOf_counted k n (fun m hm => (ih m hm).2) s hk hn
    refine ⟨hT, ?_⟩
    intro s hk hn
    rw [expr]
    exact exprOf_counted k n b hT s hk hn

/-! ## Counting changes nothing -/

section
variable {S : Type} [Sequence S Str] [RewindSequence S]

/-- A counted sequence and the sequence in it. -/
def counting : TwinLaw (Counted S) S where
  Similar c s := c.inner = s
  From _ _ _ _ := True
  refl _ := trivial
  trans _ _ := trivial
  rewind := by
    rintro s r _ _ rfl rfl -
    show Run.Rel (do let s' ← rewind r.inner (anchor s.inner); return (⟨s', r.calls + 1⟩ : Counted S)) _ _
    cases h : rewind r.inner (anchor s.inner) using Run.casesRun with
    | ret t => exact .inl ⟨_, _, rfl, rfl, rfl, trivial⟩
    | fault f => exact .inr (.inl ⟨f, rfl, rfl⟩)
    | diverge => exact .inr (.inr ⟨rfl, rfl⟩)

omit [RewindSequence S] in
theorem sim_counted_next (st : Stream (Counted S)) (n : Nat) :
    Run.Sim (next (S := Counted S) st n) (next st.1 n) fun a b => a.1 = b.1 ∧ a.2.1 = b.2 := by
  show Run.Sim (do let (o, st') ← next st.1 n; return (o, (st', st.2 + 1)) : Run _) _ _
  cases h : next st.1 n using Run.casesRun with
  | ret t => exact Run.sim_pure ⟨rfl, rfl⟩
  | fault f => exact Run.sim_fault
  | diverge => exact Run.sim_diverge

omit [RewindSequence S] in
theorem sim_counted_advance (s : Counted S) (n : Nat) :
    Run.Sim (advance s n) (advance s.inner n) fun a b => a.inner = b := by
  show Run.Sim (do let s' ← advance s.inner n; return (⟨s', s.calls + 1⟩ : Counted S)) _ _
  cases h : advance s.inner n using Run.casesRun with
  | ret t => exact Run.sim_pure rfl
  | fault f => exact Run.sim_fault
  | diverge => exact Run.sim_diverge

theorem sim_theCharLoop (c : Char) (st : Stream (Counted S)) :
    Run.Sim (theCharLoop (S := Counted S) c st) (theCharLoop c st.1) (SameResult fun r r' => r.inner = r' ∧ True) := by
  revert st
  refine theCharLoop.fixpoint_induct (S := Counted S) (c := c) (motive := fun g => ∀ st : Stream (Counted S),
    Run.Sim (g st) (theCharLoop c st.1) (SameResult fun r r' => r.inner = r' ∧ True)) ?_ ?_
  · exact Run.admissible_fun (fun (st : Stream (Counted S)) x => Run.Sim x (theCharLoop c st.1)
      (SameResult fun (r : Counted S) r' => r.inner = r' ∧ True)) fun _ => Run.sim_diverge
  · intro g ih st
    rw [theCharLoop]
    refine Run.sim_bind (sim_counted_next st _) ?_
    rintro ⟨o, st'⟩ ⟨_, _⟩ ⟨rfl, rfl⟩
    cases o with
    | none => exact Run.sim_pure (.err ⟨rfl, trivial⟩)
    | some e =>
      simp only
      cases e.chars.head? with
      | none => exact ih st'
      | some d =>
        simp only
        split
        · exact Run.sim_bind (sim_counted_advance _ _) fun a b h => Run.sim_pure (.ok ⟨h, trivial⟩)
        · exact Run.sim_pure (.err ⟨rfl, trivial⟩)

theorem sim_atomLoop (p : Str) (st : Stream (Counted S)) :
    Run.Sim (atomLoop (S := Counted S) p st) (atomLoop p st.1) (SameResult fun r r' => r.inner = r' ∧ True) := by
  revert p st
  refine atomLoop.fixpoint_induct (S := Counted S) (motive := fun g => ∀ (p : Str) (st : Stream (Counted S)),
    Run.Sim (g p st) (atomLoop p st.1) (SameResult fun r r' => r.inner = r' ∧ True)) ?_ ?_
  · exact Run.admissible_fun₂ (fun p (st : Stream (Counted S)) x => Run.Sim x (atomLoop p st.1)
      (SameResult fun (r : Counted S) r' => r.inner = r' ∧ True)) fun _ _ => Run.sim_diverge
  · intro g ih p st
    rw [atomLoop]
    refine Run.sim_bind (sim_counted_next st _) ?_
    rintro ⟨o, st'⟩ ⟨_, _⟩ ⟨rfl, rfl⟩
    cases o with
    | none => exact Run.sim_pure (.err ⟨rfl, trivial⟩)
    | some e =>
      simp only
      split
      · refine Run.sim_bind Run.sim_refl ?_
        rintro ⟨x, y⟩ _ rfl
        simp only
        split
        · exact Run.sim_bind (sim_counted_advance _ _) fun a b h => Run.sim_pure (.ok ⟨h, trivial⟩)
        · exact Run.sim_pure (.err ⟨rfl, trivial⟩)
      · refine Run.sim_bind Run.sim_refl ?_
        rintro ⟨x, y⟩ _ rfl
        simp only
        split
        · exact Run.sim_pure (.err ⟨rfl, trivial⟩)
        · exact ih y st'

omit [RewindSequence S] in
theorem sim_headLoop (st : Stream (Counted S)) :
    Run.Sim (headLoop (S := Counted S) st) (headLoop st.1) fun a b => a.1 = b.1 ∧ a.2.1 = b.2 := by
  revert st
  refine headLoop.fixpoint_induct (S := Counted S) (motive := fun g => ∀ (st : Stream (Counted S)),
    Run.Sim (g st) (headLoop st.1) fun a b => a.1 = b.1 ∧ a.2.1 = b.2) ?_ ?_
  · exact Run.admissible_fun (fun (st : Stream (Counted S)) (x : Run (Option Char × Stream (Counted S))) => Run.Sim x (headLoop st.1)
      fun a b => a.1 = b.1 ∧ a.2.1 = b.2) fun _ => Run.sim_diverge
  · intro g ih st
    rw [headLoop]
    refine Run.sim_bind (sim_counted_next st _) ?_
    rintro ⟨o, st'⟩ ⟨_, _⟩ ⟨rfl, rfl⟩
    cases o with
    | none => exact Run.sim_pure ⟨rfl, rfl⟩
    | some e =>
      simp only
      cases e.chars.head? with
      | none => exact ih st'
      | some d => exact Run.sim_pure ⟨rfl, rfl⟩

omit [RewindSequence S] in
theorem sim_integerLoop (st : Stream (Counted S)) (buf : List Char) (n : Nat) :
    Run.Sim (integerLoop (S := Counted S) st buf n) (integerLoop st.1 buf n)
      fun a b => a.1 = b.1 ∧ a.2.1 = b.2.1 ∧ a.2.2.1 = b.2.2 := by
  revert st buf n
  refine integerLoop.fixpoint_induct (S := Counted S) (motive := fun g => ∀ (st : Stream (Counted S)) buf n,
    Run.Sim (g st buf n) (integerLoop st.1 buf n) fun a b => a.1 = b.1 ∧ a.2.1 = b.2.1 ∧ a.2.2.1 = b.2.2) ?_ ?_
  · exact Run.admissible_fun₃ (fun (st : Stream (Counted S)) buf n (x : Run (List Char × Nat × Stream (Counted S))) =>
      Run.Sim x (integerLoop st.1 buf n) fun a b => a.1 = b.1 ∧ a.2.1 = b.2.1 ∧ a.2.2.1 = b.2.2) fun _ _ _ => Run.sim_diverge
  · intro g ih st buf n
    rw [integerLoop]
    refine Run.sim_bind (sim_counted_next st _) ?_
    rintro ⟨o, st'⟩ ⟨_, _⟩ ⟨rfl, rfl⟩
    cases o with
    | none => exact Run.sim_pure ⟨rfl, rfl, rfl⟩
    | some e =>
      simp only
      cases lastDigit e with
      | none => exact Run.sim_pure ⟨rfl, rfl, rfl⟩
      | some d =>
        refine Run.sim_bind Run.sim_refl ?_
        rintro x _ rfl
        split
        · exact Run.sim_pure ⟨rfl, rfl, rfl⟩
        · exact ih _ _ _

theorem sim_atom (p : Str) : SimParse (counting (S := S)) (atom p).parse (atom p).parse := by
  rintro s _ rfl
  exact sim_atomLoop p (segments s)

theorem sim_op : SimParse (counting (S := S)) op op := by
  rintro s _ rfl
  refine Run.sim_bind (sim_headLoop (segments s)) ?_
  rintro ⟨o, st⟩ ⟨_, _⟩ ⟨rfl, rfl⟩
  cases o with
  | none => exact Run.sim_pure (.err ⟨rfl, trivial⟩)
  | some c =>
    simp only
    split
    · exact Run.sim_pure (.err ⟨rfl, trivial⟩)
    · exact Run.sim_bind (sim_counted_advance _ _) fun a b h => Run.sim_pure (.ok ⟨h, trivial⟩)

theorem sim_integer : SimParse (counting (S := S)) integer integer := by
  rintro s _ rfl
  refine Run.sim_bind (sim_integerLoop (segments s) [] 0) ?_
  rintro ⟨buf, n, st⟩ ⟨_, _, _⟩ ⟨rfl, rfl, rfl⟩
  simp only
  split
  · exact Run.sim_pure (.err ⟨rfl, trivial⟩)
  · cases fromDecimal buf 0 with
    | none => exact Run.sim_fault
    | some v => exact Run.sim_bind (sim_counted_advance _ _) fun a b h => Run.sim_pure (.ok ⟨h, trivial⟩)

theorem sim_space : SimParse (counting (S := S)) space space := by
  have hc : SimParse (counting (S := S)) (theChar ' ').parse (theChar ' ').parse := by
    rintro s _ rfl
    exact sim_theCharLoop ' ' (segments s)
  refine sim_relabel (fun s s' hs => sim_repeatLoop hc [] s s' hs) ?_
  intro Q a b hab
  cases hab with
  | err h => exact Run.sim_pure (.err h)
  | @ok v r r' h =>
    obtain ⟨v, e⟩ := v
    cases v with
    | nil => exact Run.sim_pure (.err h)
    | cons x xs => exact Run.sim_pure (.ok h)

theorem sim_map {O E T : Type} {L : TwinLaw (Counted S) S} {p : Parser (Counted S) O E} {p' : Parser S O E}
    (h : SimParse L p.parse p'.parse) (f : O → T) : SimParse L (p.map f).parse (p'.map f).parse :=
  sim_relabel h fun Q a b hab => by
    cases hab with
    | ok h => exact Run.sim_pure (.ok h)
    | err h => exact Run.sim_pure (.err h)

theorem sim_mapErr {O E T : Type} {L : TwinLaw (Counted S) S} {p : Parser (Counted S) O E} {p' : Parser S O E}
    (h : SimParse L p.parse p'.parse) (f : E → T) : SimParse L (p.mapErr f).parse (p'.mapErr f).parse :=
  sim_relabel h fun Q a b hab => by
    cases hab with
    | ok h => exact Run.sim_pure (.ok h)
    | err h => exact Run.sim_pure (.err h)

/-- The calculator on a counted sequence does what it does on the sequence in it, or does not come back. -/
theorem sim_expr (b : Build) : SimParse (counting (S := S)) (expr b) (expr b) := by
  refine expr.fixpoint_induct (S := Counted S) b
    (fun f => SimParse (counting (S := S)) f (expr b)) (fun f => SimParse (counting (S := S)) f (term b)) ?_ ?_ ?_ ?_
  · exact Run.admissible_fun (fun s x => ∀ s', (counting (S := S)).Similar s s' → Run.Sim x (expr b s')
      (SameResult (counting.Both s s'))) fun _ _ _ => Run.sim_diverge
  · exact Run.admissible_fun (fun s x => ∀ s', (counting (S := S)).Similar s s' → Run.Sim x (term b s')
      (SameResult (counting.Both s s'))) fun _ _ _ => Run.sim_diverge
  · intro t ht s s' hs
    rw [expr]
    exact sim_mapErr (sim_map (sim_binExpr b (term := Parser.ofFn t) (term' := Parser.ofFn (term b)) _ _ ht
      (sim_map (sim_join (sim_join sim_space sim_op) sim_space) _)) _) _ s s' hs
  · intro e he s s' hs
    rw [term]
    exact sim_mapErr (sim_map (sim_or sim_integer
      (sim_map (sim_join (sim_join (sim_atom _) (q := Parser.ofFn e) (q' := Parser.ofFn (expr b)) he) (sim_atom _)) _)) _) _
      s s' hs

end

/-! ## C106 -/

/-- C106: the calculator makes a number of calls of its input that is linear in the number of chars ahead, however deeply
parentheses are nested, and whether it finds an expression or not. `k` bounds the pieces the text comes in. Counting does
not change what it does: with the counter, it returns what it returns without. -/
theorem C106 (k : Nat) (b : Build) (s : Counted S) (hk : FewSegments k s.inner) :
    (∃ res res', expr b s = pure res ∧ expr b s.inner = pure res' ∧ SameResult (fun r r' => r.inner = r') res res' ∧
      (left res).calls ≤ s.calls + (5 * k + 19) * (content s.inner).length + (4 * k + 16)) ∨
    ∃ f, expr b s = Run.fault f ∧ expr b s.inner = Run.fault f := by
  have h := (calc_counted (S := S) k b (ahead s)).2 s hk (Nat.le_refl _)
  rcases sim_expr b s s.inner rfl with ⟨res, res', h1, h2, h3⟩ | ⟨f, h1, h2⟩ | h1
  · left
    refine ⟨res, res', h1, h2, h3.mono fun _ _ h => h.1, ?_⟩
    rcases h with ⟨a, g1, g2⟩ | ⟨f, g1⟩
    · rw [h1] at g1
      have g1 := Run.pure_inj'.mp g1
      subst g1
      cases res with
      | ok v r =>
        rcases g2 with g2 | g2
        · exact Nat.le_trans (Nat.le_add_right _ _) g2.2
        · exact g2.1.2
      | err e u => exact g2.2
    · rw [h1] at g1; cases g1
  · exact .inr ⟨f, h1, h2⟩
  · rcases h with ⟨a, g1, g2⟩ | ⟨f, g1⟩ <;> rw [h1] at g1 <;> cases g1

/-- On a `&str` whose chars are ASCII and whose numbers are `usize` values: at most 24 calls a char, and 20. -/
theorem C106_str (b : Build) (s : Counted StrRef) (hs : ¬ Hostile s.inner.text.chars) :
    ∃ res, expr b s = pure res ∧ (left res).calls ≤ s.calls + 24 * s.inner.text.chars.length + 20 := by
  rcases C106 1 b s (strRef_few _) with ⟨res, -, h, -, -, h2⟩ | ⟨f, -, h⟩
  · exact ⟨res, h, h2⟩
  · exact absurd h (C80_sane b s.inner hs f)

example (b : Build) : ∃ res, expr b (⟨⟨0, 0, ⟨"((1 + 2) * 3".toList⟩⟩, 0⟩ : Counted StrRef) = pure res ∧ (left res).calls ≤ 308 :=
  C106_str b _ (harmless (by decide) (by decide))

/-- A text in pieces, one of them empty. -/
example (b : Build) : ∃ res, expr b (⟨gapped, 0⟩ : Counted (Chunked Str Char)) = pure res ∧ (left res).calls ≤ 34 * 2 + 28 := by
  rcases C106 3 b (⟨gapped, 0⟩ : Counted (Chunked Str Char)) (chunked_few _) with ⟨res, -, h, -, -, h2⟩ | ⟨f, -, h⟩
  · exact ⟨res, h, Nat.le_trans h2 (by decide)⟩
  · obtain ⟨s', h1, -⟩ := C96_gap b
    exact nomatch h1.symm.trans h

end Parcom
