import Verif.Spec.Calc
import Verif.Lemmas.Grouping
import Verif.Lemmas.Lawful
import Verif.Lemmas.Primitive
import Verif.Lemmas.Combinator
import Verif.Props.BinExpr
/-!
# What the calculator does on every text

`TermAt`, `ExprAt` and `TailAt` describe, on texts alone, what the parsers of `example/src/bin_expr.rs` do: succeed and
leave a rest, miss, or panic. Every text has such an outcome, and the parsers follow it.
-/
namespace Parcom.Calc
open Spec Spec.Calc BTree Sequence

/-- What a parser does on a text. -/
inductive Outcome (α : Type) where
  | ok (v : α) (rest : List Char)
  | miss
  | panic

/-- The first char is more than one byte long. -/
def Wide (cs : List Char) : Prop := ∃ c, cs.head? = some c ∧ 1 < c.utf8Size

/-- The text begins with a digit. -/
def StartsDigit (cs : List Char) : Prop := ∃ c, cs.head? = some c ∧ c.isDigit = true

/-- The text begins with an operator between spaces, followed by `ds`. -/
def OpBefore (o : Op) (cs ds : List Char) : Prop :=
  ∃ sp sp', Spaces sp ∧ Spaces sp' ∧ ds.head? ≠ some ' ' ∧ cs = sp ++ symbol o :: (sp' ++ ds)

mutual
inductive TermAt : List Char → Outcome Term → Prop where
  | int {ds rest : List Char} : ds ≠ [] → (∀ c ∈ ds, c.isDigit) → ¬ StartsDigit rest → Nat.ofDigitChars 10 ds 0 ≤ usizeMax →
      TermAt (ds ++ rest) (.ok (.integer (Nat.ofDigitChars 10 ds 0)) rest)
  | big {ds rest : List Char} : ds ≠ [] → (∀ c ∈ ds, c.isDigit) → ¬ StartsDigit rest → usizeMax < Nat.ofDigitChars 10 ds 0 →
      TermAt (ds ++ rest) .panic
  | wide {cs : List Char} : Wide cs → TermAt cs .panic
  | none {cs : List Char} : ¬ Wide cs → ¬ StartsDigit cs → cs.head? ≠ some '(' → TermAt cs .miss
  | parens {cs rest : List Char} {e : Expr} : ExprAt cs (.ok e (')' :: rest)) →
      TermAt ('(' :: cs) (.ok (.parenthesized e) rest)
  | parensMiss {cs : List Char} : ExprAt cs .miss → TermAt ('(' :: cs) .miss
  | parensPanic {cs : List Char} : ExprAt cs .panic → TermAt ('(' :: cs) .panic
  | unclosed {cs rest : List Char} {e : Expr} : ExprAt cs (.ok e rest) → ¬ Wide rest → rest.head? ≠ some ')' →
      TermAt ('(' :: cs) .miss
  | unclosedWide {cs rest : List Char} {e : Expr} : ExprAt cs (.ok e rest) → Wide rest → TermAt ('(' :: cs) .panic
inductive ExprAt : List Char → Outcome Expr → Prop where
  | miss {cs : List Char} : TermAt cs .miss → ExprAt cs .miss
  | panic {cs : List Char} : TermAt cs .panic → ExprAt cs .panic
  | ok {cs rest rest' : List Char} {t : Term} {ps : List (Op × Term)} {tree : BTree Op Term} : TermAt cs (.ok t rest) →
      TailAt rest (.ok ps rest') → tree.first = t → tree.tail = ps → tree.Grouped Declared →
      ExprAt cs (.ok (tree.eval Expr.binOp Expr.term) rest')
  | tailPanic {cs rest : List Char} {t : Term} : TermAt cs (.ok t rest) → TailAt rest .panic → ExprAt cs .panic
inductive TailAt : List Char → Outcome (List (Op × Term)) → Prop where
  | stop {cs : List Char} : (∀ o ds, ¬ OpBefore o cs ds) → TailAt cs (.ok [] cs)
  | dangling {cs ds : List Char} {o : Op} : OpBefore o cs ds → TermAt ds .miss → TailAt cs (.ok [] cs)
  | panic {cs ds : List Char} {o : Op} : OpBefore o cs ds → TermAt ds .panic → TailAt cs .panic
  | more {cs ds rest rest' : List Char} {o : Op} {t : Term} {ps : List (Op × Term)} : OpBefore o cs ds →
      TermAt ds (.ok t rest) → TailAt rest (.ok ps rest') → TailAt cs (.ok ((o, t) :: ps) rest')
  | morePanic {cs ds rest : List Char} {o : Op} {t : Term} : OpBefore o cs ds → TermAt ds (.ok t rest) →
      TailAt rest .panic → TailAt cs .panic
end

/-! ## The leaves -/

/-- Where a parser of texts came out, given its outcome on the text. -/
def Agrees {S O E : Type} [Sequence S Str] [RewindSequence S] [LawfulSequence S] [L : LawfulRewind S] (s : S)
    (r : Run (PResult S O E)) : Outcome O → Prop
  | .ok v rest => ∃ s', r = pure (.ok v s') ∧ content s' = rest ∧ L.Desc s s'
  | .miss => ∃ e u, r = pure (.err e u) ∧ L.Desc s u.val
  | .panic => ∃ f, r = Run.fault f

instance : Gapless StrRef where
  noGap s l₁ x l₂ h _ := by
    have h : [s.text] = l₁ ++ x :: l₂ := h
    cases l₁ with
    | nil => simp at h; simp [h.2]
    | cons a l => simp at h

instance {μ M : Type} [Meter μ Str M] : Gapless (MeasuredStr μ) where
  noGap s l₁ x l₂ h _ := by
    have h : [s.base.text] = l₁ ++ x :: l₂ := h
    cases l₁ with
    | nil => simp at h; simp [h.2]
    | cons a l => simp at h

section
variable {S : Type} [Sequence S Str]

theorem headLoop_found {st : Stream S} {es : List Str} {seg : Str} {c : Char} {cs : List Char}
    (h : Delivers st (es ++ [seg])) (he : ∀ e ∈ es, e.chars = []) (hs : seg.chars = c :: cs) :
    ∃ st', Reads st st' ∧ headLoop st = pure (some c, st') := by
  induction es generalizing st with
  | nil =>
    cases h with
    | seg f hn ht => exact ⟨f 0, .step (hn 0) (.refl _), by rw [headLoop, hn]; simp [hs]⟩
  | cons e es ih =>
    cases h with
    | seg f hn ht =>
      obtain ⟨st', h1, h2⟩ := ih (ht 0) (fun e h => he e (by simp [h]))
      exact ⟨st', .step (hn 0) h1, by rw [headLoop, hn]; simp [he e, h2]⟩

theorem headLoop_missing {st : Stream S} {es : List Str} (h : Yields st es) (he : ∀ e ∈ es, e.chars = []) :
    ∃ st', Reads st st' ∧ headLoop st = pure (none, st') := by
  induction es generalizing st with
  | nil =>
    cases h with
    | done f hn => exact ⟨f 0, .step (hn 0) (.refl _), by rw [headLoop, hn]; simp⟩
  | cons e es ih =>
    cases h with
    | seg f hn ht =>
      obtain ⟨st', h1, h2⟩ := ih (ht 0) (fun e h => he e (by simp [h]))
      exact ⟨st', .step (hn 0) h1, by rw [headLoop, hn]; simp [he e, h2]⟩

theorem lastDigit_eq (seg : Str) :
    (seg.chars.takeWhile isAsciiDigit = [] ∧ lastDigit seg = none) ∨
    (∃ idx c, lastDigit seg = some (idx, c) ∧ idx + c.utf8Size = byteLen (seg.chars.takeWhile isAsciiDigit) ∧
      seg.chars.takeWhile isAsciiDigit ≠ []) := by
  unfold lastDigit
  rcases List.eq_nil_or_concat (seg.chars.takeWhile isAsciiDigit) with h | ⟨l, c, h⟩
  · left; rw [h]; simp
  · right
    rw [h]
    exact ⟨byteLen l, c, by simp, by simp, by simp⟩

theorem integerLoop_reads {st : Stream S} {es : List Str} (h : Yields st es) (hg : NoGap es) (buf : List Char) (n : Nat) :
    ∃ st', Reads st st' ∧ integerLoop st buf n =
      pure (buf ++ (es.flatMap fun s => s.chars).takeWhile isAsciiDigit,
        n + byteLen ((es.flatMap fun s => s.chars).takeWhile isAsciiDigit), st') := by
  induction es generalizing st buf n with
  | nil =>
    cases h with
    | done f hn => exact ⟨f 0, .step (hn 0) (.refl _), by rw [integerLoop, hn]; simp⟩
  | cons e es ih =>
    cases h with
    | seg f hn ht =>
      rw [integerLoop, hn]
      simp only [Run.pure_bind', List.flatMap_cons]
      have hsplit := List.takeWhile_append_dropWhile (p := isAsciiDigit) (l := e.chars)
      rcases lastDigit_eq e with ⟨h1, h2⟩ | ⟨idx, c, h1, h2, h3⟩
      · rw [h2]
        refine ⟨f 0, .step (hn 0) (.refl _), ?_⟩
        rcases hc : e.chars with _ | ⟨x, xs⟩
        · have := hg [] e es rfl hc
          rw [this]; simp
        · rw [hc] at h1
          rw [List.takeWhile_cons] at h1
          split at h1
          · simp at h1
          · rename_i hx
            simp [hx]
      · rw [h1]
        simp only [h2]
        have hp : strPrefix e (byteLen (e.chars.takeWhile isAsciiDigit)) = pure ⟨e.chars.takeWhile isAsciiDigit⟩ := by
          unfold strPrefix
          have := cutBytes_append (e.chars.takeWhile isAsciiDigit) (e.chars.dropWhile isAsciiDigit)
          rw [hsplit] at this
          rw [this]
        rw [hp]
        simp only [Run.pure_bind']
        have hlen : byteLen e.chars = byteLen (e.chars.takeWhile isAsciiDigit) + byteLen (e.chars.dropWhile isAsciiDigit) := by
          rw [← byteLen_append, hsplit]
        by_cases hlt : byteLen (e.chars.takeWhile isAsciiDigit) < byteLen e.chars
        · rw [if_pos hlt]
          refine ⟨f 0, .step (hn 0) (.refl _), ?_⟩
          have hd : e.chars.dropWhile isAsciiDigit ≠ [] := by
            intro hd; rw [hd] at hlen; simp at hlen; omega
          have : (e.chars ++ es.flatMap fun s => s.chars).takeWhile isAsciiDigit = e.chars.takeWhile isAsciiDigit := by
            rw [List.takeWhile_append, if_neg]
            intro hl
            apply hd
            have := congrArg List.length hsplit
            rw [List.length_append] at this
            exact List.eq_nil_of_length_eq_zero (by omega)
          rw [this]
        · rw [if_neg hlt]
          have hd : e.chars.dropWhile isAsciiDigit = [] := by
            rw [← byteLen_eq_zero]; omega
          have hall : e.chars.takeWhile isAsciiDigit = e.chars := by rw [hd] at hsplit; simpa using hsplit
          obtain ⟨st', r1, r2⟩ := ih (ht 0) (fun l₁ x l₂ h => hg (e :: l₁) x l₂ (by rw [h]; rfl))
            (buf ++ e.chars) (n + byteLen e.chars)
          refine ⟨st', .step (hn 0) r1, ?_⟩
          rw [hall, r2, List.takeWhile_append, if_pos (by rw [hall])]
          simp [Nat.add_assoc]

end

theorem isAsciiDigit_eq (c : Char) : isAsciiDigit c = c.isDigit := by
  unfold isAsciiDigit Char.isDigit
  simp only [Char.le_def]
  simp

theorem le_ofDigitChars (cs : List Char) (n : Nat) : n ≤ Nat.ofDigitChars 10 cs n := by
  induction cs generalizing n with
  | nil => simp
  | cons c cs ih =>
    rw [Nat.ofDigitChars_cons]
    exact Nat.le_trans (by omega) (ih _)

theorem fromDecimal_eq (cs : List Char) (n : Nat) (hn : n ≤ usizeMax) :
    fromDecimal cs n = if Nat.ofDigitChars 10 cs n ≤ usizeMax then some (Nat.ofDigitChars 10 cs n) else none := by
  induction cs generalizing n with
  | nil => simp [fromDecimal, hn]
  | cons c cs ih =>
    rw [fromDecimal, Nat.ofDigitChars_cons, Nat.mul_comm 10 n]
    by_cases h : n * 10 ≤ usizeMax ∧ n * 10 + (c.toNat - '0'.toNat) ≤ usizeMax
    · rw [if_pos h, ih _ h.2]
    · rw [if_neg h, if_neg]
      intro hle
      have := le_ofDigitChars cs (n * 10 + (c.toNat - '0'.toNat))
      apply h
      constructor <;> omega

section
variable {S : Type} [Sequence S Str] [RewindSequence S] [LawfulSequence S] [L : LawfulRewind S]

omit [RewindSequence S] L in
theorem content_yields (s : S) : Yields (segments s) (segs s) ∧ (segs s).flatMap (fun x => x.chars) = content s :=
  ⟨LawfulSequence.yields s, LawfulSequence.concat s⟩

/-- A parser that advances over a prefix. -/
theorem agrees_advance {O E : Type} {s : S} {st : Stream S} (hr : Reads (segments s) st) {pre post : List Char}
    (hc : content s = pre ++ post) (v : O) :
    Agrees (E := E) s (do let r ← advance (release st) (byteLen pre); return .ok v r) (.ok v post) := by
  have hrel : content (release st) = pre ++ post := (LawfulSequence.release s st hr).trans hc
  obtain ⟨s', h1, h2⟩ := LawfulSequence.advance (release st) pre post hrel
  have h1' := h1
  rw [extent_str] at h1
  rw [h1]
  exact ⟨s', rfl, h2, L.trans (L.release s st hr) (L.advance _ _ pre post hrel h1')⟩

theorem agrees_fails {O E : Type} {s : S} {st : Stream S} (hr : Reads (segments s) st) (e : E) :
    Agrees (O := O) s (pure (failAt e (release st))) .miss :=
  ⟨e, ⟨release st⟩, rfl, L.release s st hr⟩

theorem op_found {s : S} {o : Op} {ds : List Char} (h : content s = symbol o :: ds) :
    Agrees s (op s) (.ok o ds) := by
  rcases content_cases s with ⟨h1, -, -⟩ | ⟨es, e, x, xs, post, h1, h2, h3, h4⟩
  · rw [h1] at h; simp at h
  · obtain ⟨st, hr, h5⟩ := headLoop_found h2 h3 h4
    rw [h1] at h
    simp at h
    obtain ⟨rfl, rfl⟩ := h
    have := agrees_advance (E := Miss Unit) hr (pre := [symbol o]) h1 o
    unfold op
    rw [h5]
    cases o <;> exact this

theorem op_missing {s : S} (h : ∀ o, (content s).head? ≠ some (symbol o)) : Agrees s (op s) .miss := by
  rcases content_cases s with ⟨h1, h2, h3⟩ | ⟨es, e, x, xs, post, h1, h2, h3, h4⟩
  · obtain ⟨st, hr, h5⟩ := headLoop_missing h2 h3
    have := agrees_fails (O := Op) hr (⟨()⟩ : Miss Unit)
    unfold op
    rw [h5]
    exact this
  · obtain ⟨st, hr, h5⟩ := headLoop_found h2 h3 h4
    have := agrees_fails (O := Op) hr (⟨()⟩ : Miss Unit)
    unfold op
    rw [h5]
    rw [h1] at h
    have ha := h .add
    have hb := h .sub
    have hc := h .mul
    have hd := h .div
    simp [symbol] at ha hb hc hd
    simp only [Run.pure_bind']
    exact this

theorem takeWhile_digits {ds rest : List Char} (hd : ∀ c ∈ ds, c.isDigit) (hr : ¬ StartsDigit rest) :
    (ds ++ rest).takeWhile isAsciiDigit = ds := by
  rw [List.takeWhile_append_of_pos (by intro c hc; rw [isAsciiDigit_eq]; exact hd c hc)]
  rcases rest with _ | ⟨c, cs⟩
  · simp
  · have : isAsciiDigit c = false := by
      rw [isAsciiDigit_eq]
      cases hc : c.isDigit with
      | false => rfl
      | true => exact absurd ⟨c, rfl, hc⟩ hr
    simp [this]

theorem integer_at [Gapless S] {s : S} {ds rest : List Char} (hc : content s = ds ++ rest) (hd : ∀ c ∈ ds, c.isDigit)
    (hr : ¬ StartsDigit rest) :
    Agrees s (integer s) (if ds = [] then .miss else
      if Nat.ofDigitChars 10 ds 0 ≤ usizeMax then .ok (Nat.ofDigitChars 10 ds 0) rest else .panic) := by
  obtain ⟨hy, hcat⟩ := content_yields s
  obtain ⟨st, h1, h2⟩ := integerLoop_reads hy (Gapless.noGap s) [] 0
  rw [hcat, hc, takeWhile_digits hd hr] at h2
  simp only [List.nil_append, Nat.zero_add] at h2
  unfold integer
  rw [h2]
  simp only [Run.pure_bind', byteLen_eq_zero]
  by_cases hn : ds = []
  · rw [if_pos hn, if_pos hn]
    exact agrees_fails h1 _
  · rw [if_neg hn, if_neg hn, fromDecimal_eq ds 0 (Nat.zero_le _)]
    by_cases hm : Nat.ofDigitChars 10 ds 0 ≤ usizeMax
    · rw [if_pos hm, if_pos hm]
      exact agrees_advance h1 hc _
    · rw [if_neg hm, if_neg hm]
      exact ⟨_, rfl⟩

omit [RewindSequence S] [LawfulSequence S] L in
theorem atomLoop_found {st : Stream S} {es : List Str} {seg : Str} {c x : Char} {xs : List Char} (hc : c.utf8Size = 1)
    (h : Delivers st (es ++ [seg])) (he : ∀ e ∈ es, e.chars = []) (hs : seg.chars = x :: xs) :
    ∃ st', Reads st st' ∧ atomLoop (⟨[c]⟩ : Str) st =
      if 1 < x.utf8Size then Run.fault .charBoundary
      else if x = c then (do let r ← advance (release st') (byteLen [c]); return .ok () r)
      else pure (failAt ⟨()⟩ (release st')) := by
  have hlc : SequenceSegment.len (⟨[c]⟩ : Str) = 1 := by simp [SequenceSegment.len, hc]
  induction es generalizing st with
  | nil =>
    cases h with
    | seg f hn ht =>
      refine ⟨f 1, .step (hn 1) (.refl _), ?_⟩
      rw [atomLoop, hlc, hn]
      simp only [Run.pure_bind']
      have hx := utf8Size_pos' x
      have hle : SequenceSegment.len seg ≥ 1 := by simp only [SequenceSegment.len, hs, byteLen_cons]; omega
      rw [if_pos hle]
      by_cases hw : 1 < x.utf8Size
      · rw [if_pos hw]
        have : SequenceSegment.splitAt seg 1 = Run.fault .charBoundary := by
          show strSplitAt seg 1 = _
          unfold strSplitAt
          rw [hs]
          simp [cutBytes, show ¬ x.utf8Size ≤ 1 by omega]
        rw [this]
        rfl
      · rw [if_neg hw]
        have hx1 : x.utf8Size = 1 := by omega
        have : SequenceSegment.splitAt seg 1 = pure ((⟨[x]⟩ : Str), (⟨xs⟩ : Str)) := by
          show strSplitAt seg 1 = _
          unfold strSplitAt
          rw [hs]
          simp [cutBytes, hx1]
        rw [this]
        simp only [Run.pure_bind']
        have hb : ((⟨[x]⟩ : Str) == (⟨[c]⟩ : Str)) = decide (x = c) := by
          by_cases hxc : x = c
          · subst hxc; simp
          · simp [hxc]
        rw [hb]
        by_cases hxc : x = c
        · simp [hxc, hc, done]
        · simp [hxc]
  | cons e es ih =>
    cases h with
    | seg f hn ht =>
      obtain ⟨st', h1, h2⟩ := ih (ht 1) (fun e h => he e (by simp [h]))
      refine ⟨st', .step (hn 1) h1, ?_⟩
      have he0 : e = ⟨[]⟩ := by
        have := he e (by simp)
        cases e
        simpa using this
      subst he0
      rw [atomLoop, hlc, hn]
      simp only [Run.pure_bind']
      rw [if_neg (by simp [SequenceSegment.len])]
      have : SequenceSegment.splitAt (⟨[c]⟩ : Str) (SequenceSegment.len (⟨[]⟩ : Str)) = pure ((⟨[]⟩ : Str), (⟨[c]⟩ : Str)) := rfl
      rw [this]
      simp only [Run.pure_bind']
      exact h2

omit [RewindSequence S] [LawfulSequence S] L in
theorem atomLoop_missing {st : Stream S} {es : List Str} {c : Char} (hc : c.utf8Size = 1) (h : Yields st es)
    (he : ∀ e ∈ es, e.chars = []) :
    ∃ st', Reads st st' ∧ atomLoop (⟨[c]⟩ : Str) st = pure (failAt ⟨()⟩ (release st')) := by
  have hlc : SequenceSegment.len (⟨[c]⟩ : Str) = 1 := by simp [SequenceSegment.len, hc]
  induction es generalizing st with
  | nil =>
    cases h with
    | done f hn => exact ⟨f 1, .step (hn 1) (.refl _), by rw [atomLoop, hlc, hn]; simp⟩
  | cons e es ih =>
    cases h with
    | seg f hn ht =>
      obtain ⟨st', h1, h2⟩ := ih (ht 1) (fun e h => he e (by simp [h]))
      refine ⟨st', .step (hn 1) h1, ?_⟩
      have he0 : e = ⟨[]⟩ := by
        have := he e (by simp)
        cases e
        simpa using this
      subst he0
      rw [atomLoop, hlc, hn]
      simp only [Run.pure_bind']
      rw [if_neg (by simp [SequenceSegment.len])]
      have : SequenceSegment.splitAt (⟨[c]⟩ : Str) (SequenceSegment.len (⟨[]⟩ : Str)) = pure ((⟨[]⟩ : Str), (⟨[c]⟩ : Str)) := rfl
      rw [this]
      simp only [Run.pure_bind']
      exact h2

theorem atom_ok {s : S} {c : Char} (hc : c.utf8Size = 1) {ds : List Char} (h : content s = c :: ds) :
    Agrees s ((atom (⟨[c]⟩ : Str)).parse s) (.ok () ds) := by
  rcases content_cases s with ⟨h1, -, -⟩ | ⟨es, e, x, xs, post, h1, h2, h3, h4⟩
  · rw [h1] at h; simp at h
  · obtain ⟨st, hr, h5⟩ := atomLoop_found hc h2 h3 h4
    rw [h1] at h
    simp at h
    obtain ⟨rfl, rfl⟩ := h
    rw [if_neg (by omega), if_pos rfl] at h5
    show Agrees s (atomLoop _ _) _
    rw [h5]
    exact agrees_advance hr (pre := [x]) h1 ()

theorem atom_miss {s : S} {c : Char} (hc : c.utf8Size = 1) (hw : ¬ Wide (content s)) (h : (content s).head? ≠ some c) :
    Agrees s ((atom (⟨[c]⟩ : Str)).parse s) .miss := by
  show Agrees s (atomLoop _ _) _
  rcases content_cases s with ⟨h1, h2, h3⟩ | ⟨es, e, x, xs, post, h1, h2, h3, h4⟩
  · obtain ⟨st, hr, h5⟩ := atomLoop_missing hc h2 h3
    rw [h5]
    exact agrees_fails hr _
  · obtain ⟨st, hr, h5⟩ := atomLoop_found hc h2 h3 h4
    rw [h1] at h hw
    rw [if_neg (fun hh => hw ⟨x, rfl, hh⟩), if_neg (by simpa using h)] at h5
    rw [h5]
    exact agrees_fails hr _

theorem atom_panic {s : S} {c : Char} (hc : c.utf8Size = 1) (hw : Wide (content s)) :
    Agrees s ((atom (⟨[c]⟩ : Str)).parse s) .panic := by
  show Agrees s (atomLoop _ _) _
  obtain ⟨x, hx, hw⟩ := hw
  rcases content_cases s with ⟨h1, h2, h3⟩ | ⟨es, e, x', xs, post, h1, h2, h3, h4⟩
  · rw [h1] at hx; simp at hx
  · obtain ⟨st, hr, h5⟩ := atomLoop_found hc h2 h3 h4
    rw [h1] at hx
    simp at hx
    subst hx
    rw [if_pos hw] at h5
    rw [h5]
    exact ⟨_, rfl⟩

theorem run_spaces (sp : List Char) (hsp : ∀ c ∈ sp, c = ' ') {s : S} {ds : List Char} (hc : content s = sp ++ ds) :
    ∃ vs t, RunOf (theChar (S := S) ' ').parse s vs t ∧ vs.length = sp.length ∧ content t = ds ∧ L.Desc s t := by
  induction sp generalizing s with
  | nil => exact ⟨[], s, .nil s, rfl, hc, L.refl s⟩
  | cons c sp ih =>
    have := hsp c (by simp)
    subst this
    obtain ⟨s', h1, h2⟩ := (C10_the_char ' ' s).1 (sp ++ ds) hc
    obtain ⟨vs, t, h3, h4, h5, h6⟩ := ih (fun c h => hsp c (by simp [h])) h2
    exact ⟨() :: vs, t, .cons h1 h3, by simp [h4], h5, L.trans ((tidy_iff.mp (tidy_theChar ' ')).1.ok h1) h6⟩

theorem space_at {s : S} {sp ds : List Char} (hsp : ∀ c ∈ sp, c = ' ') (hd : ds.head? ≠ some ' ')
    (hc : content s = sp ++ ds) : Agrees s (space s) (if sp = [] then .miss else .ok () ds) := by
  obtain ⟨vs, t, h1, h2, h3, h4⟩ := run_spaces sp hsp hc
  obtain ⟨u, h5, -⟩ := (C10_the_char ' ' t).2 (by rw [h3]; exact hd)
  have h6 := repeatLoop_run [] h1
  have h7 := repeatLoop_end (tidy_iff.mp (tidy_theChar ' ')).1 ([] ++ vs) h5 rfl
  rw [h7] at h6
  show Agrees s (repeatLoop (theChar ' ').parse [] s >>= _) _
  rw [h6]
  simp only [Run.pure_bind', List.nil_append]
  by_cases hn : sp = []
  · have : vs = [] := List.eq_nil_of_length_eq_zero (by rw [h2, hn]; rfl)
    subst this
    rw [if_pos hn]
    exact ⟨_, ⟨t⟩, rfl, h4⟩
  · have : vs ≠ [] := by
      intro h; subst h; exact hn (List.eq_nil_of_length_eq_zero h2.symm)
    rw [if_neg hn]
    have h8 : vs.isEmpty = false := by cases vs <;> simp_all
    rw [h8]
    exact ⟨t, rfl, h3, h4⟩

end

/-! ## Operators -/

theorem spaces_split (cs : List Char) : ∃ sp ds, cs = sp ++ ds ∧ (∀ c ∈ sp, c = ' ') ∧ ds.head? ≠ some ' ' := by
  induction cs with
  | nil => exact ⟨[], [], rfl, by simp, by simp⟩
  | cons c cs ih =>
    by_cases hc : c = ' '
    · subst hc
      obtain ⟨sp, ds, h1, h2, h3⟩ := ih
      exact ⟨' ' :: sp, ds, by rw [h1]; rfl, by simpa using h2, h3⟩
    · exact ⟨[], c :: cs, rfl, by simp, by simpa using hc⟩

theorem spaces_unique {sp sp' ds ds' : List Char} (h : sp ++ ds = sp' ++ ds') (h1 : ∀ c ∈ sp, c = ' ')
    (h1' : ∀ c ∈ sp', c = ' ') (h2 : ds.head? ≠ some ' ') (h2' : ds'.head? ≠ some ' ') : sp = sp' ∧ ds = ds' := by
  induction sp generalizing sp' with
  | nil =>
    cases sp' with
    | nil => exact ⟨rfl, h⟩
    | cons c sp' =>
      have := h1' c (by simp)
      subst this
      simp at h; rw [h] at h2; simp at h2
  | cons c sp ih =>
    have := h1 c (by simp)
    subst this
    cases sp' with
    | nil => simp at h; rw [← h] at h2'; simp at h2'
    | cons c' sp' =>
      simp at h
      obtain ⟨rfl, h⟩ := h
      obtain ⟨rfl, rfl⟩ := ih h (fun c hc => h1 c (by simp [hc])) (fun c hc => h1' c (by simp [hc]))
      exact ⟨rfl, rfl⟩

theorem symbol_ne_space (o : Op) : symbol o ≠ ' ' := by cases o <;> decide

theorem symbol_inj {o o' : Op} (h : symbol o = symbol o') : o = o' := by
  cases o <;> cases o' <;> first | rfl | (revert h; decide)

theorem OpBefore.unique {o o' : Op} {cs ds ds' : List Char} (h : OpBefore o cs ds) (h' : OpBefore o' cs ds') :
    o = o' ∧ ds = ds' := by
  obtain ⟨sp, sp', ⟨h1, h2⟩, ⟨h3, h4⟩, h5, rfl⟩ := h
  obtain ⟨tp, tp', ⟨g1, g2⟩, ⟨g3, g4⟩, g5, he⟩ := h'
  obtain ⟨rfl, h6⟩ := spaces_unique he h2 g2 (by simpa using symbol_ne_space o) (by simpa using symbol_ne_space o')
  simp at h6
  obtain ⟨h7, h8⟩ := h6
  obtain ⟨-, h9⟩ := spaces_unique h8 h4 g4 h5 g5
  exact ⟨symbol_inj h7, h9⟩

theorem OpBefore.shorter {o : Op} {cs ds : List Char} (h : OpBefore o cs ds) : ds.length + 3 ≤ cs.length := by
  obtain ⟨sp, sp', ⟨h1, h2⟩, ⟨h3, h4⟩, h5, rfl⟩ := h
  have := List.length_pos_iff.mpr h1
  have := List.length_pos_iff.mpr h3
  simp; omega

section
variable {S : Type} [Sequence S Str] [RewindSequence S] [LawfulSequence S] [L : LawfulRewind S]

theorem Agrees.after {O E : Type} {s r : S} {x : Run (PResult S O E)} {out : Outcome O} (hd : L.Desc s r)
    (h : Agrees r x out) : Agrees s x out := by
  cases out with
  | ok v rest => obtain ⟨s', h1, h2, h3⟩ := h; exact ⟨s', h1, h2, L.trans hd h3⟩
  | miss => obtain ⟨e, u, h1, h2⟩ := h; exact ⟨e, u, h1, L.trans hd h2⟩
  | panic => exact h

theorem join_first_miss {O₀ O₁ E₀ E₁ : Type} {p : Parser S O₀ E₀} {q : Parser S O₁ E₁} {s : S}
    (h : Agrees s (p.parse s) .miss) : Agrees s ((p.join q).parse s) .miss := by
  obtain ⟨e, u, h1, h2⟩ := h
  refine ⟨.first e, u, ?_, h2⟩
  show (p.parse s >>= _) = _
  rw [h1]; rfl

theorem join_first_panic {O₀ O₁ E₀ E₁ : Type} {p : Parser S O₀ E₀} {q : Parser S O₁ E₁} {s : S}
    (h : Agrees s (p.parse s) .panic) : Agrees s ((p.join q).parse s) .panic := by
  obtain ⟨f, h1⟩ := h
  refine ⟨f, ?_⟩
  show (p.parse s >>= _) = _
  rw [h1]; rfl

/-- How the outcome of `join` follows from that of its second parser. -/
def Outcome.pair {α β : Type} (v : α) : Outcome β → Outcome (α × β)
  | .ok w rest => .ok (v, w) rest
  | .miss => .miss
  | .panic => .panic

theorem join_step {O₀ O₁ E₀ E₁ : Type} {p : Parser S O₀ E₀} {q : Parser S O₁ E₁} {s s' : S} {v : O₀}
    {out : Outcome O₁} (h1 : p.parse s = pure (.ok v s')) (h3 : L.Desc s s') (h4 : Agrees s' (q.parse s') out) :
    Agrees s ((p.join q).parse s) (out.pair v) := by
  have h5 : (p.join q).parse s = (do
      match ← q.parse s' with
      | .err e r => return .err (.last e) r
      | .ok item1 rest => return done (v, item1) rest) := by
    show (p.parse s >>= _) = _
    rw [h1]; rfl
  rw [h5]
  cases out with
  | ok w rest' =>
    obtain ⟨s'', g1, g2, g3⟩ := h4
    rw [g1]
    exact ⟨s'', rfl, g2, L.trans h3 g3⟩
  | miss =>
    obtain ⟨e, u, g1, g2⟩ := h4
    rw [g1]
    exact ⟨.last e, u, rfl, L.trans h3 g2⟩
  | panic =>
    obtain ⟨f, g1⟩ := h4
    rw [g1]
    exact ⟨f, rfl⟩

theorem join_then {O₀ O₁ E₀ E₁ : Type} {p : Parser S O₀ E₀} {q : Parser S O₁ E₁} {s : S} {v : O₀} {rest : List Char}
    {out : Outcome O₁} (h : Agrees s (p.parse s) (.ok v rest)) (hq : ∀ r, content r = rest → L.Desc s r → Agrees r (q.parse r) out) :
    Agrees s ((p.join q).parse s) (out.pair v) := by
  obtain ⟨s', h1, h2, h3⟩ := h
  exact join_step h1 h3 (hq s' h2 h3)

/-- A change of the value. -/
def Outcome.map {α β : Type} (f : α → β) : Outcome α → Outcome β
  | .ok w rest => .ok (f w) rest
  | .miss => .miss
  | .panic => .panic

theorem map_agrees {O T E : Type} {p : Parser S O E} (f : O → T) {s : S} {out : Outcome O} (h : Agrees s (p.parse s) out) :
    Agrees s ((p.map f).parse s) (out.map f) := by
  show Agrees s (p.parse s >>= _) _
  cases out with
  | ok v rest => obtain ⟨s', h1, h2⟩ := h; rw [h1]; exact ⟨s', rfl, h2⟩
  | miss => obtain ⟨e, u, h1, h2⟩ := h; rw [h1]; exact ⟨e, u, rfl, h2⟩
  | panic => obtain ⟨f, h1⟩ := h; rw [h1]; exact ⟨f, rfl⟩

theorem mapErr_agrees {O T E : Type} {p : Parser S O E} (f : E → T) {s : S} {out : Outcome O} (h : Agrees s (p.parse s) out) :
    Agrees s ((p.mapErr f).parse s) out := by
  show Agrees s (p.parse s >>= _) _
  cases out with
  | ok v rest => obtain ⟨s', h1, h2⟩ := h; rw [h1]; exact ⟨s', rfl, h2⟩
  | miss => obtain ⟨e, u, h1, h2⟩ := h; rw [h1]; exact ⟨f e, u, rfl, h2⟩
  | panic => obtain ⟨f, h1⟩ := h; rw [h1]; exact ⟨f, rfl⟩

theorem spacedOp_at (s : S) :
    (∃ o ds, OpBefore o (content s) ds ∧ Agrees s ((spacedOp (S := S)).parse s) (.ok o ds)) ∨
    ((∀ o ds, ¬ OpBefore o (content s) ds) ∧ Agrees s ((spacedOp (S := S)).parse s) .miss) := by
  obtain ⟨sp, ds, h1, h2, h3⟩ := spaces_split (content s)
  have hA := space_at h2 h3 h1
  by_cases hn : sp = []
  · right
    rw [if_pos hn] at hA
    refine ⟨?_, map_agrees _ (join_first_miss (join_first_miss hA))⟩
    rintro o ds' ⟨tp, tp', ⟨g1, g2⟩, -, -, g4⟩
    rw [h1] at g4
    obtain ⟨rfl, -⟩ := spaces_unique g4 h2 g2 h3 (by simpa using symbol_ne_space o)
    exact g1 hn
  · rw [if_neg hn] at hA
    by_cases ho : ∃ o, ds.head? = some (symbol o)
    · obtain ⟨o, ho⟩ := ho
      obtain ⟨ds', rfl⟩ : ∃ ds', ds = symbol o :: ds' := by
        cases ds with
        | nil => simp at ho
        | cons c ds => simp at ho; exact ⟨ds, by rw [ho]⟩
      obtain ⟨sp', ds'', k1, k2, k3⟩ := spaces_split ds'
      have hB : Agrees s (((Parser.ofFn space).join (Parser.ofFn op)).parse s) (.ok ((), o) ds') :=
        join_then (out := .ok o ds') hA fun r hr _ => op_found hr
      have hC := join_then (q := Parser.ofFn space) hB fun r hr _ => space_at (s := r) k2 k3 (hr.trans k1)
      have hD := map_agrees (fun ((_, op), _) => op : (Unit × Op) × Unit → Op) hC
      by_cases hn' : sp' = []
      · right
        rw [if_pos hn'] at hD
        refine ⟨?_, hD⟩
        rintro o' ds₁ ⟨tp, tp', ⟨g1, g2⟩, ⟨g3, g5⟩, g6, g4⟩
        rw [h1] at g4
        obtain ⟨rfl, g7⟩ := spaces_unique g4 h2 g2 h3 (by simpa using symbol_ne_space o')
        simp at g7
        obtain ⟨-, g7⟩ := g7
        rw [k1] at g7
        obtain ⟨rfl, -⟩ := spaces_unique g7 k2 g5 k3 g6
        exact g3 hn'
      · left
        rw [if_neg hn'] at hD
        exact ⟨o, ds'', ⟨sp, sp', ⟨hn, h2⟩, ⟨hn', k2⟩, k3, by rw [h1, k1]⟩, hD⟩
    · right
      have hB : Agrees s (((Parser.ofFn space).join (Parser.ofFn op)).parse s) .miss :=
        join_then (out := .miss) hA fun r hr _ => op_missing (by rw [hr]; exact fun o h => ho ⟨o, h⟩)
      refine ⟨?_, map_agrees _ (join_first_miss hB)⟩
      rintro o' ds₁ ⟨tp, tp', ⟨g1, g2⟩, ⟨g3, g5⟩, g6, g4⟩
      rw [h1] at g4
      obtain ⟨rfl, g7⟩ := spaces_unique g4 h2 g2 h3 (by simpa using symbol_ne_space o')
      exact ho ⟨o', by rw [g7]; rfl⟩

/-! ## Terms and expressions -/

theorem or_first {O₀ O₁ E₀ E₁ : Type} [ParseError E₀] [ParseError E₁] {p : Parser S O₀ E₀} {q : Parser S O₁ E₁} {s : S}
    {v : O₀} {rest : List Char} (h : Agrees s (p.parse s) (.ok v rest)) :
    Agrees s ((p.or q).parse s) (.ok (.first v) rest) := by
  obtain ⟨s', h1, h2⟩ := h
  refine ⟨s', ?_, h2⟩
  show (p.parse s >>= _) = _
  rw [h1]; rfl

theorem or_panic {O₀ O₁ E₀ E₁ : Type} [ParseError E₀] [ParseError E₁] {p : Parser S O₀ E₀} {q : Parser S O₁ E₁} {s : S}
    (h : Agrees s (p.parse s) .panic) : Agrees s ((p.or q).parse s) .panic := by
  obtain ⟨f, h1⟩ := h
  refine ⟨f, ?_⟩
  show (p.parse s >>= _) = _
  rw [h1]; rfl

theorem or_last {O₀ O₁ E₀ E₁ : Type} [ParseError E₀] [ParseError E₁] {p : Parser S O₀ E₀} {q : Parser S O₁ E₁} {s : S}
    {out : Outcome O₁} (hm : ∀ e : E₀, shouldTerminate e = false) (h : Agrees s (p.parse s) .miss)
    (hq : Agrees s (q.parse s) out) : Agrees s ((p.or q).parse s) (out.map .last) := by
  obtain ⟨e, u, h1, h2⟩ := h
  have hw : u.rewind (anchor s) = pure s := L.rewind h2
  have h3 : (p.or q).parse s = (do
      match ← q.parse s with
      | .ok v r => return done (.last v) r
      | .err err1 rest =>
        if ¬ shouldTerminate err1 then return fail (.both e err1) rest
        else return fail (.last err1) rest) := by
    show (p.parse s >>= _) = _
    rw [h1]
    simp only [Run.pure_bind', hm e, hw]
    rfl
  rw [h3]
  cases out with
  | ok w rest' => obtain ⟨s'', g1, g2⟩ := hq; rw [g1]; exact ⟨s'', rfl, g2⟩
  | miss =>
    obtain ⟨e', u', g1, g2⟩ := hq
    rw [g1]
    simp only [Run.pure_bind']
    split
    · exact ⟨_, _, rfl, g2⟩
    · exact ⟨_, _, rfl, g2⟩
  | panic => obtain ⟨f, g1⟩ := hq; rw [g1]; exact ⟨f, rfl⟩

/-- A success takes at least one char. -/
def Outcome.Short {α : Type} (cs : List Char) (out : Outcome α) : Prop := ∀ v rest, out = .ok v rest → rest.length < cs.length

theorem digits_split (cs : List Char) : ∃ ds rest, cs = ds ++ rest ∧ (∀ c ∈ ds, c.isDigit) ∧ ¬ StartsDigit rest := by
  induction cs with
  | nil => exact ⟨[], [], rfl, by simp, by rintro ⟨c, h, -⟩; simp at h⟩
  | cons c cs ih =>
    by_cases hc : c.isDigit
    · obtain ⟨ds, rest, h1, h2, h3⟩ := ih
      exact ⟨c :: ds, rest, by rw [h1]; rfl, by simpa [hc] using h2, h3⟩
    · exact ⟨[], c :: cs, rfl, by simp, by rintro ⟨x, h, h'⟩; simp at h; subst h; exact hc h'⟩

variable [Gapless S]

theorem term_at {expr : S → Run (PResult S Expr (Miss Unit))} (s : S)
    (h : ∀ r, (content r).length < (content s).length →
      ∃ out, ExprAt (content r) out ∧ Agrees r (expr r) out ∧ out.Short (content r)) :
    ∃ out, TermAt (content s) out ∧ Agrees s (termOf expr s) out ∧ out.Short (content s) := by
  obtain ⟨ds, rest, h1, h2, h3⟩ := digits_split (content s)
  have hi := integer_at h1 h2 h3
  by_cases hn : ds = []
  · rw [if_pos hn] at hi
    subst hn
    simp only [List.nil_append] at h1
    subst h1
    have key : ∀ {out : Outcome Expr}, Agrees s ((((atom (⟨['(']⟩ : Str)).join (Parser.ofFn expr)).join
        (atom (⟨[')']⟩ : Str))).map (fun ((_, e), _) => e : (Unit × Expr) × Unit → Expr) |>.parse s) out →
        Agrees s (termOf expr s) (out.map Term.parenthesized) := by
      intro out hq
      have := mapErr_agrees (fun _ => (⟨()⟩ : Miss Unit)) (map_agrees (fun e : Either Nat Expr => match e with
        | .first n => Term.integer n
        | .last e => Term.parenthesized e) (or_last (p := Parser.ofFn integer) (fun _ => rfl) hi hq))
      cases out <;> exact this
    by_cases hw : Wide (content s)
    · exact ⟨.panic, .wide hw, key (out := .panic) (map_agrees _ (join_first_panic (join_first_panic (atom_panic rfl hw)))),
        by intro _ _ h; cases h⟩
    · by_cases hp : (content s).head? = some '('
      · obtain ⟨cs, hcs⟩ : ∃ cs, content s = '(' :: cs := by
          cases hc : content s with
          | nil => rw [hc] at hp; simp at hp
          | cons c cs => rw [hc] at hp; simp at hp; exact ⟨cs, by rw [hp]⟩
        have ha := atom_ok (c := '(') rfl hcs
        obtain ⟨r, hr1, hr2, hr3⟩ := ha
        obtain ⟨out, ho1, ho2, ho3⟩ := h r (by rw [hr2, hcs]; simp)
        rw [hr2] at ho1 ho3
        have hj : Agrees s (((atom (⟨['(']⟩ : Str)).join (Parser.ofFn expr)).parse s) (out.pair ()) :=
          join_step hr1 hr3 ho2
        rw [hcs]
        cases out with
        | miss => exact ⟨.miss, .parensMiss ho1, key (out := .miss) (map_agrees _ (join_first_miss hj)), by intro _ _ h; cases h⟩
        | panic =>
          exact ⟨.panic, .parensPanic ho1, key (out := .panic) (map_agrees _ (join_first_panic hj)), by intro _ _ h; cases h⟩
        | ok e rest' =>
          by_cases hw' : Wide rest'
          · exact ⟨.panic, .unclosedWide ho1 hw', key (out := .panic) (map_agrees _ (join_then (out := .panic) hj
              fun r' hr' _ => atom_panic rfl (by rw [hr']; exact hw'))), by intro _ _ h; cases h⟩
          · by_cases hc : rest'.head? = some ')'
            · obtain ⟨rest'', rfl⟩ : ∃ cs, rest' = ')' :: cs := by
                cases rest' with
                | nil => simp at hc
                | cons c cs => simp at hc; exact ⟨cs, by rw [hc]⟩
              refine ⟨.ok (.parenthesized e) rest'', .parens ho1, key (out := .ok e rest'') (map_agrees _
                (join_then (out := .ok () rest'') hj fun r' hr' _ => atom_ok rfl hr')), ?_⟩
              intro v rest h
              injection h with h1 h2
              subst h2
              have := ho3 _ _ rfl
              simp at this ⊢
              omega
            · exact ⟨.miss, .unclosed ho1 hw' hc, key (out := .miss) (map_agrees _ (join_then (out := .miss) hj
                fun r' hr' _ => atom_miss rfl (by rw [hr']; exact hw') (by rw [hr']; exact hc))), by intro _ _ h; cases h⟩
      · exact ⟨.miss, .none hw h3 hp, key (out := .miss) (map_agrees _ (join_first_miss (join_first_miss (atom_miss rfl hw hp)))),
          by intro _ _ h; cases h⟩
  · rw [if_neg hn] at hi
    by_cases hm : Nat.ofDigitChars 10 ds 0 ≤ usizeMax
    · rw [if_pos hm] at hi
      refine ⟨.ok (.integer (Nat.ofDigitChars 10 ds 0)) rest, ?_, ?_, ?_⟩
      · rw [h1]; exact .int hn h2 h3 hm
      · exact mapErr_agrees _ (map_agrees (fun e : Either Nat Expr => match e with
          | .first n => Term.integer n
          | .last e => Term.parenthesized e) (or_first (p := Parser.ofFn integer) hi))
      · intro v rest' h
        injection h with _ h'
        subst h'
        have := List.length_pos_iff.mpr hn
        rw [h1]; simp; omega
    · rw [if_neg hm] at hi
      refine ⟨.panic, ?_, ?_, by intro _ _ h; cases h⟩
      · rw [h1]; exact .big hn h2 h3 (by omega)
      · exact mapErr_agrees _ (map_agrees (fun e : Either Nat Expr => match e with
          | .first n => Term.integer n
          | .last e => Term.parenthesized e) (or_panic (p := Parser.ofFn integer) hi))

theorem calc_belowMax : BelowMax Op := by
  intro o
  have h : (2 : Nat) < usizeMax := by decide
  cases o <;> refine ⟨?_, fun _ => ?_⟩ <;> simp only [precedence] <;> omega

omit [Gapless S] in
theorem tail_at (b : Build) {term : S → Run (PResult S Term (Miss Unit))} (s : S)
    (h : ∀ r, (content r).length < (content s).length →
      ∃ out, TermAt (content r) out ∧ Agrees r (term r) out ∧ out.Short (content r))
    (stack : List (BTree Op Term × Op)) (t : Term) (hg : (reduceAll node stack (leaf t)).Grouped Declared) :
    (∃ (ps : List (Op × Term)) (rest : List Char) (s' : S) (reason : _) (tree : BTree Op Term), TailAt (content s) (.ok ps rest) ∧ rest.length ≤ (content s).length ∧ content s' = rest ∧
      L.Desc s s' ∧ tree.first = (reduceAll node stack (leaf t)).first ∧
      tree.tail = (reduceAll node stack (leaf t)).tail ++ ps ∧ tree.Grouped Declared ∧
      binExprLoop b term (spacedOp (S := S)).parse Expr.binOp Expr.term 0 (evalStack Expr.binOp Expr.term stack)
        (Expr.term t) s = pure (.ok (tree.eval Expr.binOp Expr.term, .error reason) s')) ∨
    (∃ f, TailAt (content s) .panic ∧
      binExprLoop b term (spacedOp (S := S)).parse Expr.binOp Expr.term 0 (evalStack Expr.binOp Expr.term stack)
        (Expr.term t) s = Run.fault f) := by
  generalize hn : (content s).length = n
  induction n using Nat.strongRecOn generalizing s stack t with
  | _ n ih =>
    subst hn
    rcases spacedOp_at s with ⟨o, ds, h1, r, h2, h3, h4⟩ | ⟨h1, e, u, h2, h3⟩
    · have hlen := h1.shorter
      obtain ⟨out, k1, k2, k3⟩ := h r (by rw [h3]; omega)
      rw [h3] at k1 k3
      cases out with
      | miss =>
        left
        obtain ⟨e, u, k4, k5⟩ := k2
        have hw : u.rewind (anchor s) = pure s := L.rewind (L.trans h4 k5)
        refine ⟨[], content s, s, .last e, reduceAll node stack (leaf t), .dangling h1 k1, Nat.le_refl _, rfl, L.refl s, rfl,
          by simp, hg, ?_⟩
        rw [binExprLoop, h2]
        simp only [Run.pure_bind', ge_iff_le, Nat.zero_le, if_true, k4]
        have hx : shouldTerminate e = false := rfl
        rw [if_pos (by simp [hx]), hw]
        simp only [Run.pure_bind']
        rw [show Expr.term t = (leaf t : BTree Op Term).eval Expr.binOp Expr.term from rfl, reduceAll_eval]
        rfl
      | panic =>
        right
        obtain ⟨f, k4⟩ := k2
        refine ⟨f, .panic h1 k1, ?_⟩
        rw [binExprLoop, h2]
        simp only [Run.pure_bind', ge_iff_le, Nat.zero_le, if_true, k4]
        rfl
      | ok v rest =>
        obtain ⟨s', k4, k5, k6⟩ := k2
        have hlen' := k3 _ _ rfl
        have hstep := binExprLoop_cons b Expr.binOp Expr.term (nextPrecedence_threshold calc_belowMax) h2 k4 stack t
        have hg' := grouped_inv (T := Term) (b := b) (threshold (Op := Op)) (nextPrecedence_threshold calc_belowMax) o v
          stack t (by rw [decided_threshold]; exact hg)
        rw [reduceFor_pure o v stack (fun p _ => nextPrecedence_threshold calc_belowMax p.2), Run.ensures_pure,
          decided_threshold] at hg'
        have hord := reduceFor_order b o v stack (leaf t)
        rw [reduceFor_pure o v stack (fun p _ => nextPrecedence_threshold calc_belowMax p.2), Run.ensures_pure] at hord
        obtain ⟨-, -, ho1, ho2⟩ := hord
        simp only at ho1 ho2 hg'
        rcases ih (content s').length (by rw [k5]; omega) s' (fun r' hr' => h r' (by rw [k5] at hr'; omega))
          (reducePure threshold o stack (leaf t)) v hg' rfl with
          ⟨ps, rest', s'', reason, tree, m1, m2, m3, m4, m5, m6, m7, m8⟩ | ⟨f, m1, m2⟩
        · left
          refine ⟨(o, v) :: ps, rest', s'', reason, tree, .more h1 k1 (k5 ▸ m1), by rw [k5] at m2; omega, m3,
            L.trans h4 (L.trans k6 m4), m5.trans ho1, ?_, m7, hstep.trans m8⟩
          rw [m6, ho2]; simp
        · right
          exact ⟨f, .morePanic h1 k1 (k5 ▸ m1), hstep.trans m2⟩
    · left
      have hw : u.rewind (anchor s) = pure s := L.rewind h3
      refine ⟨[], content s, s, .first e, reduceAll node stack (leaf t), .stop h1, Nat.le_refl _, rfl, L.refl s, rfl,
        by simp, hg, ?_⟩
      rw [binExprLoop, h2]
      have hx : shouldTerminate e = false := by
        rcases e with (⟨⟨⟩⟩ | ⟨⟨⟩⟩) | ⟨⟨⟩⟩ <;> rfl
      simp only [Run.pure_bind', hx]
      rw [if_neg (by simp), hw]
      simp only [Run.pure_bind']
      rw [show Expr.term t = (leaf t : BTree Op Term).eval Expr.binOp Expr.term from rfl, reduceAll_eval]
      rfl

/-- On every text the calculator does what the outcome of the text says. -/
theorem calc_at (b : Build) (s : S) :
    (∃ out, TermAt (content s) out ∧ Agrees s (term b s) out ∧ out.Short (content s)) ∧
    (∃ out, ExprAt (content s) out ∧ Agrees s (expr b s) out ∧ out.Short (content s)) := by
  generalize hn : (content s).length = n
  induction n using Nat.strongRecOn generalizing s with
  | _ n ih =>
    subst hn
    have ht : ∃ out, TermAt (content s) out ∧ Agrees s (term b s) out ∧ out.Short (content s) := by
      have := term_at (expr := fun s => expr b s) s fun r hr => (ih _ hr r rfl).2
      rw [term]; exact this
    refine ⟨ht, ?_⟩
    obtain ⟨out, h1, h2, h3⟩ := ht
    have hE : ∀ {out : Outcome (Expr × Either (Either (Either (Miss Unit) (Miss Unit)) (Miss Unit)) (Miss Unit))},
        Agrees s ((binExpr b (Parser.ofFn (fun s => term b s)) (spacedOp (S := S)) (fun l o r => Expr.binOp l o r)
          Expr.term).parse s) out → Agrees s (expr b s) (out.map (fun (e, _) => e)) := by
      intro out hq
      rw [expr]
      exact mapErr_agrees (fun _ => (⟨()⟩ : Miss Unit)) (map_agrees _ hq)
    cases out with
    | miss =>
      obtain ⟨e, u, k1, k2⟩ := h2
      refine ⟨.miss, .miss h1, hE (out := .miss) ⟨.last e, u, ?_, k2⟩, by intro _ _ h; cases h⟩
      have hi : binExprImpl b (fun s => term b s) (spacedOp (S := S)).parse Expr.binOp Expr.term s 0 = pure (.err (.last e) u) := by
        rw [binExprImpl, k1]; rfl
      show (binExprImpl b (fun s => term b s) (spacedOp (S := S)).parse Expr.binOp Expr.term s 0 >>= _) = _
      rw [hi]; rfl
    | panic =>
      obtain ⟨f, k1⟩ := h2
      refine ⟨.panic, .panic h1, hE (out := .panic) ⟨f, ?_⟩, by intro _ _ h; cases h⟩
      have hi : binExprImpl b (fun s => term b s) (spacedOp (S := S)).parse Expr.binOp Expr.term s 0 = Run.fault f := by
        rw [binExprImpl, k1]; rfl
      show (binExprImpl b (fun s => term b s) (spacedOp (S := S)).parse Expr.binOp Expr.term s 0 >>= _) = _
      rw [hi]; rfl
    | ok t rest =>
      obtain ⟨r, k1, k2, k3⟩ := h2
      have hlt := h3 _ _ rfl
      have hi : binExprImpl b (fun s => term b s) (spacedOp (S := S)).parse Expr.binOp Expr.term s 0 =
          binExprLoop b (fun s => term b s) (spacedOp (S := S)).parse Expr.binOp Expr.term 0 [] (Expr.term t) r := by
        rw [binExprImpl, k1]; rfl
      rcases tail_at b r (term := fun s => term b s) (fun r' hr' => (ih (content r').length
        (by rw [k2] at hr'; omega) r' rfl).1) [] t trivial with
        ⟨ps, rest', s'', reason, tree, m1, m2, m3, m4, m5, m6, m7, m8⟩ | ⟨f, m1, m2⟩
      · have m8 : binExprLoop b (fun s => term b s) (spacedOp (S := S)).parse Expr.binOp Expr.term 0 [] (Expr.term t) r = _ := m8
        refine ⟨_, .ok h1 (k2 ▸ m1) m5 (by simpa [tail, reduceAll] using m6) m7,
          hE (out := .ok (_, reason) rest') ⟨s'', ?_, m3, L.trans k3 m4⟩, ?_⟩
        · show (binExprImpl b (fun s => term b s) (spacedOp (S := S)).parse Expr.binOp Expr.term s 0 >>= _) = _
          rw [hi, m8]; rfl
        · intro v rest h
          injection h with _ h'
          subst h'
          rw [k2] at m2
          omega
      · have m2 : binExprLoop b (fun s => term b s) (spacedOp (S := S)).parse Expr.binOp Expr.term 0 [] (Expr.term t) r = _ := m2
        refine ⟨.panic, .tailPanic h1 (k2 ▸ m1), hE (out := .panic) ⟨f, ?_⟩, by intro _ _ h; cases h⟩
        show (binExprImpl b (fun s => term b s) (spacedOp (S := S)).parse Expr.binOp Expr.term s 0 >>= _) = _
        rw [hi, m2]; rfl

end

end Parcom.Calc
