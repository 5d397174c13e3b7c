import Verif.Lemmas.Primitive
import Verif.Props.Sequence
/-!
# C09-C14: primitive parsers

`S` is any sequence satisfying the contract `LawfulSequence`, so any content in any segmentation.
-/
namespace Parcom
open Spec Sequence

variable {S : Type}

/-! ## C09 -/

/-- C09 (`any_char`). -/
theorem C09_any_char [Sequence S Str] [LawfulSequence S] (s : S) :
    (∀ (c : Char) (cs : List Char), content s = c :: cs →
      ∃ s', anyChar.parse s = pure (.ok c s') ∧ content s' = cs) ∧
    (content s = [] → ∃ u, anyChar.parse s = pure (.err ⟨()⟩ u) ∧ content u.val = content s) := by
  rcases content_cases s with ⟨h1, h2, h3⟩ | ⟨es, e, x, xs, post, h1, h2, h3, h4⟩
  · refine ⟨by simp [h1], fun _ => ?_⟩
    obtain ⟨st, hr, h⟩ := anyCharLoop_missing h2 h3
    exact ⟨⟨release st⟩, h, LawfulSequence.release s st hr⟩
  · refine ⟨?_, by simp [h1]⟩
    intro c cs hc
    rw [h1] at hc
    simp at hc
    obtain ⟨rfl, rfl⟩ := hc
    obtain ⟨st, hr, h⟩ := anyCharLoop_found h2 h3 h4
    have hrel : content (release st) = [x] ++ post := (LawfulSequence.release s st hr).trans h1
    obtain ⟨s', h5, h6⟩ := LawfulSequence.advance (release st) [x] post hrel
    have h7 : extent Str [x] = x.utf8Size := by simp [extent_str]
    rw [h7] at h5
    exact ⟨s', by show anyCharLoop _ = _; rw [h, h5]; rfl, h6⟩

/-- C09 (`any_item`). -/
theorem C09_any_item {α : Type} [Sequence S (List α)] [LawfulSequence S] (s : S) :
    (∀ (x : α) (xs : List α), content s = x :: xs →
      ∃ s', anyItem.parse s = pure (.ok x s') ∧ content s' = xs) ∧
    (content s = [] → ∃ u, anyItem.parse s = pure (.err ⟨()⟩ u) ∧ content u.val = content s) := by
  rcases content_cases s with ⟨h1, h2, h3⟩ | ⟨es, e, x, xs, post, h1, h2, h3, h4⟩
  · refine ⟨by simp [h1], fun _ => ?_⟩
    obtain ⟨st, hr, h⟩ := anyItemLoop_missing h2 h3
    exact ⟨⟨release st⟩, h, LawfulSequence.release s st hr⟩
  · refine ⟨?_, by simp [h1]⟩
    intro c cs hc
    rw [h1] at hc
    simp at hc
    obtain ⟨rfl, rfl⟩ := hc
    have h4' : e = x :: xs := h4
    subst h4'
    obtain ⟨st, hr, h⟩ := anyItemLoop_found h2 h3
    have hrel : content (release st) = [x] ++ post := (LawfulSequence.release s st hr).trans h1
    obtain ⟨s', h5, h6⟩ := LawfulSequence.advance (release st) [x] post hrel
    have h7 : extent (List α) [x] = 1 := by simp [extent_list]
    rw [h7] at h5
    exact ⟨s', by show anyItemLoop _ = _; rw [h, h5]; rfl, h6⟩

/-- C09 (`any_char` on streams that need not end): after empty segments, the first char of the next segment is taken and
the input advanced by its size. -/
theorem C09_any_char_unbounded [Sequence S Str] (s : S) (es : List Str) (c : Char) (cs : List Char)
    (h : Delivers (segments s) (es ++ [(⟨c :: cs⟩ : Str)])) (he : ∀ e ∈ es, e.chars = []) :
    ∃ st, Reads (segments s) st ∧
      anyChar.parse s = (do let s' ← advance (release st) (textBytes [c]); return .ok c s') := by
  obtain ⟨st, h1, h2⟩ := anyCharLoop_found h he rfl
  exact ⟨st, h1, by rw [show textBytes [c] = c.utf8Size from rfl]; exact h2⟩

/-- C09 (`any_item` on streams that need not end). -/
theorem C09_any_item_unbounded {α : Type} [Sequence S (List α)] (s : S) (es : List (List α)) (x : α) (xs : List α)
    (h : Delivers (segments s) (es ++ [x :: xs])) (he : ∀ e ∈ es, e = []) :
    ∃ st, Reads (segments s) st ∧
      anyItem.parse s = (do let s' ← advance (release st) 1; return .ok x s') := by
  obtain ⟨st, h1, h2⟩ := anyItemLoop_found h he
  exact ⟨st, h1, h2⟩

/-- Non-vacuity: a sequence whose first chunks are empty. -/
example : content (Chunked.mk 0 [[], [], ['あ', 'b'], ['c']] : Chunked Str Char) = ['あ', 'b', 'c'] := rfl
example : Delivers (segments (Chunked.mk 0 [[], ['あ', 'b'], ['c']] : Chunked Str Char))
    ([⟨[]⟩] ++ [(⟨['あ', 'b']⟩ : Str)]) :=
  Yields.delivers (l' := [⟨['c']⟩]) (LawfulSequence.yields (Item := Char)
    (Chunked.mk 0 [[], ['あ', 'b'], ['c']] : Chunked Str Char))

/-! ## C10 -/

/-- C10 (`the_char`). -/
theorem C10_the_char [Sequence S Str] [LawfulSequence S] (c : Char) (s : S) :
    (∀ cs : List Char, content s = c :: cs →
      ∃ s', (theChar c).parse s = pure (.ok () s') ∧ content s' = cs) ∧
    ((content s).head? ≠ some c →
      ∃ u, (theChar c).parse s = pure (.err ⟨()⟩ u) ∧ content u.val = content s) := by
  rcases content_cases s with ⟨h1, h2, h3⟩ | ⟨es, e, x, xs, post, h1, h2, h3, h4⟩
  · refine ⟨by simp [h1], fun _ => ?_⟩
    obtain ⟨st, hr, h⟩ := theCharLoop_missing c h2 h3
    exact ⟨⟨release st⟩, h, LawfulSequence.release s st hr⟩
  · obtain ⟨st, hr, h⟩ := theCharLoop_found (c := c) h2 h3 h4
    have hrel : content (release st) = content s := LawfulSequence.release s st hr
    refine ⟨?_, ?_⟩
    · intro cs hc
      rw [h1] at hc
      simp at hc
      obtain ⟨rfl, rfl⟩ := hc
      obtain ⟨s', h5, h6⟩ := LawfulSequence.advance (release st) [x] post (hrel.trans h1)
      have h7 : extent Str [x] = x.utf8Size := by simp [extent_str]
      rw [h7] at h5
      exact ⟨s', by show theCharLoop _ _ = _; rw [h, if_pos rfl, h5]; rfl, h6⟩
    · intro hc
      rw [h1] at hc
      simp at hc
      exact ⟨⟨release st⟩, by show theCharLoop _ _ = _; rw [h, if_neg hc]; rfl, hrel⟩

/-- C10 (`the_item`), with the element type's `==` of any kind. -/
theorem C10_the_item {α : Type} [BEq α] [Sequence S (List α)] [LawfulSequence S] (x : α) (s : S) :
    (∀ (y : α) (ys : List α), content s = y :: ys → (y == x) = true →
      ∃ s', (theItem x).parse s = pure (.ok () s') ∧ content s' = ys) ∧
    ((∀ y, (content s).head? = some y → (y == x) = false) →
      ∃ u, (theItem x).parse s = pure (.err ⟨()⟩ u) ∧ content u.val = content s) := by
  rcases content_cases s with ⟨h1, h2, h3⟩ | ⟨es, e, y, ys, post, h1, h2, h3, h4⟩
  · refine ⟨by simp [h1], fun _ => ?_⟩
    obtain ⟨st, hr, h⟩ := theItemLoop_missing x h2 h3
    exact ⟨⟨release st⟩, h, LawfulSequence.release s st hr⟩
  · have h4' : e = y :: ys := h4
    subst h4'
    obtain ⟨st, hr, h⟩ := theItemLoop_found (c := x) h2 h3
    have hrel : content (release st) = content s := LawfulSequence.release s st hr
    refine ⟨?_, ?_⟩
    · intro z zs hz heq
      rw [h1] at hz
      simp at hz
      obtain ⟨rfl, rfl⟩ := hz
      obtain ⟨s', h5, h6⟩ := LawfulSequence.advance (release st) [y] post (hrel.trans h1)
      have h7 : extent (List α) [y] = 1 := by simp [extent_list]
      rw [h7] at h5
      exact ⟨s', by show theItemLoop _ _ = _; rw [h, if_pos heq, h5]; rfl, h6⟩
    · intro hc
      have := hc y (by rw [h1]; rfl)
      exact ⟨⟨release st⟩, by show theItemLoop _ _ = _; rw [h, if_neg (by simp [this])]; rfl, hrel⟩

/-- Non-vacuity: a match and a mismatch behind empty segments. -/
example : content (Chunked.mk 0 [[], [1, 2]] : Chunked (List Nat) Nat) = 1 :: [2] ∧
    (content (Chunked.mk 0 [[], [1, 2]] : Chunked (List Nat) Nat)).head? ≠ some 2 := by decide

/-! ## C11 -/

/-- C11 (`&[T]`). -/
theorem C11_atom_slice {α : Type} [DecidableEq α] (p : List α) (s : SliceRef α) :
    (∀ post, s.items = p ++ post →
      (atom p).parse s = pure (.ok () { alloc := s.alloc, off := s.off + p.length, items := post })) ∧
    (¬ p <+: s.items → (atom p).parse s = pure (.err ⟨()⟩ ⟨s⟩)) := by
  constructor
  · intro post h
    have hlen : s.items.length ≥ p.length := by rw [h]; simp
    show atomLoop p _ = _
    rw [atomLoop]
    show (if s.items.length ≥ p.length then _ else _) = _
    rw [if_pos hlen]
    simp only [SequenceSegment.splitAt, SequenceSegment.len, listSplitAt]
    rw [if_pos hlen, Run.pure_bind']
    have : s.items.take p.length = p := by rw [h]; simp
    simp only [this, beq_self_eq_true, if_true]
    show (do let r ← s.advance p.length; return done () r) = _
    rw [sliceRef_advance_prefix s p post h]
    rfl
  · intro h
    show atomLoop p _ = _
    rw [atomLoop]
    show (if s.items.length ≥ p.length then _ else _) = _
    by_cases hlen : s.items.length ≥ p.length
    · rw [if_pos hlen]
      simp only [SequenceSegment.splitAt, SequenceSegment.len, listSplitAt]
      rw [if_pos hlen, Run.pure_bind']
      have : s.items.take p.length ≠ p := fun hh => h (List.prefix_iff_eq_take.mpr hh.symm)
      simp [this]
      rfl
    · rw [if_neg hlen]
      simp only [SequenceSegment.splitAt, SequenceSegment.len, listSplitAt]
      rw [if_pos (by omega), Run.pure_bind']
      simp only
      split
      · rfl
      · rw [atomLoop]; rfl

/-- `atom` on a text in one piece, with its loop unrolled. -/
theorem atom_str_unfold (p : Str) (s : StrRef) :
    (atom p).parse s = if byteLen s.text.chars ≥ byteLen p.chars then (do
      let (a, _) ← strSplitAt s.text (byteLen p.chars)
      if a == p then return done () (← s.advance (byteLen p.chars)) else return failAt ⟨()⟩ s)
      else (do
        let _ ← strSplitAt p (byteLen s.text.chars)
        return failAt ⟨()⟩ s) := by
  show atomLoop p _ = _
  rw [atomLoop]
  show (if byteLen s.text.chars ≥ byteLen p.chars then _ else _) = _
  by_cases hlen : byteLen s.text.chars ≥ byteLen p.chars
  · rw [if_pos hlen, if_pos hlen]; rfl
  · rw [if_neg hlen, if_neg hlen]
    simp only [SequenceSegment.splitAt, SequenceSegment.len]
    cases strSplitAt p (byteLen s.text.chars) using Run.casesRun with
    | ret a =>
      obtain ⟨a, r⟩ := a
      simp only [Run.ret_bind]
      split
      · rfl
      · rw [atomLoop]; rfl
    | fault f => rfl
    | diverge => rfl

/-- Where `atom` looks for the end of the pattern in the text, or of the text in the pattern, there is a char
boundary. -/
def Aligned (p t : List Char) : Prop :=
  (∃ q, q <+: t ∧ textBytes q = textBytes p) ∨ (∃ q, q <+: p ∧ textBytes q = textBytes t)

theorem atom_str (p : Str) (s : StrRef) :
    (∀ post, s.text.chars = p.chars ++ post →
      (atom p).parse s = pure (.ok () { alloc := s.alloc, off := s.off + textBytes p.chars, text := ⟨post⟩ })) ∧
    (¬ p.chars <+: s.text.chars → Aligned p.chars s.text.chars → (atom p).parse s = pure (.err ⟨()⟩ ⟨s⟩)) ∧
    (¬ Aligned p.chars s.text.chars → (atom p).parse s = Run.fault .charBoundary) := by
  have hunf := atom_str_unfold p s
  refine ⟨?_, ?_, ?_⟩
  · intro post h
    rw [hunf, if_pos (by rw [h]; simp)]
    have h1 : strSplitAt s.text (byteLen p.chars) = pure (p, ⟨post⟩) := by
      simp only [strSplitAt]; rw [h, cutBytes_append]
    rw [h1, Run.pure_bind']
    simp only [beq_self_eq_true, if_true]
    rw [strRef_advance_prefix s p.chars post h, textBytes_eq]
    rfl
  · intro h ha
    rw [hunf]
    by_cases hlen : byteLen s.text.chars ≥ byteLen p.chars
    · rw [if_pos hlen]
      have hq : ∃ q post, s.text.chars = q ++ post ∧ byteLen q = byteLen p.chars := by
        rcases ha with ⟨q, ⟨post, hq⟩, hb⟩ | ⟨q, ⟨post, hq⟩, hb⟩
        · exact ⟨q, post, hq.symm, by rw [← textBytes_eq, ← textBytes_eq, hb]⟩
        · refine ⟨s.text.chars, [], by simp, ?_⟩
          rw [textBytes_eq, textBytes_eq] at hb
          have := congrArg byteLen hq
          simp at this; omega
      obtain ⟨q, post, h1, h2⟩ := hq
      have h3 : strSplitAt s.text (byteLen p.chars) = pure (⟨q⟩, ⟨post⟩) := by
        simp only [strSplitAt]; rw [h1, ← h2, cutBytes_append]
      rw [h3, Run.pure_bind']
      have h4 : ((⟨q⟩ : Str) == p) = false := by
        rw [beq_eq_false_iff_ne]
        rintro rfl
        exact h ⟨post, h1.symm⟩
      simp [h4, failAt]
    · rw [if_neg hlen]
      have hq : ∃ q post, p.chars = q ++ post ∧ byteLen q = byteLen s.text.chars := by
        rcases ha with ⟨q, ⟨post, hq⟩, hb⟩ | ⟨q, ⟨post, hq⟩, hb⟩
        · exfalso
          rw [textBytes_eq, textBytes_eq] at hb
          have := congrArg byteLen hq
          simp at this; omega
        · exact ⟨q, post, hq.symm, by rw [← textBytes_eq, ← textBytes_eq, hb]⟩
      obtain ⟨q, post, h1, h2⟩ := hq
      have h3 : strSplitAt p (byteLen s.text.chars) = pure (⟨q⟩, ⟨post⟩) := by
        simp only [strSplitAt]; rw [h1, ← h2, cutBytes_append]
      rw [h3, Run.pure_bind']
      rfl
  · intro ha
    rw [hunf]
    by_cases hlen : byteLen s.text.chars ≥ byteLen p.chars
    · rw [if_pos hlen]
      have : cutBytes s.text.chars (byteLen p.chars) = none :=
        cutBytes_eq_none.mpr fun a b h1 h2 => ha (.inl ⟨a, ⟨b, h1.symm⟩, by rw [textBytes_eq, textBytes_eq, h2]⟩)
      simp [strSplitAt, this]
    · rw [if_neg hlen]
      have : cutBytes p.chars (byteLen s.text.chars) = none :=
        cutBytes_eq_none.mpr fun a b h1 h2 => ha (.inr ⟨a, ⟨b, h1.symm⟩, by rw [textBytes_eq, textBytes_eq, h2]⟩)
      simp only [strSplitAt, this]
      rfl

/-- C11 (`&str`, where it does not panic). -/
theorem C11_atom_str (p : Str) (s : StrRef) :
    (∀ post, s.text.chars = p.chars ++ post →
      (atom p).parse s = pure (.ok () { alloc := s.alloc, off := s.off + textBytes p.chars, text := ⟨post⟩ })) ∧
    (¬ p.chars <+: s.text.chars → (∃ r, (atom p).parse s = pure r) →
      (atom p).parse s = pure (.err ⟨()⟩ ⟨s⟩)) := by
  obtain ⟨h1, h2, h3⟩ := atom_str p s
  refine ⟨h1, fun hp ⟨r, hr⟩ => h2 hp ?_⟩
  by_cases ha : Aligned p.chars s.text.chars
  · exact ha
  · rw [h3 ha] at hr; simp at hr

/-- Non-vacuity: a pattern that is a prefix, one that is not, and one of equal size that does not panic. -/
example : ['a', 'あ'] <+: ['a', 'あ', 'b'] ∧ ¬ ['b'] <+: ['a', 'あ'] := by decide
example : ∃ r, (atom (⟨['b']⟩ : Str)).parse ({ alloc := 1, off := 0, text := ⟨['a', 'あ']⟩ } : StrRef) = pure r :=
  ⟨_, (atom_str ⟨['b']⟩ { alloc := 1, off := 0, text := ⟨['a', 'あ']⟩ }).2.1 (by decide) (.inl ⟨['a'], by decide⟩)⟩

/-! ## C13 -/

/-- C13 in full: `atom` on a text never panics. -/
def C13Statement : Prop := ∀ (p : Str) (s : StrRef), ∃ r, (atom p).parse s = pure r

/-- What happens exactly: `atom` returns iff the text and the pattern are aligned. -/
theorem C13_exact (p : Str) (s : StrRef) :
    (∃ r, (atom p).parse s = pure r) ↔ Aligned p.chars s.text.chars := by
  obtain ⟨h1, h2, h3⟩ := atom_str p s
  constructor
  · rintro ⟨r, hr⟩
    by_cases ha : Aligned p.chars s.text.chars
    · exact ha
    · rw [h3 ha] at hr; simp at hr
  · intro ha
    by_cases hp : p.chars <+: s.text.chars
    · obtain ⟨post, hp⟩ := hp
      exact ⟨_, h1 post hp.symm⟩
    · exact ⟨_, h2 hp ha⟩

/-- C13 is false: `atom("a")` panics on the text `あ`. -/
theorem C13_false : ¬ C13Statement := by
  intro h
  have := (C13_exact _ _).mp (h ⟨['a']⟩ { alloc := 1, off := 0, text := ⟨['あ']⟩ })
  rcases this with ⟨q, hq, hb⟩ | ⟨q, hq, hb⟩
  · have h2 : q = [] ∨ q = ['あ'] := by
      rcases q with _ | ⟨c, _ | ⟨d, q⟩⟩
      · simp
      · right; simpa using hq
      · simp at hq
    rcases h2 with rfl | rfl <;> exact absurd hb (by decide)
  · have h2 : q = [] ∨ q = ['a'] := by
      rcases q with _ | ⟨c, _ | ⟨d, q⟩⟩
      · simp
      · right; simpa using hq
      · simp at hq
    rcases h2 with rfl | rfl <;> exact absurd hb (by decide)

/-- C13, the part that holds: no panic when all chars take one byte (ASCII), or whenever the pattern is a prefix.
Missing: texts and patterns with multi-byte chars in general, for which the claim is false (`C13_false`); the exact
condition is `C13_exact`. -/
theorem C13_partial (p : Str) (s : StrRef)
    (h : (∀ c ∈ p.chars ++ s.text.chars, c.utf8Size = 1) ∨ p.chars <+: s.text.chars) :
    ∃ r, (atom p).parse s = pure r := by
  rw [C13_exact]
  rcases h with h | h
  · have hlen : ∀ cs : List Char, (∀ c ∈ cs, c.utf8Size = 1) → textBytes cs = cs.length := by
      intro cs hcs
      induction cs with
      | nil => rfl
      | cons c cs ih =>
        have h1 := hcs c (by simp)
        have h2 := ih fun c hc => hcs c (by simp [hc])
        simp [textBytes] at h2 ⊢
        omega
    have h1 : ∀ c ∈ p.chars, c.utf8Size = 1 := fun c hc => h c (by simp [hc])
    have h2 : ∀ c ∈ s.text.chars, c.utf8Size = 1 := fun c hc => h c (by simp [hc])
    by_cases hl : p.chars.length ≤ s.text.chars.length
    · left
      refine ⟨s.text.chars.take p.chars.length, List.take_prefix _ _, ?_⟩
      rw [hlen _ h1, hlen _ fun c hc => h2 c (List.mem_of_mem_take hc)]
      simp; omega
    · right
      refine ⟨p.chars.take s.text.chars.length, List.take_prefix _ _, ?_⟩
      rw [hlen _ h2, hlen _ fun c hc => h1 c (List.mem_of_mem_take hc)]
      simp; omega
  · exact .inl ⟨p.chars, h, rfl⟩

example : ∀ c ∈ ['l', 'e', 't'] ++ ['l', 'i', 'n', 'e'], c.utf8Size = 1 := by decide

/-! ## C12 -/

/-- C12 in full: on every lawful sequence of items, `atom` does what it does on the contiguous slice. -/
def C12Statement : Prop :=
  ∀ (α S : Type) [DecidableEq α] [Sequence S (List α)] [LawfulSequence S] (p : List α) (s : S) (flat : SliceRef α),
    flat.items = content s →
    (∀ flat', (atom p).parse flat = pure (.ok () flat') →
      ∃ s', (atom p).parse s = pure (.ok () s') ∧ content s' = flat'.items) ∧
    (∀ e u, (atom p).parse flat = pure (.err e u) →
      ∃ u', (atom p).parse s = pure (.err e u') ∧ content u'.val = u.val.items)

/-- How much of a pattern of length `n` lies in the segment in which it ends, given the segment lengths. -/
def lastPiece : List Nat → Nat → Nat
  | [], n => n
  | l :: ls, n => if n ≤ l then n else lastPiece ls (n - l)

theorem atomLoop_slices {α : Type} [DecidableEq α] [Sequence S (List α)] {st : Stream S} {l : List (List α)}
    (p : List α) (h : Yields st l) :
    ∃ st', Reads st st' ∧ atomLoop p st =
      if p <+: l.flatten ∧ l ≠ [] then
        (do let s ← advance (release st') (lastPiece (l.map List.length) p.length); return done () s)
      else pure (failAt ⟨()⟩ (release st')) := by
  induction l generalizing st p with
  | nil =>
    cases h with
    | done f hn => exact ⟨f p.length, .step (hn _) (.refl _), by rw [atomLoop, hn]; simp; rfl⟩
  | cons seg l ih =>
    cases h with
    | seg f hn ht =>
      by_cases hlen : p.length ≤ seg.length
      · refine ⟨f p.length, .step (hn _) (.refl _), ?_⟩
        rw [atomLoop, hn, Run.pure_bind']
        show (if seg.length ≥ p.length then _ else _) = _
        rw [if_pos hlen]
        simp only [SequenceSegment.splitAt, SequenceSegment.len, listSplitAt]
        rw [if_pos hlen, Run.pure_bind']
        simp only [List.flatten_cons, List.map_cons, lastPiece, if_pos hlen]
        have hiff : p <+: seg ++ l.flatten ↔ seg.take p.length = p := by
          rw [List.prefix_iff_eq_take, List.take_append_of_le_length hlen]
          exact eq_comm
        by_cases hp : seg.take p.length = p
        · rw [if_pos (by simp [hp]), if_pos ⟨hiff.mpr hp, by simp⟩]
        · rw [if_neg (by simp [hp]), if_neg (fun hh => hp (hiff.mp hh.1))]
      · obtain ⟨st', h1, h2⟩ := ih (p.drop seg.length) (ht p.length)
        have hiff : p <+: seg ++ l.flatten ↔ p.take seg.length = seg ∧ p.drop seg.length <+: l.flatten := by
          constructor
          · rintro ⟨q, hq⟩
            have h3 : p = seg ++ p.drop seg.length := by
              rcases List.append_eq_append_iff.mp hq with ⟨m, hm1, hm2⟩ | ⟨m, hm1, hm2⟩
              · have := congrArg List.length hm1
                simp at this; omega
              · rw [hm1]; simp
            constructor
            · rw [h3]; simp
            · rw [h3, List.append_assoc, List.append_cancel_left_eq] at hq
              exact ⟨q, hq⟩
          · rintro ⟨h3, q, hq⟩
            refine ⟨q, ?_⟩
            rw [← hq, ← List.append_assoc]
            congr 1
            have h4 := List.take_append_drop seg.length p
            rw [h3] at h4
            exact h4.symm
        by_cases hs : p.take seg.length = seg
        · refine ⟨st', .step (hn _) h1, ?_⟩
          rw [atomLoop, hn, Run.pure_bind']
          show (if seg.length ≥ p.length then _ else _) = _
          rw [if_neg hlen]
          simp only [SequenceSegment.splitAt, SequenceSegment.len, listSplitAt]
          rw [if_pos (by omega), Run.pure_bind']
          simp only [hs, bne_self_eq_false, Bool.false_eq_true, if_false]
          rw [h2]
          simp only [List.flatten_cons, List.map_cons, lastPiece, if_neg hlen, List.length_drop]
          by_cases hpre : p.drop seg.length <+: l.flatten
          · have hne : l ≠ [] := by
              rintro rfl
              simp at hpre
              omega
            rw [if_pos ⟨hpre, hne⟩, if_pos ⟨hiff.mpr ⟨hs, hpre⟩, by simp⟩]
          · rw [if_neg (fun hh => hpre hh.1), if_neg (fun hh => hpre (hiff.mp hh.1).2)]
        · refine ⟨f p.length, .step (hn _) (.refl _), ?_⟩
          rw [atomLoop, hn, Run.pure_bind']
          show (if seg.length ≥ p.length then _ else _) = _
          rw [if_neg hlen]
          simp only [SequenceSegment.splitAt, SequenceSegment.len, listSplitAt]
          rw [if_pos (by omega), Run.pure_bind']
          have hb : (seg != p.take seg.length) = true := by
            rw [bne_iff_ne]; exact fun hh => hs hh.symm
          simp only [hb, if_true]
          simp only [List.flatten_cons]
          rw [if_neg (fun hh => hs (hiff.mp hh.1).1)]

/-- What `atom` does on segmented items, exactly: the verdict is right (except that an empty pattern fails on a stream
with no segment at all), but only the part of the pattern in the last segment is consumed. -/
theorem C12_exact {α : Type} [DecidableEq α] [Sequence S (List α)] [L : LawfulSequence S] (p : List α) (s : S) :
    (p <+: content s → (p ≠ [] ∨ segs s ≠ []) →
      ∃ s', (atom p).parse s = pure (.ok () s') ∧
        content s' = (content s).drop (lastPiece ((segs s).map List.length) p.length)) ∧
    (¬ (p <+: content s ∧ (p ≠ [] ∨ segs s ≠ [])) →
      ∃ u, (atom p).parse s = pure (.err ⟨()⟩ u) ∧ content u.val = content s) := by
  have hconc : (segs s).flatten = content s := by
    have := L.concat s
    rw [List.flatMap_def, show ItemSegment.items = (id : List α → List α) from rfl, List.map_id] at this
    exact this
  obtain ⟨st, h1, h2⟩ := atomLoop_slices p (L.yields s)
  have hrel : content (release st) = content s := L.release s st h1
  have hseg : L.segs s = segs s := rfl
  rw [hseg, hconc] at h2
  have hcond : (p <+: content s ∧ segs s ≠ []) ↔ (p <+: content s ∧ (p ≠ [] ∨ segs s ≠ [])) := by
    constructor
    · rintro ⟨h3, h4⟩; exact ⟨h3, .inr h4⟩
    · rintro ⟨h3, h4⟩
      refine ⟨h3, ?_⟩
      rcases h4 with h4 | h4
      · intro h5
        rw [← hconc, h5] at h3
        simp at h3; exact h4 h3
      · exact h4
  constructor
  · intro hp hne
    rw [if_pos (hcond.mpr ⟨hp, hne⟩)] at h2
    have hle : lastPiece ((segs s).map List.length) p.length ≤ p.length := by
      generalize (segs s).map List.length = ls
      generalize p.length = n
      induction ls generalizing n with
      | nil => simp [lastPiece]
      | cons l ls ih => 
        simp only [lastPiece]
        split
        · exact Nat.le_refl _
        · exact Nat.le_trans (ih _) (by omega)
    have hle2 : p.length ≤ (content s).length := hp.length_le
    generalize hk : lastPiece ((segs s).map List.length) p.length = k at *
    obtain ⟨s', h5, h6⟩ := L.advance (release st) ((content s).take k) ((content s).drop k)
      (by rw [List.take_append_drop]; exact hrel)
    have h7 : extent (List α) ((content s).take k) = k := by
      rw [extent_list]; simp; omega
    rw [h7] at h5
    exact ⟨s', by show atomLoop _ _ = _; rw [h2, h5]; rfl, h6⟩
  · intro hp
    rw [if_neg (fun hh => hp (hcond.mp hh))] at h2
    exact ⟨⟨release st⟩, h2, hrel⟩

/-- C12 is false: `atom([1, 2])` on the segments `[1], [2, 3]` succeeds and leaves `[2, 3]`. -/
theorem C12_false : ¬ C12Statement := by
  intro h
  obtain ⟨h1, _⟩ := h Nat (Chunked (List Nat) Nat) [1, 2] (Chunked.mk 0 [[1], [2, 3]])
    { alloc := 1, off := 0, items := [1, 2, 3] } rfl
  obtain ⟨s', h2, h3⟩ := h1 _ ((C11_atom_slice [1, 2] { alloc := 1, off := 0, items := [1, 2, 3] }).1 [3] rfl)
  obtain ⟨s'', h4, h5⟩ := (C12_exact [1, 2] (Chunked.mk 0 [[1], [2, 3]] : Chunked (List Nat) Nat)).1
    ⟨[3], rfl⟩ (.inl (by simp))
  rw [h2] at h4
  simp at h4
  subst h4
  rw [h3] at h5
  exact absurd h5 (by decide)

/-- A second way in which it is false: an empty pattern fails where no segment is delivered. -/
theorem C12_empty_pattern : ∃ u, (atom ([] : List Nat)).parse (Chunked.mk 0 [] : Chunked (List Nat) Nat) =
    pure (.err ⟨()⟩ u) := by
  obtain ⟨u, h, _⟩ := (C12_exact ([] : List Nat) (Chunked.mk 0 [] : Chunked (List Nat) Nat)).2
    (by rintro ⟨_, h | h⟩ <;> exact h rfl)
  exact ⟨u, h⟩

/-- C12, the part that holds: for a non-empty pattern the verdict does not depend on the segmentation; and when the
pattern fits in the first non-empty segment, neither does the rest.
Missing: the rest when the pattern spans several segments, and the empty pattern on a stream of no segments
(`C12_false`, `C12_empty_pattern`). Segmented texts are in `Props/Atom.lean`. -/
theorem C12_partial {α : Type} [DecidableEq α] [Sequence S (List α)] [LawfulSequence S] (p : List α) (s : S)
    (hp : p ≠ []) (flat : SliceRef α) (hflat : flat.items = content s) :
    ((∃ s', (atom p).parse s = pure (.ok () s')) ↔ ∃ flat', (atom p).parse flat = pure (.ok () flat')) ∧
    (∀ e u, (atom p).parse flat = pure (.err e u) →
      ∃ u', (atom p).parse s = pure (.err e u') ∧ content u'.val = u.val.items) ∧
    (∀ es e l, segs s = es ++ e :: l → (∀ x ∈ es, x = []) → p.length ≤ e.length →
      ∀ flat', (atom p).parse flat = pure (.ok () flat') →
        ∃ s', (atom p).parse s = pure (.ok () s') ∧ content s' = flat'.items) := by
  obtain ⟨h1, h2⟩ := C12_exact p s
  obtain ⟨g1, g2⟩ := C11_atom_slice p flat
  rw [hflat] at g1 g2
  refine ⟨⟨?_, ?_⟩, ?_, ?_⟩
  · rintro ⟨s', hs⟩
    by_cases hpre : p <+: content s
    · obtain ⟨q, hq⟩ := hpre
      exact ⟨_, g1 q hq.symm⟩
    · obtain ⟨u, hu, _⟩ := h2 (fun hh => hpre hh.1)
      rw [hu] at hs; simp at hs
  · rintro ⟨f, hf⟩
    by_cases hpre : p <+: content s
    · obtain ⟨s', hs, _⟩ := h1 hpre (.inl hp)
      exact ⟨s', hs⟩
    · rw [g2 hpre] at hf; simp at hf
  · intro e u he
    by_cases hpre : p <+: content s
    · obtain ⟨q, hq⟩ := hpre
      rw [g1 q hq.symm] at he; simp at he
    · rw [g2 hpre] at he
      simp at he
      obtain ⟨u', h3, h4⟩ := h2 (fun hh => hpre hh.1)
      exact ⟨u', h3, by rw [h4, ← he, hflat]⟩
  · intro es e l hsegs hes hlen flat' hf
    by_cases hpre : p <+: content s
    · obtain ⟨s', h3, h4⟩ := h1 hpre (.inl hp)
      refine ⟨s', h3, ?_⟩
      have hk : lastPiece ((segs s).map List.length) p.length = p.length := by
        rw [hsegs]
        have hpos : 0 < p.length := List.length_pos_iff.mpr hp
        clear hsegs
        induction es with
        | nil => simp [lastPiece, hlen]
        | cons x es ih =>
          have hx := hes x (by simp)
          subst hx
          simp only [List.cons_append, List.map_cons, List.length_nil, lastPiece]
          rw [if_neg (by omega)]
          exact ih fun y hy => hes y (by simp [hy])
      rw [h4, hk]
      obtain ⟨q, hq⟩ := hpre
      rw [g1 q hq.symm] at hf
      simp at hf
      rw [← hf, ← hq]
      simp
    · rw [g2 hpre] at hf; simp at hf

/-- Non-vacuity: empty segments before the one with the pattern. -/
example : segs (Chunked.mk 0 [[], [1, 2, 3], [4]] : Chunked (List Nat) Nat) = [[]] ++ [1, 2, 3] :: [[4]] ∧
    ([1, 2] : List Nat).length ≤ [1, 2, 3].length := ⟨rfl, by decide⟩

/-! ## C14 -/

section
variable {Seg Item : Type} [Sequence S Seg] [ItemSegment Seg Item] [RewindSequence S] [L : LawfulSequence S]
  [R : LawfulRewind S]

theorem failsInPlace_result {O E : Type} {s : S} {r : Run (PResult S O E)} (h : FailsInPlace (segments s) r)
    {e : E} {u : UnknownLocation S} (hr : r = pure (.err e u)) :
    content u.val = content s ∧ u.rewind (anchor s) = pure s := by
  obtain ⟨st, h1, h2⟩ := h e u hr
  refine ⟨?_, ?_⟩
  · rw [h2]; exact L.release s st h1
  · rw [UnknownLocation.rewind, h2]
    exact R.rewind (R.release s st h1)

end

/-- C14 (`any_char`). -/
theorem C14_any_char [Sequence S Str] [RewindSequence S] [LawfulSequence S] [LawfulRewind S] (s : S)
    {e : Miss Unit} {u : UnknownLocation S} (h : anyChar.parse s = pure (.err e u)) :
    content u.val = content s ∧ u.rewind (anchor s) = pure s :=
  failsInPlace_result (anyCharLoop_fails _) h

/-- C14 (`any_item`). -/
theorem C14_any_item {α : Type} [Sequence S (List α)] [RewindSequence S] [LawfulSequence S] [LawfulRewind S] (s : S)
    {e : Miss Unit} {u : UnknownLocation S} (h : anyItem.parse s = pure (.err e u)) :
    content u.val = content s ∧ u.rewind (anchor s) = pure s :=
  failsInPlace_result (anyItemLoop_fails _) h

/-- C14 (`the_char`). -/
theorem C14_the_char [Sequence S Str] [RewindSequence S] [LawfulSequence S] [LawfulRewind S] (c : Char) (s : S)
    {e : Miss Unit} {u : UnknownLocation S} (h : (theChar c).parse s = pure (.err e u)) :
    content u.val = content s ∧ u.rewind (anchor s) = pure s :=
  failsInPlace_result (theCharLoop_fails c _) h

/-- C14 (`the_item`). -/
theorem C14_the_item {α : Type} [BEq α] [Sequence S (List α)] [RewindSequence S] [LawfulSequence S] [LawfulRewind S]
    (x : α) (s : S) {e : Miss Unit} {u : UnknownLocation S} (h : (theItem x).parse s = pure (.err e u)) :
    content u.val = content s ∧ u.rewind (anchor s) = pure s :=
  failsInPlace_result (theItemLoop_fails x _) h

/-- C14 (`atom`), for every segment type and segmentation, in the middle of the pattern included. -/
theorem C14_atom {Seg Item : Type} [SequenceSegment Seg] [BEq Seg] [Sequence S Seg] [ItemSegment Seg Item]
    [RewindSequence S] [LawfulSequence S] [LawfulRewind S] (p : Seg) (s : S)
    {e : Miss Unit} {u : UnknownLocation S} (h : (atom p).parse s = pure (.err e u)) :
    content u.val = content s ∧ u.rewind (anchor s) = pure s :=
  failsInPlace_result (atomLoop_fails p _) h

/-- Non-vacuity: an `atom` that fails in its second segment. -/
example : ∃ e u, (atom [1, 9]).parse (Chunked.mk 0 [[1], [2, 3]] : Chunked (List Nat) Nat) = pure (.err e u) := by
  obtain ⟨u, h, _⟩ := (C12_exact [1, 9] (Chunked.mk 0 [[1], [2, 3]] : Chunked (List Nat) Nat)).2
    (fun hh => absurd hh.1 (by decide))
  exact ⟨_, u, h⟩

end Parcom
