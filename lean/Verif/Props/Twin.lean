import Verif.Lemmas.Twin
import Verif.Lemmas.Descends
import Verif.Props.Primitive
/-!
# C71, C72: a grammar does the same however its input is cut, and whether or not it is measured
-/
namespace Parcom
open Spec

variable {S S' O E : Type}

/-! ## C71 -/

section
variable {Seg Item : Type} [ItemSegment Seg Item] [Sequence S Seg] [Sequence S' Seg] [RewindSequence S]
  [RewindSequence S'] [LawfulSequence S] [LawfulSequence S'] [R : LawfulRewind S] [R' : LawfulRewind S']

/-- Two sequences of any two kinds show the same thing when they have the same content. -/
def sameContent (S S' : Type) {Seg Item : Type} [ItemSegment Seg Item] [Sequence S Seg] [Sequence S' Seg]
    [RewindSequence S] [RewindSequence S'] [LawfulSequence S] [LawfulSequence S'] [R : LawfulRewind S]
    [R' : LawfulRewind S'] : TwinLaw S S' where
  Similar s s' := content s = content s'
  From s s' r r' := R.Desc s r ∧ R'.Desc s' r'
  refl {s s'} _ := ⟨R.refl s, R'.refl s'⟩
  trans h1 h2 := ⟨R.trans h1.1 h2.1, R'.trans h1.2 h2.2⟩
  rewind {s _ s' _} h _ h2 := .inl ⟨s, s', R.rewind h2.1, R'.rewind h2.2, h, R.refl s, R'.refl s'⟩

/-- Tidy parsers that give the same results with the same contents left do the same. -/
theorem sameParse_of {f : S → Run (PResult S O E)} {f' : S' → Run (PResult S' O E)} (hf : Tidy f) (hf' : Tidy f')
    (h : ∀ s s', content s = content s' → ∃ res res', f s = pure res ∧ f' s' = pure res' ∧
      SameResult (fun r r' => content r = content r') res res') : SameParse (sameContent S S') f f' := by
  intro s s' hs
  obtain ⟨res, res', h1, h2, h3⟩ := h s s' hs
  have d1 := (hf s).1 _ h1
  have d2 := (hf' s').1 _ h2
  refine .inl ⟨res, res', h1, h2, ?_⟩
  cases h3 with
  | ok h3 => exact .ok ⟨h3, d1, d2⟩
  | err h3 => exact .err ⟨h3, d1, d2⟩

end

section
variable [Sequence S Str] [Sequence S' Str]

/-- The char parsers, on both kinds of sequences. -/
inductive CharTwin (S S' : Type) [Sequence S Str] [Sequence S' Str] :
    {O E : Type} → Parser S O E → Parser S' O E → Prop where
  | any : CharTwin S S' anyChar anyChar
  | the (c : Char) : CharTwin S S' (theChar c) (theChar c)

variable [RewindSequence S] [RewindSequence S'] [LawfulSequence S] [LawfulSequence S'] [LawfulRewind S]
  [LawfulRewind S']

theorem charTwin_same {p : Parser S O E} {p' : Parser S' O E} (h : CharTwin S S' p p') :
    SameParse (sameContent S S') p.parse p'.parse := by
  cases h with
  | any =>
    refine sameParse_of tidy_anyChar tidy_anyChar fun s s' hs => ?_
    cases hc : content s with
    | nil =>
      obtain ⟨u, h1, h2⟩ := (C09_any_char s).2 hc
      obtain ⟨u', h3, h4⟩ := (C09_any_char s').2 (hs ▸ hc)
      exact ⟨_, _, h1, h3, .err (by rw [h2, h4, hs])⟩
    | cons c cs =>
      obtain ⟨r, h1, h2⟩ := (C09_any_char s).1 c cs hc
      obtain ⟨r', h3, h4⟩ := (C09_any_char s').1 c cs (hs ▸ hc)
      exact ⟨_, _, h1, h3, .ok (by rw [h2, h4])⟩
  | the c =>
    refine sameParse_of (tidy_theChar c) (tidy_theChar c) fun s s' hs => ?_
    by_cases hh : (content s).head? = some c
    · obtain ⟨cs, hc⟩ := List.head?_eq_some_iff.mp hh
      obtain ⟨r, h1, h2⟩ := (C10_the_char c s).1 cs hc
      obtain ⟨r', h3, h4⟩ := (C10_the_char c s').1 cs (hs ▸ hc)
      exact ⟨_, _, h1, h3, .ok (by rw [h2, h4])⟩
    · obtain ⟨u, h1, h2⟩ := (C10_the_char c s).2 hh
      obtain ⟨u', h3, h4⟩ := (C10_the_char c s').2 (hs ▸ hh)
      exact ⟨_, _, h1, h3, .err (by rw [h2, h4, hs])⟩

/-- C71 (texts): every grammar built from the char parsers with any nesting of the combinators gives the same output or
error, and leaves the same text, on any two sequences with the same content, whatever their kinds and segmentations; it
panics or hangs on one iff it does on the other. -/
theorem C71_segmentation_independent_text {p : Parser S O E} {p' : Parser S' O E} (h : BuiltTwin (CharTwin S S') p p')
    (s : S) (s' : S') (hs : content s = content s') :
    Run.Rel (p.parse s) (p'.parse s') (SameResult fun r r' => content r = content r') :=
  (built_same (L := sameContent S S') charTwin_same h s s' hs).mono fun _ _ h => h.mono fun _ _ h => h.1

end

section
variable {α : Type} [BEq α] [Sequence S (List α)] [Sequence S' (List α)]

/-- The item parsers, on both kinds of sequences. -/
inductive ItemTwin (α S S' : Type) [BEq α] [Sequence S (List α)] [Sequence S' (List α)] :
    {O E : Type} → Parser S O E → Parser S' O E → Prop where
  | any : ItemTwin α S S' anyItem anyItem
  | the (x : α) : ItemTwin α S S' (theItem x) (theItem x)

variable [RewindSequence S] [RewindSequence S'] [LawfulSequence S] [LawfulSequence S'] [LawfulRewind S]
  [LawfulRewind S']

theorem itemTwin_same {p : Parser S O E} {p' : Parser S' O E} (h : ItemTwin α S S' p p') :
    SameParse (sameContent S S') p.parse p'.parse := by
  cases h with
  | any =>
    refine sameParse_of tidy_anyItem tidy_anyItem fun s s' hs => ?_
    cases hc : content s with
    | nil =>
      obtain ⟨u, h1, h2⟩ := (C09_any_item s).2 hc
      obtain ⟨u', h3, h4⟩ := (C09_any_item s').2 (hs ▸ hc)
      exact ⟨_, _, h1, h3, .err (by rw [h2, h4, hs])⟩
    | cons c cs =>
      obtain ⟨r, h1, h2⟩ := (C09_any_item s).1 c cs hc
      obtain ⟨r', h3, h4⟩ := (C09_any_item s').1 c cs (hs ▸ hc)
      exact ⟨_, _, h1, h3, .ok (by rw [h2, h4])⟩
  | the x =>
    refine sameParse_of (tidy_theItem x) (tidy_theItem x) fun s s' hs => ?_
    by_cases hh : ∃ y ys, content s = y :: ys ∧ (y == x) = true
    · obtain ⟨y, ys, hc, hy⟩ := hh
      obtain ⟨r, h1, h2⟩ := (C10_the_item x s).1 y ys hc hy
      obtain ⟨r', h3, h4⟩ := (C10_the_item x s').1 y ys (hs ▸ hc) hy
      exact ⟨_, _, h1, h3, .ok (by rw [h2, h4])⟩
    · have hh' : ∀ y, (content s).head? = some y → (y == x) = false := by
        intro y hy
        obtain ⟨ys, hc⟩ := List.head?_eq_some_iff.mp hy
        cases hb : (y == x) with
        | false => rfl
        | true => exact absurd ⟨y, ys, hc, hb⟩ hh
      obtain ⟨u, h1, h2⟩ := (C10_the_item x s).2 hh'
      obtain ⟨u', h3, h4⟩ := (C10_the_item x s').2 (hs ▸ hh')
      exact ⟨_, _, h1, h3, .err (by rw [h2, h4, hs])⟩

/-- C71 (items). -/
theorem C71_segmentation_independent_items {p : Parser S O E} {p' : Parser S' O E}
    (h : BuiltTwin (ItemTwin α S S') p p') (s : S) (s' : S') (hs : content s = content s') :
    Run.Rel (p.parse s) (p'.parse s') (SameResult fun r r' => content r = content r') :=
  (built_same (L := sameContent S S') itemTwin_same h s s' hs).mono fun _ _ h => h.mono fun _ _ h => h.1

end

/-- Non-vacuity of C71: the same grammar on a text in one piece and on one cut in three. -/
example : BuiltTwin (CharTwin StrRef (Chunked Str Char)) (((theChar 'a').or anyChar).repeat.join (theChar 'b').optional)
      (((theChar 'a').or anyChar).repeat.join (theChar 'b').optional) ∧
    content ({ alloc := 1, off := 0, text := ⟨['a', 'あ', 'b']⟩ } : StrRef) =
      content (Chunked.mk 0 [['a'], [], ['あ', 'b']] : Chunked Str Char) :=
  ⟨.join (.repeat (.or (.leaf (.the _)) (.leaf .any))) (.optional (.leaf (.the _))), rfl⟩

/-! ## C72 -/

/-- A measured text and the text it measures. -/
def measuring (μ : Type) {M : Type} [Meter μ Str M]
    (hadd : ∀ (m : μ) (a b : List Char),
      Meter.advance (Meter.advance m (⟨a⟩ : Str)) (⟨b⟩ : Str) = Meter.advance m (⟨a ++ b⟩ : Str))
    (hnil : ∀ m : μ, Meter.advance m (⟨[]⟩ : Str) = m) : TwinLaw (MeasuredStr μ) StrRef where
  Similar s s' := s.base = s'
  From s _ r _ := ∃ pre, s.base.text.chars = pre ++ r.base.text.chars ∧ r.base.alloc = s.base.alloc ∧
    r.base.off = s.base.off + textBytes pre ∧ r.meter = Meter.advance s.meter (⟨pre⟩ : Str)
  refl {s _} _ := ⟨[], rfl, rfl, rfl, (hnil s.meter).symm⟩
  trans := by
    rintro a b c _ _ _ ⟨p, h1, h2, h3, h4⟩ ⟨q, g1, g2, g3, g4⟩
    refine ⟨p ++ q, by rw [h1, g1, List.append_assoc], by rw [g2, h2], ?_, by rw [g4, h4, hadd]⟩
    rw [g3, h3]; simp [textBytes]; omega
  rewind := by
    rintro s r _ _ rfl rfl ⟨p, h1, h2, h3, h4⟩
    refine .inl ⟨s, s.base, rfl, ?_, rfl, [], rfl, rfl, rfl, (hnil s.meter).symm⟩
    exact StrRef.desc_rewind ⟨p, h1, h2, by rw [← textBytes_eq]; exact h3⟩

/-- The char parsers and `atom`, on a measured text and on the text itself. -/
inductive TextTwin (μ : Type) {M : Type} [Meter μ Str M] :
    {O E : Type} → Parser (MeasuredStr μ) O E → Parser StrRef O E → Prop where
  | any : TextTwin μ anyChar anyChar
  | the (c : Char) : TextTwin μ (theChar c) (theChar c)
  | atom (pattern : Str) : TextTwin μ (atom pattern) (atom pattern)

section
variable {μ M : Type} [Meter μ Str M]
  {hadd : ∀ (m : μ) (a b : List Char),
    Meter.advance (Meter.advance m (⟨a⟩ : Str)) (⟨b⟩ : Str) = Meter.advance m (⟨a ++ b⟩ : Str)}
  {hnil : ∀ m : μ, Meter.advance m (⟨[]⟩ : Str) = m}

/-- Advancing a measured text and the text itself over the same prefix. -/
theorem measuring_advance (m : MeasuredStr μ) (pre post : List Char) (h : m.base.text.chars = pre ++ post) :
    ∃ r r', m.advance (byteLen pre) = pure r ∧ m.base.advance (byteLen pre) = pure r' ∧
      (measuring μ hadd hnil).Similar r r' ∧ (measuring μ hadd hnil).From m m.base r r' :=
  ⟨_, _, measuredStr_advance_prefix m pre post h, strRef_advance_prefix m.base pre post h, rfl,
    pre, h, rfl, by rw [textBytes_eq], rfl⟩

theorem textTwin_same {p : Parser (MeasuredStr μ) O E} {p' : Parser StrRef O E} (h : TextTwin μ p p') :
    SameParse (measuring μ hadd hnil) p.parse p'.parse := by
  intro m _ hm
  obtain rfl : m.base = _ := hm
  have hrefl : (measuring μ hadd hnil).Similar m m.base ∧ (measuring μ hadd hnil).From m m.base m m.base :=
    ⟨rfl, (measuring μ hadd hnil).refl rfl⟩
  cases h with
  | any =>
    cases hc : m.base.text.chars with
    | nil =>
      refine .inl ⟨.err ⟨()⟩ ⟨m⟩, .err ⟨()⟩ ⟨m.base⟩, ?_, ?_, .err hrefl⟩
      · show anyCharLoop _ = _
        rw [anyCharLoop]
        simp only [Sequence.next, Sequence.segments, Nodes.next, Run.pure_bind', hc, List.head?]
        rw [anyCharLoop]; rfl
      · show anyCharLoop _ = _
        rw [anyCharLoop]
        simp only [Sequence.next, Sequence.segments, Nodes.next, Run.pure_bind', hc, List.head?]
        rw [anyCharLoop]; rfl
    | cons c cs =>
      obtain ⟨r, r', h1, h2, h3⟩ := measuring_advance (hadd := hadd) (hnil := hnil) m [c] cs hc
      refine .inl ⟨.ok c r, .ok c r', ?_, ?_, .ok h3⟩
      · show anyCharLoop _ = _
        rw [anyCharLoop]
        simp only [Sequence.next, Sequence.segments, Nodes.next, Run.pure_bind', hc, List.head?]
        exact congrArg (fun x : Run (MeasuredStr μ) => x >>= fun r => pure (done c r)) h1
      · show anyCharLoop _ = _
        rw [anyCharLoop]
        simp only [Sequence.next, Sequence.segments, Nodes.next, Run.pure_bind', hc, List.head?]
        exact congrArg (fun x : Run StrRef => x >>= fun r => pure (done c r)) h2
  | the c =>
    cases hc : m.base.text.chars with
    | nil =>
      refine .inl ⟨.err ⟨()⟩ ⟨m⟩, .err ⟨()⟩ ⟨m.base⟩, ?_, ?_, .err hrefl⟩
      · show theCharLoop _ _ = _
        rw [theCharLoop]
        simp only [Sequence.next, Sequence.segments, Nodes.next, Run.pure_bind', hc, List.head?]
        rw [theCharLoop]; rfl
      · show theCharLoop _ _ = _
        rw [theCharLoop]
        simp only [Sequence.next, Sequence.segments, Nodes.next, Run.pure_bind', hc, List.head?]
        rw [theCharLoop]; rfl
    | cons d cs =>
      by_cases hd : d = c
      · subst hd
        obtain ⟨r, r', h1, h2, h3⟩ := measuring_advance (hadd := hadd) (hnil := hnil) m [d] cs hc
        refine .inl ⟨.ok () r, .ok () r', ?_, ?_, .ok h3⟩
        · show theCharLoop _ _ = _
          rw [theCharLoop]
          simp only [Sequence.next, Sequence.segments, Nodes.next, Run.pure_bind', hc, List.head?, if_true]
          exact congrArg (fun x : Run (MeasuredStr μ) => x >>= fun r => pure (done () r)) h1
        · show theCharLoop _ _ = _
          rw [theCharLoop]
          simp only [Sequence.next, Sequence.segments, Nodes.next, Run.pure_bind', hc, List.head?, if_true]
          exact congrArg (fun x : Run StrRef => x >>= fun r => pure (done () r)) h2
      · refine .inl ⟨.err ⟨()⟩ ⟨m⟩, .err ⟨()⟩ ⟨m.base⟩, ?_, ?_, .err hrefl⟩
        · show theCharLoop _ _ = _
          rw [theCharLoop]
          simp only [Sequence.next, Sequence.segments, Nodes.next, Run.pure_bind', hc, List.head?, if_neg hd]; rfl
        · show theCharLoop _ _ = _
          rw [theCharLoop]
          simp only [Sequence.next, Sequence.segments, Nodes.next, Run.pure_bind', hc, List.head?, if_neg hd]; rfl
  | atom q =>
    have hunf : (atom q).parse m = if byteLen m.base.text.chars ≥ byteLen q.chars then (do
        let (a, _) ← strSplitAt m.base.text (byteLen q.chars)
        if a == q then return done () (← m.advance (byteLen q.chars)) else return failAt ⟨()⟩ m)
        else (do
          let _ ← strSplitAt q (byteLen m.base.text.chars)
          return failAt ⟨()⟩ m) := by
      show atomLoop q _ = _
      rw [atomLoop]
      show (if byteLen m.base.text.chars ≥ byteLen q.chars then _ else _) = _
      by_cases hlen : byteLen m.base.text.chars ≥ byteLen q.chars
      · rw [if_pos hlen, if_pos hlen]; rfl
      · rw [if_neg hlen, if_neg hlen]
        simp only [SequenceSegment.splitAt, SequenceSegment.len]
        cases strSplitAt q (byteLen m.base.text.chars) using Run.casesRun with
        | ret a =>
          obtain ⟨a, r⟩ := a
          simp only [Run.ret_bind]
          split
          · rfl
          · rw [atomLoop]; rfl
        | fault f => rfl
        | diverge => rfl
    rw [hunf, atom_str_unfold q m.base]
    by_cases hlen : byteLen m.base.text.chars ≥ byteLen q.chars
    · rw [if_pos hlen, if_pos hlen]
      cases hcut : cutBytes m.base.text.chars (byteLen q.chars) with
      | none =>
        have hs : strSplitAt m.base.text (byteLen q.chars) = Run.fault .charBoundary := by simp [strSplitAt, hcut]
        rw [hs]
        exact .inr (.inl ⟨_, rfl, rfl⟩)
      | some ab =>
        obtain ⟨a, post⟩ := ab
        have hs : strSplitAt m.base.text (byteLen q.chars) = pure (⟨a⟩, ⟨post⟩) := by simp [strSplitAt, hcut]
        rw [hs]
        simp only [Run.pure_bind']
        by_cases hq : ((⟨a⟩ : Str) == q) = true
        · rw [if_pos hq, if_pos hq]
          obtain rfl : (⟨a⟩ : Str) = q := by simpa using hq
          obtain ⟨r, r', h1, h2, h3⟩ := measuring_advance (hadd := hadd) (hnil := hnil) m a post (cutBytes_some hcut).1
          rw [h1, h2]
          exact .inl ⟨_, _, rfl, rfl, .ok h3⟩
        · rw [if_neg hq, if_neg hq]
          exact .inl ⟨_, _, rfl, rfl, .err hrefl⟩
    · rw [if_neg hlen, if_neg hlen]
      cases strSplitAt q (byteLen m.base.text.chars) using Run.casesRun with
      | ret a => exact .inl ⟨_, _, rfl, rfl, .err hrefl⟩
      | fault f => exact .inr (.inl ⟨_, rfl, rfl⟩)
      | diverge => exact .inr (.inr ⟨rfl, rfl⟩)

/-- C72: on a measured text every grammar gives exactly the results it gives on the text itself (panics and hangs
included), at the same places, with the meter fed with exactly the text between start and place, also after backtracking. -/
theorem C72_measuring_is_transparent
    (hadd : ∀ (m : μ) (a b : List Char),
      Meter.advance (Meter.advance m (⟨a⟩ : Str)) (⟨b⟩ : Str) = Meter.advance m (⟨a ++ b⟩ : Str))
    (hnil : ∀ m : μ, Meter.advance m (⟨[]⟩ : Str) = m)
    {p : Parser (MeasuredStr μ) O E} {p' : Parser StrRef O E} (h : BuiltTwin (TextTwin μ) p p') (m : MeasuredStr μ) :
    Run.Rel (p.parse m) (p'.parse m.base) (SameResult fun r r' => r.base = r' ∧
      ∃ consumed, m.base.text.chars = consumed ++ r.base.text.chars ∧
        r.metrics = Meter.metrics Str (Meter.advance m.meter (⟨consumed⟩ : Str))) :=
  (built_same (L := measuring μ hadd hnil) textTwin_same h m m.base rfl).mono fun _ _ h => h.mono fun _ _ h => by
    obtain ⟨h1, pre, h2, _, _, h5⟩ := h
    exact ⟨h1, pre, h2, by rw [MeasuredStr.metrics, h5]⟩

end

/-- Non-vacuity of C72: the line/column meter is such a meter, and this is such a grammar. -/
example (ε : Type) [EndOfLine ε] :
    (∀ (m : LineColumnMeter ε) (a b : List Char),
      Meter.advance (Meter.advance m (⟨a⟩ : Str)) (⟨b⟩ : Str) = Meter.advance m (⟨a ++ b⟩ : Str)) ∧
    (∀ m : LineColumnMeter ε, Meter.advance m (⟨[]⟩ : Str) = m) ∧
    BuiltTwin (TextTwin (LineColumnMeter ε)) ((atom ⟨['l', 'e', 't']⟩).or (theChar 'a').repeat)
      ((atom ⟨['l', 'e', 't']⟩).or (theChar 'a').repeat) :=
  ⟨C05_lineColumn_additive ε, fun _ => rfl, .or (.leaf (.atom _)) (.repeat (.leaf (.the 'a')))⟩

end Parcom
