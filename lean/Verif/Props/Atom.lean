import Verif.Props.Primitive
/-!
# C12, C13: `atom` on segmented texts

On a text cut into segments `atom` adds to what it does on segmented items (`C12_exact`) that it may cut a segment or the
pattern inside a character.
-/
namespace Parcom
open Spec Sequence

variable {S : Type}

/-- Wherever `atom` looks for the end of the pattern in a segment, or of a segment in the pattern, there is a char
boundary; a segment that is not the beginning of the pattern is the last one it looks at. -/
def AlignedIn : List (List Char) → List Char → Prop
  | [], _ => True
  | seg :: segs, p =>
    if textBytes p ≤ textBytes seg then ∃ q, q <+: seg ∧ textBytes q = textBytes p
    else ∃ q, q <+: p ∧ textBytes q = textBytes seg ∧ (q = seg → AlignedIn segs (p.drop q.length))

theorem prefix_seg {p seg rest : List Char} (hl : textBytes p ≤ textBytes seg) :
    p <+: seg ++ rest ↔ p <+: seg := by
  constructor
  · rintro ⟨q, hq⟩
    obtain ⟨m, h1, _⟩ := append_split_of_byteLen_le hq (by simpa [textBytes_eq] using hl)
    exact ⟨m, h1.symm⟩
  · rintro ⟨q, rfl⟩; exact ⟨q ++ rest, by simp⟩

theorem prefix_segs {p seg rest : List Char} (hl : ¬ textBytes p ≤ textBytes seg) :
    p <+: seg ++ rest ↔ ∃ m, p = seg ++ m ∧ m <+: rest := by
  constructor
  · rintro ⟨q, hq⟩
    rw [textBytes_eq, textBytes_eq] at hl
    obtain ⟨m, h1, h2⟩ := append_split_of_byteLen_le hq.symm (by omega)
    exact ⟨m, h1, q, h2.symm⟩
  · rintro ⟨m, rfl, q, rfl⟩; exact ⟨q, by simp⟩

/-- A pattern the text begins with is aligned. -/
theorem alignedIn_of_prefix {p : List Char} {l : List (List Char)} (h : p <+: l.flatten) : AlignedIn l p := by
  induction l generalizing p with
  | nil => trivial
  | cons seg l ih =>
    rw [List.flatten_cons] at h
    rw [AlignedIn]
    by_cases hl : textBytes p ≤ textBytes seg
    · rw [if_pos hl]
      exact ⟨p, (prefix_seg hl).mp h, rfl⟩
    · rw [if_neg hl]
      obtain ⟨m, rfl, hm⟩ := (prefix_segs hl).mp h
      exact ⟨seg, ⟨m, rfl⟩, rfl, fun _ => by simpa using ih hm⟩

theorem atomLoop_texts [Sequence S Str] {st : Stream S} {l : List Str} (p : Str) (h : Yields st l) :
    ∃ st', Reads st st' ∧
      (p.chars <+: (l.map Str.chars).flatten → l ≠ [] → atomLoop p st =
        (do let s ← advance (release st') (lastPiece (l.map fun s => textBytes s.chars) (textBytes p.chars)); return done () s)) ∧
      (¬ (p.chars <+: (l.map Str.chars).flatten ∧ l ≠ []) → AlignedIn (l.map Str.chars) p.chars →
        atomLoop p st = pure (failAt ⟨()⟩ (release st'))) ∧
      (¬ AlignedIn (l.map Str.chars) p.chars → atomLoop p st = Run.fault .charBoundary) := by
  induction l generalizing st p with
  | nil =>
    cases h with
    | done f hn =>
      refine ⟨f (byteLen p.chars), .step (hn _) (.refl _), fun _ h => absurd rfl h, fun _ _ => ?_, fun h => absurd trivial h⟩
      rw [atomLoop, hn]; rfl
  | cons seg l ih =>
    cases h with
    | seg f hn ht =>
      have hbytes : ∀ cs, textBytes cs = byteLen cs := textBytes_eq
      have hunf : atomLoop p st = if byteLen seg.chars ≥ byteLen p.chars then (do
          let (a, _) ← strSplitAt seg (byteLen p.chars)
          if a == p then return done () (← advance (release (f (byteLen p.chars))) (byteLen p.chars))
          else return failAt ⟨()⟩ (release (f (byteLen p.chars))))
        else (do
          let (a, r) ← strSplitAt p (byteLen seg.chars)
          if seg != a then return failAt ⟨()⟩ (release (f (byteLen p.chars))) else atomLoop r (f (byteLen p.chars))) := by
        rw [atomLoop]
        show (next st (byteLen p.chars) >>= _) = _
        rw [hn]
        rfl
      by_cases hlen : textBytes p.chars ≤ textBytes seg.chars
      · refine ⟨f (byteLen p.chars), .step (hn _) (.refl _), ?_, ?_, ?_⟩
        · intro hp _
          obtain ⟨q, hq⟩ := (prefix_seg (by simpa using hlen)).mp (by simpa using hp)
          rw [hunf, if_pos (by simpa [hbytes] using hlen)]
          have h1 : strSplitAt seg (byteLen p.chars) = pure (p, ⟨q⟩) := by
            simp only [strSplitAt]; rw [← hq, cutBytes_append]
          rw [h1, Run.pure_bind']
          have hlen2 : byteLen p.chars ≤ byteLen seg.chars := by simpa [hbytes] using hlen
          simp only [beq_self_eq_true, if_true, List.map_cons, lastPiece, textBytes_eq, if_pos hlen2]
        · intro hp ha
          rw [List.map_cons, AlignedIn, if_pos hlen] at ha
          obtain ⟨q, ⟨post, hq⟩, hb⟩ := ha
          rw [hunf, if_pos (by simpa [hbytes] using hlen)]
          have h1 : strSplitAt seg (byteLen p.chars) = pure (⟨q⟩, ⟨post⟩) := by
            simp only [strSplitAt]; rw [← hq, ← hbytes, ← hb, hbytes, cutBytes_append]
          rw [h1, Run.pure_bind']
          have h4 : ((⟨q⟩ : Str) == p) = false := by
            rw [beq_eq_false_iff_ne]
            rintro rfl
            refine hp ⟨?_, by simp⟩
            simp only [List.map_cons, List.flatten_cons]
            exact (prefix_seg hlen).mpr ⟨post, hq⟩
          simp [h4, failAt]
        · intro ha
          rw [List.map_cons, AlignedIn, if_pos hlen] at ha
          rw [hunf, if_pos (by simpa [hbytes] using hlen)]
          have : cutBytes seg.chars (byteLen p.chars) = none :=
            cutBytes_eq_none.mpr fun a b h1 h2 => ha ⟨a, ⟨b, h1.symm⟩, by rw [hbytes, hbytes, h2]⟩
          simp [strSplitAt, this]
      · have hlen' : ¬ byteLen seg.chars ≥ byteLen p.chars := by simpa [hbytes] using hlen
        rw [if_neg hlen'] at hunf
        by_cases hcut : ∃ q, q <+: p.chars ∧ textBytes q = textBytes seg.chars
        · obtain ⟨q, ⟨m, hq⟩, hb⟩ := hcut
          have h1 : strSplitAt p (byteLen seg.chars) = pure (⟨q⟩, ⟨m⟩) := by
            simp only [strSplitAt]; rw [← hq, ← hbytes, ← hb, hbytes, cutBytes_append]
          rw [h1, Run.pure_bind'] at hunf
          have huniq : ∀ q', q' <+: p.chars → textBytes q' = textBytes seg.chars → q' = q := by
            rintro q' ⟨m', hq'⟩ hb'
            have := cutBytes_append q m
            have h2 := cutBytes_append q' m'
            rw [hq, ← hbytes, hb] at this
            rw [hq', ← hbytes, hb'] at h2
            rw [this] at h2; simp at h2; exact h2.1.symm
          by_cases hs : q = seg.chars
          · have hne : (seg != (⟨q⟩ : Str)) = false := by simp [hs]
            simp only [hne, Bool.false_eq_true, if_false] at hunf
            obtain ⟨st', g1, g2, g3, g4⟩ := ih ⟨m⟩ (ht (byteLen p.chars))
            have hpm : p.chars = seg.chars ++ m := by rw [← hs, hq]
            have hiff : p.chars <+: ((seg :: l).map Str.chars).flatten ↔ m <+: (l.map Str.chars).flatten := by
              rw [List.map_cons, List.flatten_cons, prefix_segs hlen]
              constructor
              · rintro ⟨m', h2, h3⟩
                rw [hpm, List.append_cancel_left_eq] at h2
                rwa [h2]
              · intro h2; exact ⟨m, hpm, h2⟩
            have hal : AlignedIn ((seg :: l).map Str.chars) p.chars ↔ AlignedIn (l.map Str.chars) m := by
              rw [List.map_cons, AlignedIn, if_neg hlen]
              constructor
              · rintro ⟨q', h2, h3, h4⟩
                have h5 := huniq q' h2 h3
                have h6 := h4 (h5.trans hs)
                rw [h5, ← hq] at h6
                simpa using h6
              · intro h2
                exact ⟨q, ⟨m, hq⟩, hb, fun _ => by rw [← hq]; simpa using h2⟩
            have hm : m ≠ [] := by
              rintro rfl
              rw [hpm] at hlen; simp at hlen
            have hmne : m <+: (l.map Str.chars).flatten → l ≠ [] := by
              rintro h2 rfl
              simp at h2; exact hm h2
            refine ⟨st', .step (hn _) g1, ?_, ?_, ?_⟩
            · intro hp _
              have hp := hiff.mp hp
              rw [hunf, g2 hp (hmne hp)]
              have : textBytes p.chars - textBytes seg.chars = textBytes m := by
                rw [hpm]; simp [hbytes]
              simp only [List.map_cons, lastPiece, if_neg hlen, this]
            · intro hp ha
              rw [hunf]
              exact g3 (fun hh => hp ⟨hiff.mpr hh.1, by simp⟩) (hal.mp ha)
            · intro ha
              rw [hunf]
              exact g4 fun hh => ha (hal.mpr hh)
          · have hne : (seg != (⟨q⟩ : Str)) = true := by
              rw [bne_iff_ne]; rintro rfl; exact hs rfl
            simp only [hne, if_true] at hunf
            refine ⟨f (byteLen p.chars), .step (hn _) (.refl _), ?_, ?_, ?_⟩
            · intro hp _
              exfalso
              rw [List.map_cons, List.flatten_cons, prefix_segs hlen] at hp
              obtain ⟨m', h2, _⟩ := hp
              exact hs (huniq seg.chars ⟨m', h2.symm⟩ rfl).symm
            · intro _ _; exact hunf
            · intro ha
              exfalso
              apply ha
              rw [List.map_cons, AlignedIn, if_neg hlen]
              exact ⟨q, ⟨m, hq⟩, hb, fun h2 => absurd h2 hs⟩
        · have hnone : cutBytes p.chars (byteLen seg.chars) = none :=
            cutBytes_eq_none.mpr fun a b h1 h2 => hcut ⟨a, ⟨b, h1.symm⟩, by rw [hbytes, hbytes, h2]⟩
          simp only [strSplitAt, hnone] at hunf
          refine ⟨f (byteLen p.chars), .step (hn _) (.refl _), ?_, ?_, ?_⟩
          · intro hp _
            exfalso
            rw [List.map_cons, List.flatten_cons, prefix_segs hlen] at hp
            obtain ⟨m, h2, _⟩ := hp
            exact hcut ⟨seg.chars, ⟨m, h2.symm⟩, rfl⟩
          · intro _ ha
            exfalso
            rw [List.map_cons, AlignedIn, if_neg hlen] at ha
            obtain ⟨q, h1, h2, _⟩ := ha
            exact hcut ⟨q, h1, h2⟩
          · intro _; exact hunf

/-- What `atom` does on a segmented text, exactly: where the text begins with the pattern it asks to be moved over the
pattern's bytes in the last segment only; elsewhere it fails in place or, cutting inside a character, panics. -/
theorem C12_exact_text [Sequence S Str] [L : LawfulSequence S] (p : Str) (s : S) :
    (p.chars <+: content s → (p.chars ≠ [] ∨ segs s ≠ []) →
      ∃ r, content r = content s ∧ (atom p).parse s =
        (do let s' ← advance r (lastPiece ((segs s).map fun t => textBytes t.chars) (textBytes p.chars)); pure (.ok () s'))) ∧
    (¬ (p.chars <+: content s ∧ (p.chars ≠ [] ∨ segs s ≠ [])) → AlignedIn ((segs s).map Str.chars) p.chars →
      ∃ u, (atom p).parse s = pure (.err ⟨()⟩ u) ∧ content u.val = content s) ∧
    (¬ AlignedIn ((segs s).map Str.chars) p.chars → (atom p).parse s = Run.fault .charBoundary) := by
  have hconc : ((segs s).map Str.chars).flatten = content s := by
    have := L.concat s
    rwa [List.flatMap_def] at this
  obtain ⟨st, h1, h2, h3, h4⟩ := atomLoop_texts p (L.yields s)
  have hrel : content (release st) = content s := L.release s st h1
  have hseg : L.segs s = segs s := rfl
  rw [hseg, hconc] at h2 h3
  rw [hseg] at h4
  have hcond : (p.chars <+: content s ∧ segs s ≠ []) ↔ (p.chars <+: content s ∧ (p.chars ≠ [] ∨ segs s ≠ [])) := by
    constructor
    · exact fun h => ⟨h.1, .inr h.2⟩
    · rintro ⟨h, h' | h'⟩
      · refine ⟨h, fun hnil => h' ?_⟩
        rw [hnil] at hconc
        rw [← hconc] at h
        simpa using h
      · exact ⟨h, h'⟩
  refine ⟨fun h h' => ⟨release st, hrel, h2 h (hcond.mpr ⟨h, h'⟩).2⟩, fun h ha => ?_, h4⟩
  exact ⟨⟨release st⟩, h3 (fun hh => h (hcond.mp hh)) ha, hrel⟩

theorem lastPiece_first {ls : List Nat} {l n : Nat} {rest : List Nat} (hn : 0 < n) (h0 : ∀ x ∈ ls, x = 0) (hl : n ≤ l) :
    lastPiece (ls ++ l :: rest) n = n := by
  induction ls with
  | nil => simp [lastPiece, hl]
  | cons x ls ih =>
    obtain rfl := h0 x (by simp)
    rw [List.cons_append, lastPiece, if_neg (by omega), Nat.sub_zero]
    exact ih fun y hy => h0 y (by simp [hy])

/-- C12 for texts, the part that holds: a pattern that fits in the first non-empty segment is read as on the text in one
piece.
Missing: a pattern over several segments (`C12_exact_text`), and the panics (`C13_exact_segmented`). -/
theorem C12_partial_text [Sequence S Str] [L : LawfulSequence S] (p : Str) (s : S) (hp : p.chars ≠ [])
    (es : List Str) (e : Str) (l : List Str) (hsegs : segs s = es ++ e :: l) (hes : ∀ x ∈ es, x.chars = [])
    (hlen : textBytes p.chars ≤ textBytes e.chars) (flat : StrRef) (hflat : flat.text.chars = content s) :
    (∀ flat', (atom p).parse flat = pure (.ok () flat') →
      ∃ s', (atom p).parse s = pure (.ok () s') ∧ content s' = flat'.text.chars) ∧
    (∀ err u, (atom p).parse flat = pure (.err err u) →
      ∃ u', (atom p).parse s = pure (.err err u') ∧ content u'.val = u.val.text.chars) ∧
    (∀ f, (atom p).parse flat = Run.fault f → (atom p).parse s = Run.fault f) := by
  obtain ⟨h1, h2, h3⟩ := C12_exact_text p s
  obtain ⟨g1, g2, g3⟩ := atom_str p flat
  rw [hflat] at g1 g2 g3
  have hpos : 0 < textBytes p.chars := by
    rw [textBytes_eq]
    rcases Nat.eq_zero_or_pos (byteLen p.chars) with h | h
    · exact absurd (byteLen_eq_zero.mp h) hp
    · exact h
  have hconc : content s = e.chars ++ (l.map Str.chars).flatten := by
    have := L.concat s
    have hseg : L.segs s = segs s := rfl
    rw [List.flatMap_def, hseg, hsegs] at this
    have h4 : (es.map Str.chars).flatten = [] := by
      rw [List.flatten_eq_nil_iff]
      intro x hx
      obtain ⟨y, hy, rfl⟩ := List.mem_map.mp hx
      exact hes y hy
    have h5 : content s = (List.map Str.chars (es ++ e :: l)).flatten := this.symm
    rw [h5]; simp [h4]
  have hal : AlignedIn ((segs s).map Str.chars) p.chars ↔ Aligned p.chars (content s) := by
    have h4 : AlignedIn ((segs s).map Str.chars) p.chars ↔ ∃ q, q <+: e.chars ∧ textBytes q = textBytes p.chars := by
      rw [hsegs]
      clear hsegs
      induction es with
      | nil => rw [List.nil_append, List.map_cons, AlignedIn, if_pos hlen]
      | cons x es ih =>
        have hx := hes x (by simp)
        rw [List.cons_append, List.map_cons, AlignedIn, hx, if_neg (by rw [show textBytes [] = 0 from rfl]; omega)]
        rw [← ih fun y hy => hes y (by simp [hy])]
        constructor
        · rintro ⟨q, h4, h5, h6⟩
          obtain rfl : q = [] := byteLen_eq_zero.mp (by rw [← textBytes_eq, h5]; rfl)
          exact h6 rfl
        · intro h4
          exact ⟨[], List.nil_prefix, rfl, fun _ => h4⟩
    rw [h4, hconc]
    constructor
    · rintro ⟨q, ⟨m, hm⟩, hb⟩
      exact .inl ⟨q, ⟨m ++ (l.map Str.chars).flatten, by rw [← hm]; simp⟩, hb⟩
    · rintro (⟨q, hq, hb⟩ | ⟨q, ⟨m, hm⟩, hb⟩)
      · exact ⟨q, (prefix_seg (by omega)).mp hq, hb⟩
      · refine ⟨e.chars, List.prefix_refl _, ?_⟩
        rw [textBytes_eq, textBytes_eq] at hb hlen ⊢
        have := congrArg byteLen hm
        simp at this hb; omega
  have hk : lastPiece ((segs s).map fun t => textBytes t.chars) (textBytes p.chars) = textBytes p.chars := by
    rw [hsegs, List.map_append, List.map_cons]
    refine lastPiece_first hpos ?_ hlen
    intro x hx
    obtain ⟨y, hy, rfl⟩ := List.mem_map.mp hx
    rw [hes y hy]; rfl
  refine ⟨?_, ?_, ?_⟩
  · intro flat' hf
    by_cases hpre : p.chars <+: content s
    · obtain ⟨q, hq⟩ := hpre
      rw [g1 q hq.symm] at hf
      simp at hf
      obtain ⟨r, h4, h5⟩ := h1 ⟨q, hq⟩ (.inl hp)
      obtain ⟨s', h6, h7⟩ := L.advance r p.chars q (h4.trans hq.symm)
      rw [hk, textBytes_eq, ← extent_str, h6] at h5
      exact ⟨s', h5, by rw [← hf]; exact h7⟩
    · by_cases ha : Aligned p.chars (content s)
      · rw [g2 hpre ha] at hf; simp at hf
      · rw [g3 ha] at hf; simp at hf
  · intro err u hf
    by_cases hpre : p.chars <+: content s
    · obtain ⟨q, hq⟩ := hpre
      rw [g1 q hq.symm] at hf; simp at hf
    · by_cases ha : Aligned p.chars (content s)
      · rw [g2 hpre ha] at hf
        simp at hf
        obtain ⟨u', h4, h5⟩ := h2 (fun hh => hpre hh.1) (hal.mpr ha)
        exact ⟨u', h4, by rw [h5, ← hf, hflat]⟩
      · rw [g3 ha] at hf; simp at hf
  · intro f hf
    by_cases hpre : p.chars <+: content s
    · obtain ⟨q, hq⟩ := hpre
      rw [g1 q hq.symm] at hf; simp at hf
    · by_cases ha : Aligned p.chars (content s)
      · rw [g2 hpre ha] at hf; simp at hf
      · rw [g3 ha] at hf
        have hff : Fault.charBoundary = f := by
          simpa using hf
        rw [h3 fun hh => ha (hal.mp hh), hff]

example : segs (Chunked.mk 0 [[], ['a', 'あ', 'b'], ['c']] : Chunked Str Char) = [⟨[]⟩] ++ ⟨['a', 'あ', 'b']⟩ :: [⟨['c']⟩] ∧
    textBytes ['a', 'あ'] ≤ textBytes ['a', 'あ', 'b'] := ⟨rfl, by decide⟩

/-- C13 for segmented texts: `atom` does not cut inside a character iff everything is aligned. That it then returns also
depends on the sequence: it may be asked to move to the middle of a character (`C12_mid_char`). -/
theorem C13_exact_segmented [Sequence S Str] [LawfulSequence S] (p : Str) (s : S)
    (hadv : ∀ (r : S) (n : Nat), content r = content s → ∃ r', advance r n = pure r') :
    (∃ r, (atom p).parse s = pure r) ↔ AlignedIn ((segs s).map Str.chars) p.chars := by
  obtain ⟨h1, h2, h3⟩ := C12_exact_text p s
  constructor
  · rintro ⟨r, hr⟩
    by_cases ha : AlignedIn ((segs s).map Str.chars) p.chars
    · exact ha
    · rw [h3 ha] at hr; simp at hr
  · intro ha
    by_cases h : p.chars <+: content s ∧ (p.chars ≠ [] ∨ segs s ≠ [])
    · obtain ⟨r, h4, h5⟩ := h1 h.1 h.2
      obtain ⟨r', h6⟩ := hadv r _ h4
      rw [h6] at h5
      exact ⟨_, h5⟩
    · obtain ⟨u, h4, _⟩ := h2 h ha
      exact ⟨_, h4⟩

example (r : StrRef) (n : Nat) : ∃ r', Sequence.advance r n = pure r' := ⟨_, rfl⟩

/-- The pattern `あa` over the segments `あ` and `a`: `atom` asks to move one byte into `あ`. -/
theorem C12_mid_char [Sequence S Str] [L : LawfulSequence S] (s : S) (t : List Char) (hs : segs s = [⟨['あ']⟩, ⟨'a' :: t⟩]) :
    ∃ r, content r = content s ∧ (atom (⟨['あ', 'a']⟩ : Str)).parse s = (do let s' ← advance r 1; pure (.ok () s')) := by
  have hc : content s = 'あ' :: 'a' :: t := by
    have := L.concat s
    have hseg : L.segs s = segs s := rfl
    rw [List.flatMap_def, hseg, hs] at this
    exact this.symm.trans (by simp [ItemSegment.items])
  obtain ⟨r, h1, h2⟩ := (C12_exact_text (⟨['あ', 'a']⟩ : Str) s).1 ⟨t, by simp [hc]⟩ (.inl (by simp))
  refine ⟨r, h1, ?_⟩
  rw [h2]
  have : lastPiece ((segs s).map fun t => textBytes t.chars) (textBytes ['あ', 'a']) = 1 := by
    rw [hs]
    simp only [List.map_cons, List.map_nil, lastPiece]
    rw [if_neg (by decide), if_pos]
    · decide
    · rw [textBytes_eq ('a' :: t), byteLen_cons]
      have : textBytes ['あ', 'a'] - textBytes ['あ'] = 1 := by decide
      have h2 : 'a'.utf8Size = 1 := by decide
      omega
  rw [this]

example : segs (Chunked.mk 0 [['あ'], ['a', 'b']] : Chunked Str Char) = [⟨['あ']⟩, ⟨'a' :: ['b']⟩] := rfl

/-- Texts of one-byte characters are cut nowhere inside a character: the verdict is the same however they are cut. -/
theorem C13_partial_segmented [Sequence S Str] [L : LawfulSequence S] (p : Str) (s : S)
    (h : ∀ c ∈ p.chars ++ content s, c.utf8Size = 1) (hp : p.chars ≠ []) :
    (p.chars <+: content s → ∃ s', (atom p).parse s = pure (.ok () s') ∧
      content s' = (content s).drop (lastPiece ((segs s).map fun t => t.chars.length) p.chars.length)) ∧
    (¬ p.chars <+: content s → ∃ u, (atom p).parse s = pure (.err ⟨()⟩ u) ∧ content u.val = content s) := by
  have hone : ∀ cs : List Char, (∀ c ∈ cs, c.utf8Size = 1) → textBytes cs = cs.length := by
    intro cs hcs
    induction cs with
    | nil => rfl
    | cons c cs ih =>
      have h1 := hcs c (by simp)
      have h2 := ih fun c hc => hcs c (by simp [hc])
      simp [textBytes] at h2 ⊢; omega
  have hconc : ((segs s).map Str.chars).flatten = content s := by
    have := L.concat s
    rwa [List.flatMap_def] at this
  have hpb : ∀ c ∈ p.chars, c.utf8Size = 1 := fun c hc => h c (by simp [hc])
  have hsb : ∀ t ∈ segs s, ∀ c ∈ t.chars, c.utf8Size = 1 := by
    intro t ht c hc
    apply h; rw [List.mem_append, ← hconc]; right
    exact List.mem_flatten.mpr ⟨t.chars, List.mem_map.mpr ⟨t, ht, rfl⟩, hc⟩
  have hal : AlignedIn ((segs s).map Str.chars) p.chars := by
    clear hconc
    revert hsb hpb
    generalize p.chars = q
    generalize segs s = l
    clear h hp
    induction l generalizing q with
    | nil => intros; trivial
    | cons t l ih =>
      intro hq hsb
      have ht := hsb t (by simp)
      rw [List.map_cons, AlignedIn]
      split
      · rename_i hl
        rw [hone _ hq, hone _ ht] at hl
        refine ⟨t.chars.take q.length, List.take_prefix _ _, ?_⟩
        rw [hone _ hq, hone _ fun c hc => ht c (List.mem_of_mem_take hc)]
        simp; omega
      · rename_i hl
        rw [hone _ hq, hone _ ht] at hl
        refine ⟨q.take t.chars.length, List.take_prefix _ _, ?_, fun _ => ?_⟩
        · rw [hone _ ht, hone _ fun c hc => hq c (List.mem_of_mem_take hc)]
          simp; omega
        · exact ih _ (fun c hc => hq c (List.mem_of_mem_drop hc)) fun t ht => hsb t (by simp [ht])
  obtain ⟨h1, h2, h3⟩ := C12_exact_text p s
  refine ⟨fun hpre => ?_, fun hpre => h2 (fun hh => hpre hh.1) hal⟩
  obtain ⟨r, h4, h5⟩ := h1 hpre (.inl hp)
  have hk : lastPiece ((segs s).map fun t => textBytes t.chars) (textBytes p.chars) =
      lastPiece ((segs s).map fun t => t.chars.length) p.chars.length := by
    rw [hone _ hpb]
    congr 1
    exact List.map_congr_left fun t ht => hone _ (hsb t ht)
  have hle : ∀ (ls : List Nat) (n : Nat), lastPiece ls n ≤ n := by
    intro ls
    induction ls with
    | nil => intro n; exact Nat.le_refl _
    | cons l ls ih =>
      intro n
      rw [lastPiece]; split
      · exact Nat.le_refl _
      · exact Nat.le_trans (ih _) (Nat.sub_le _ _)
  rw [hk] at h5
  generalize hn : lastPiece ((segs s).map fun t => t.chars.length) p.chars.length = n at h5 ⊢
  have hn' : n ≤ (content s).length := by
    have := hle ((segs s).map fun t => t.chars.length) p.chars.length
    have := hpre.length_le
    omega
  obtain ⟨s', h6, h7⟩ := L.advance r ((content s).take n) ((content s).drop n) (by rw [List.take_append_drop]; exact h4)
  have hext : extent Str ((content s).take n) = n := by
    rw [extent_str, ← textBytes_eq, hone _ fun c hc => h c (by simp [List.mem_of_mem_take hc])]
    simp; omega
  rw [hext] at h6
  rw [h6] at h5
  exact ⟨s', h5, h7⟩

example : ∀ c ∈ ['l', 'e'] ++ content (Chunked.mk 0 [['l'], ['e', 't']] : Chunked Str Char), c.utf8Size = 1 := by decide

/-- The three cases occur: a match over two segments, a mismatch in the second segment, a cut inside a character. -/
example : ['a', 'あ'] <+: content (Chunked.mk 0 [['a'], ['あ', 'b']] : Chunked Str Char) := by decide
example : ¬ ['a', 'b'] <+: content (Chunked.mk 0 [['a'], ['x', 'y']] : Chunked Str Char) ∧
    AlignedIn ((segs (Chunked.mk 0 [['a'], ['x', 'y']] : Chunked Str Char)).map Str.chars) ['a', 'b'] := by
  refine ⟨by decide, ?_⟩
  show AlignedIn [['a'], ['x', 'y']] ['a', 'b']
  rw [AlignedIn, if_neg (by decide)]
  refine ⟨['a'], by decide, rfl, fun _ => ?_⟩
  show AlignedIn [['x', 'y']] ['b']
  rw [AlignedIn, if_pos (by decide)]
  exact ⟨['x'], by decide, rfl⟩
example : ¬ AlignedIn ((segs (Chunked.mk 0 [['a'], ['あ']] : Chunked Str Char)).map Str.chars) ['a', 'b'] := by
  show ¬ AlignedIn [['a'], ['あ']] ['a', 'b']
  rw [AlignedIn, if_neg (by decide)]
  rintro ⟨q, h1, h2, h3⟩
  have h4 : q = ['a'] := by
    rcases q with _ | ⟨c, q⟩
    · exact absurd h2 (by decide)
    · obtain ⟨m, hm⟩ := h1
      simp at hm
      obtain ⟨rfl, hm⟩ := hm
      rcases q with _ | ⟨d, q⟩
      · rfl
      · simp at hm; obtain ⟨rfl, rfl, _⟩ := hm; exact absurd h2 (by decide)
  subst h4
  have h5 := h3 rfl
  have : AlignedIn [['あ']] ['b'] := h5
  rw [AlignedIn, if_pos (by decide)] at this
  obtain ⟨q, h6, h7⟩ := this
  rcases q with _ | ⟨c, q⟩
  · exact absurd h7 (by decide)
  · obtain ⟨m, hm⟩ := h6
    simp at hm
    obtain ⟨rfl, rfl, _⟩ := hm
    exact absurd h7 (by decide)

end Parcom
