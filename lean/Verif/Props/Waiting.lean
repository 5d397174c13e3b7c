import Verif.Spec.Waiting
import Verif.Props.Peg
import Verif.Props.Twin
/-!
# C120: a grammar does not wait for input that it does not need

On input that has not all arrived a grammar returns exactly when what has arrived settles its verdict, and returns what it
returns whatever comes.
-/
namespace Parcom
open Spec

variable {S S' O O₀ O₁ E E₀ E₁ T : Type}

/-! ## The primitive parsers -/

/-- The first item that has arrived and where the stream delivers it. -/
theorem arrived_cases {Seg Item : Type} [Sequence S Seg] [ItemSegment Seg Item] [RewindSequence S] [U : Unfinished S] (s : S) :
    (arrived s = [] ∧ Stalls (Sequence.segments s) (U.segs s) ∧ ∀ e ∈ U.segs s, ItemSegment.items e = []) ∨
    ∃ es e x xs post, arrived s = x :: post ∧ Delivers (Sequence.segments s) (es ++ [e]) ∧
      (∀ e ∈ es, ItemSegment.items e = []) ∧ ItemSegment.items e = x :: xs := by
  have hy := U.stalls s
  have hc := U.concat s
  rcases first_item (ItemSegment.items (Seg := Seg)) (U.segs s) with h | ⟨es, e, l', x, xs, h1, h2, h3⟩
  · left
    refine ⟨?_, hy, h⟩
    show U.arrived s = []
    rw [← hc, List.flatMap_eq_nil_iff]
    exact h
  · right
    refine ⟨es, e, x, xs, xs ++ l'.flatMap ItemSegment.items, ?_, ?_, h2, h3⟩
    · show U.arrived s = _
      have h4 : es.flatMap ItemSegment.items = [] := by simpa using h2
      rw [← hc, h1]
      simp [h3, h4]
    · rw [h1] at hy
      have hd : ∀ (l l' : List Seg) (st : Sequence.Stream S), Stalls st (l ++ l') → Delivers st l := by
        intro l l'
        induction l with
        | nil => exact fun st _ => .nil st
        | cons s l ih =>
          intro st h
          cases h with
          | seg f hn ht => exact .seg f hn fun n => ih _ (ht n)
      exact hd (es ++ [e]) l' _ (by simpa using hy)

section
variable [Sequence S Str]

theorem anyCharLoop_stalls {st : Sequence.Stream S} {es : List Str} (h : Stalls st es) (he : ∀ e ∈ es, e.chars = []) :
    anyCharLoop st = Run.diverge := by
  induction es generalizing st with
  | nil =>
    cases h with
    | wait hn => rw [anyCharLoop, hn]; rfl
  | cons e es ih =>
    cases h with
    | seg f hn ht => rw [anyCharLoop, hn]; simp [he e, ih (ht 0) (fun e h => he e (List.mem_cons_of_mem _ h))]

theorem theCharLoop_stalls {st : Sequence.Stream S} {es : List Str} (c : Char) (h : Stalls st es) (he : ∀ e ∈ es, e.chars = []) :
    theCharLoop c st = Run.diverge := by
  induction es generalizing st with
  | nil =>
    cases h with
    | wait hn => rw [theCharLoop, hn]; rfl
  | cons e es ih =>
    cases h with
    | seg f hn ht => rw [theCharLoop, hn]; simp [he e, ih (ht c.utf8Size) (fun e h => he e (List.mem_cons_of_mem _ h))]

end

section
variable {α : Type} [Sequence S (List α)]

theorem anyItemLoop_stalls {st : Sequence.Stream S} {es : List (List α)} (h : Stalls st es) (he : ∀ e ∈ es, e = []) :
    anyItemLoop st = Run.diverge := by
  induction es generalizing st with
  | nil =>
    cases h with
    | wait hn => rw [anyItemLoop, hn]; rfl
  | cons e es ih =>
    cases h with
    | seg f hn ht => rw [anyItemLoop, hn]; simp [he e, ih (ht 0) (fun e h => he e (List.mem_cons_of_mem _ h))]

theorem theItemLoop_stalls [BEq α] {st : Sequence.Stream S} {es : List (List α)} (x : α) (h : Stalls st es) (he : ∀ e ∈ es, e = []) :
    theItemLoop x st = Run.diverge := by
  induction es generalizing st with
  | nil =>
    cases h with
    | wait hn => rw [theItemLoop, hn]; rfl
  | cons e es ih =>
    cases h with
    | seg f hn ht => rw [theItemLoop, hn]; simp [he e, ih (ht 1) (fun e h => he e (List.mem_cons_of_mem _ h))]

end

section
variable {Seg Item : Type} [Sequence S Seg] [ItemSegment Seg Item] [RewindSequence S] [U : Unfinished S]

/-- Advancing over the first item after having read. -/
theorem arrived_advance {s : S} {st : Sequence.Stream S} {x : Item} {post : List Item} (h : arrived s = x :: post)
    (hr : Reads (Sequence.segments s) st) : ∃ r, Sequence.advance (Sequence.release st) (extent Seg [x]) = pure r ∧
      arrived r = post ∧ U.Desc s r := by
  have h1 : U.arrived (Sequence.release st) = [x] ++ post := (U.release s st hr).trans h
  obtain ⟨r, h2, h3⟩ := U.advance _ [x] post h1
  exact ⟨r, h2, h3, U.trans (U.descRelease s st hr) (U.descAdvance _ _ [x] post h1 h2)⟩

end

section
variable [Sequence S Str] [RewindSequence S] [U : Unfinished S]

/-- C120 (`any_char`): it waits iff nothing has arrived. -/
theorem C120_any_char (s : S) :
    (∀ c cs, arrived s = c :: cs → ∃ r, anyChar.parse s = pure (.ok c r) ∧ arrived r = cs ∧ U.Desc s r) ∧
    (arrived s = [] → anyChar.parse s = Run.diverge) := by
  constructor
  · intro c cs hc
    rcases arrived_cases s with ⟨h1, -⟩ | ⟨es, e, x, xs, post, h1, h2, h3, h4⟩
    · rw [h1] at hc; simp at hc
    · rw [h1] at hc
      obtain ⟨rfl, rfl⟩ := List.cons.inj hc
      obtain ⟨st, hr, h⟩ := anyCharLoop_found h2 h3 h4
      obtain ⟨r, h5, h6, h7⟩ := arrived_advance h1 hr
      rw [extent_str] at h5
      exact ⟨r, by show anyCharLoop _ = _; rw [h]; exact congrArg (· >>= _) h5, h6, h7⟩
  · intro hc
    rcases arrived_cases s with ⟨-, h1, h2⟩ | ⟨es, e, x, xs, post, h1, -⟩
    · exact anyCharLoop_stalls h1 h2
    · rw [h1] at hc; simp at hc

/-- C120 (`the_char`): it waits iff nothing has arrived. -/
theorem C120_the_char (c : Char) (s : S) :
    (∀ cs, arrived s = c :: cs → ∃ r, (theChar c).parse s = pure (.ok () r) ∧ arrived r = cs ∧ U.Desc s r) ∧
    (∀ d cs, arrived s = d :: cs → d ≠ c → ∃ u, (theChar c).parse s = pure (.err ⟨()⟩ u) ∧ arrived u.val = arrived s ∧ U.Desc s u.val) ∧
    (arrived s = [] → (theChar c).parse s = Run.diverge) := by
  refine ⟨?_, ?_, ?_⟩
  · intro cs hc
    rcases arrived_cases s with ⟨h1, -⟩ | ⟨es, e, x, xs, post, h1, h2, h3, h4⟩
    · rw [h1] at hc; simp at hc
    · rw [h1] at hc
      obtain ⟨rfl, rfl⟩ := List.cons.inj hc
      obtain ⟨st, hr, h⟩ := theCharLoop_found (c := x) h2 h3 h4
      rw [if_pos rfl] at h
      obtain ⟨r, h5, h6, h7⟩ := arrived_advance h1 hr
      rw [extent_str] at h5
      exact ⟨r, by show theCharLoop _ _ = _; rw [h]; exact congrArg (· >>= _) h5, h6, h7⟩
  · intro d cs hc hd
    rcases arrived_cases s with ⟨h1, -⟩ | ⟨es, e, x, xs, post, h1, h2, h3, h4⟩
    · rw [h1] at hc; simp at hc
    · rw [h1] at hc
      obtain ⟨rfl, rfl⟩ := List.cons.inj hc
      obtain ⟨st, hr, h⟩ := theCharLoop_found (c := c) h2 h3 h4
      rw [if_neg hd] at h
      exact ⟨⟨Sequence.release st⟩, h, U.release s st hr, U.descRelease s st hr⟩
  · intro hc
    rcases arrived_cases s with ⟨-, h1, h2⟩ | ⟨es, e, x, xs, post, h1, -⟩
    · exact theCharLoop_stalls c h1 h2
    · rw [h1] at hc; simp at hc

end

section
variable {α : Type} [Sequence S (List α)] [RewindSequence S] [U : Unfinished S]

/-- C120 (`any_item`): it waits iff nothing has arrived. -/
theorem C120_any_item (s : S) :
    (∀ x xs, arrived s = x :: xs → ∃ r, anyItem.parse s = pure (.ok x r) ∧ arrived r = xs ∧ U.Desc s r) ∧
    (arrived s = [] → anyItem.parse s = Run.diverge) := by
  constructor
  · intro c cs hc
    rcases arrived_cases s with ⟨h1, -⟩ | ⟨es, e, x, xs, post, h1, h2, h3, h4⟩
    · rw [h1] at hc; simp at hc
    · rw [h1] at hc
      obtain ⟨rfl, rfl⟩ := List.cons.inj hc
      have h4' : e = x :: xs := h4
      subst h4'
      obtain ⟨st, hr, h⟩ := anyItemLoop_found h2 h3
      obtain ⟨r, h5, h6, h7⟩ := arrived_advance h1 hr
      have h8 : extent (List α) [x] = 1 := by simp [extent_list]
      rw [h8] at h5
      exact ⟨r, by show anyItemLoop _ = _; rw [h]; exact congrArg (· >>= _) h5, h6, h7⟩
  · intro hc
    rcases arrived_cases s with ⟨-, h1, h2⟩ | ⟨es, e, x, xs, post, h1, -⟩
    · exact anyItemLoop_stalls h1 h2
    · rw [h1] at hc; simp at hc

/-- C120 (`the_item`): it waits iff nothing has arrived. -/
theorem C120_the_item [BEq α] (x : α) (s : S) :
    (∀ y ys, arrived s = y :: ys → (y == x) = true →
      ∃ r, (theItem x).parse s = pure (.ok () r) ∧ arrived r = ys ∧ U.Desc s r) ∧
    (∀ y ys, arrived s = y :: ys → (y == x) = false →
      ∃ u, (theItem x).parse s = pure (.err ⟨()⟩ u) ∧ arrived u.val = arrived s ∧ U.Desc s u.val) ∧
    (arrived s = [] → (theItem x).parse s = Run.diverge) := by
  refine ⟨?_, ?_, ?_⟩
  · intro c cs hc hx
    rcases arrived_cases s with ⟨h1, -⟩ | ⟨es, e, y, ys, post, h1, h2, h3, h4⟩
    · rw [h1] at hc; simp at hc
    · rw [h1] at hc
      obtain ⟨rfl, rfl⟩ := List.cons.inj hc
      have h4' : e = y :: ys := h4
      subst h4'
      obtain ⟨st, hr, h⟩ := theItemLoop_found (c := x) h2 h3
      rw [if_pos hx] at h
      obtain ⟨r, h5, h6, h7⟩ := arrived_advance h1 hr
      have h8 : extent (List α) [y] = 1 := by simp [extent_list]
      rw [h8] at h5
      exact ⟨r, by show theItemLoop _ _ = _; rw [h]; exact congrArg (· >>= _) h5, h6, h7⟩
  · intro c cs hc hx
    rcases arrived_cases s with ⟨h1, -⟩ | ⟨es, e, y, ys, post, h1, h2, h3, h4⟩
    · rw [h1] at hc; simp at hc
    · rw [h1] at hc
      obtain ⟨rfl, rfl⟩ := List.cons.inj hc
      have h4' : e = y :: ys := h4
      subst h4'
      obtain ⟨st, hr, h⟩ := theItemLoop_found (c := x) h2 h3
      rw [if_neg (by simp [hx])] at h
      exact ⟨⟨Sequence.release st⟩, h, U.release s st hr, U.descRelease s st hr⟩
  · intro hc
    rcases arrived_cases s with ⟨-, h1, h2⟩ | ⟨es, e, y, ys, post, h1, -⟩
    · exact theItemLoop_stalls x h1 h2
    · rw [h1] at hc; simp at hc

end

section
variable {α : Type} [DecidableEq α] [Sequence S (List α)]

theorem atomLoop_stalls {st : Sequence.Stream S} {l : List (List α)} (p : List α) (h : Stalls st l) :
    (l.flatten <+: p → (l = [] ∨ p ≠ l.flatten) → atomLoop p st = Run.diverge) ∧
    (l ≠ [] → p <+: l.flatten → ∃ st', Reads st st' ∧ atomLoop p st =
      (do let s ← Sequence.advance (Sequence.release st') (lastPiece (l.map List.length) p.length); return done () s)) ∧
    (¬ l.flatten <+: p → ¬ p <+: l.flatten → ∃ st', Reads st st' ∧ atomLoop p st = pure (failAt ⟨()⟩ (Sequence.release st'))) := by
  induction l generalizing st p with
  | nil =>
    cases h with
    | wait hn => exact ⟨fun _ _ => by rw [atomLoop, hn]; rfl, by simp, by simp⟩
  | cons seg l ih =>
    cases h with
    | seg f hn ht =>
      simp only [List.flatten_cons, List.map_cons, lastPiece]
      by_cases hlen : p.length ≤ seg.length
      · have hl : atomLoop p st = if seg.take p.length = p then
            (do let s ← Sequence.advance (Sequence.release (f p.length)) p.length; return done () s)
            else pure (failAt ⟨()⟩ (Sequence.release (f p.length))) := by
          rw [atomLoop, hn, Run.pure_bind']
          show (if seg.length ≥ p.length then _ else _) = _
          rw [if_pos hlen]
          simp only [SequenceSegment.splitAt, SequenceSegment.len, listSplitAt]
          rw [if_pos hlen, Run.pure_bind']
          by_cases hp : seg.take p.length = p
          · rw [if_pos (by simp [hp]), if_pos hp]
          · rw [if_neg (by simp [hp]), if_neg hp]
        have hiff : p <+: seg ++ l.flatten ↔ seg.take p.length = p := by
          rw [List.prefix_iff_eq_take, List.take_append_of_le_length hlen]
          exact eq_comm
        refine ⟨fun h1 h2 => ?_, fun _ h1 => ?_, fun _ h1 => ?_⟩
        · have h3 := h1.length_le
          simp only [List.length_append] at h3
          have h4 := h1.eq_of_length (by simp only [List.length_append]; omega)
          simp [h4] at h2
        · refine ⟨f p.length, .step (hn _) (.refl _), ?_⟩
          rw [hl, if_pos (hiff.mp h1), if_pos hlen]
        · refine ⟨f p.length, .step (hn _) (.refl _), ?_⟩
          rw [hl, if_neg fun h => h1 (hiff.mpr h)]
      · have hl : atomLoop p st = if p.take seg.length = seg then atomLoop (p.drop seg.length) (f p.length)
            else pure (failAt ⟨()⟩ (Sequence.release (f p.length))) := by
          rw [atomLoop, hn, Run.pure_bind']
          show (if seg.length ≥ p.length then _ else _) = _
          rw [if_neg hlen]
          simp only [SequenceSegment.splitAt, SequenceSegment.len, listSplitAt]
          rw [if_pos (by omega), Run.pure_bind']
          by_cases hp : p.take seg.length = seg
          · simp only [hp, bne_self_eq_false, Bool.false_eq_true, if_false, if_true]
          · have hb : (seg != p.take seg.length) = true := by
              rw [bne_iff_ne]; exact fun hh => hp hh.symm
            simp only [hb, if_true]
            rw [if_neg hp]
        rw [if_neg hlen]
        by_cases hp : p.take seg.length = seg
        · rw [if_pos hp] at hl
          obtain ⟨q, hq⟩ : seg <+: p := by rw [← hp]; exact List.take_prefix _ _
          subst hq
          have hd : (seg ++ q).drop seg.length = q := by simp
          rw [hd] at hl
          obtain ⟨i1, i2, i3⟩ := ih q (ht (seg ++ q).length)
          simp only [List.prefix_append_right_inj]
          refine ⟨fun h1 h2 => ?_, fun _ h1 => ?_, fun h1 h2 => ?_⟩
          · rw [hl]
            refine i1 h1 (.inr fun h => ?_)
            rcases h2 with h2 | h2
            · simp at h2
            · exact h2 (by rw [h])
          · have hne : l ≠ [] := by
              rintro rfl
              simp only [List.flatten_nil, List.prefix_nil] at h1
              simp [h1] at hlen
            obtain ⟨st', h2, h3⟩ := i2 hne h1
            refine ⟨st', .step (hn _) h2, ?_⟩
            rw [hl, h3]
            simp
          · obtain ⟨st', h4, h5⟩ := i3 h1 h2
            exact ⟨st', .step (hn _) h4, by rw [hl, h5]⟩
        · rw [if_neg hp] at hl
          have hno : ∀ q r, seg ++ q ≠ p ++ r := by
            intro q r h
            apply hp
            have := congrArg (List.take seg.length) h
            rw [List.take_left, List.take_append_of_le_length (by omega)] at this
            exact this.symm
          refine ⟨fun h1 _ => ?_, fun _ h1 => ?_, fun _ _ => ⟨f p.length, .step (hn _) (.refl _), hl⟩⟩
          · obtain ⟨q, hq⟩ := h1
            exact absurd (by rw [← List.append_assoc, hq]; simp) (hno (l.flatten ++ q) [])
          · obtain ⟨q, hq⟩ := h1
            exact absurd hq.symm (hno _ _)

variable [RewindSequence S] [U : Unfinished S]

/-- C120 (`atom` on items): it waits iff all that has arrived is the beginning of the pattern, but not the whole of it; or
if nothing has arrived, not even an empty segment, although for the empty pattern nothing is needed. It fails with the first
segment that differs. It succeeds with the segment that completes the pattern (what it then consumes: C12). -/
theorem C120_atom (p : List α) (s : S) :
    ((atom p).parse s = Run.diverge ↔ arrived s <+: p ∧ (U.segs s = [] ∨ arrived s ≠ p)) ∧
    ((∃ u, (atom p).parse s = pure (.err ⟨()⟩ u)) ↔ ¬ arrived s <+: p ∧ ¬ p <+: arrived s) ∧
    ((∃ r, (atom p).parse s = pure (.ok () r)) ↔ p <+: arrived s ∧ U.segs s ≠ []) := by
  have hconc : (U.segs s).flatten = arrived s := by
    have := U.concat s
    rw [List.flatMap_def, show ItemSegment.items = (id : List α → List α) from rfl, List.map_id] at this
    exact this
  obtain ⟨i1, i2, i3⟩ := atomLoop_stalls p (U.stalls s)
  rw [hconc] at i1 i2 i3
  have hnil : U.segs s = [] → arrived s = [] := fun h => by rw [← hconc, h]; rfl
  have i2' : U.segs s ≠ [] → p <+: arrived s → ∃ r, (atom p).parse s = pure (.ok () r) := by
    intro h1 h2
    obtain ⟨st, h3, h4⟩ := i2 h1 h2
    have hrel : U.arrived (Sequence.release st) = arrived s := U.release s st h3
    have hle : lastPiece ((U.segs s).map List.length) p.length ≤ p.length := by
      generalize (U.segs s).map List.length = ls
      generalize p.length = n
      induction ls generalizing n with
      | nil => simp [lastPiece]
      | cons l ls ih =>
        simp only [lastPiece]
        split
        · exact Nat.le_refl _
        · exact Nat.le_trans (ih _) (by omega)
    have hle2 : p.length ≤ (arrived s).length := h2.length_le
    generalize lastPiece ((U.segs s).map List.length) p.length = k at *
    obtain ⟨s', h5, h6⟩ := U.advance (Sequence.release st) ((arrived s).take k) ((arrived s).drop k)
      (by rw [List.take_append_drop]; exact hrel)
    have h7 : extent (List α) ((arrived s).take k) = k := by
      rw [extent_list]; simp; omega
    rw [h7] at h5
    exact ⟨s', by show atomLoop _ _ = _; rw [h4, h5]; rfl⟩
  have i3' : ¬ arrived s <+: p → ¬ p <+: arrived s → ∃ u, (atom p).parse s = pure (.err ⟨()⟩ u) := by
    intro h1 h2
    obtain ⟨st, -, h4⟩ := i3 h1 h2
    exact ⟨⟨_⟩, h4⟩
  have i1' : arrived s <+: p → U.segs s = [] ∨ arrived s ≠ p → (atom p).parse s = Run.diverge :=
    fun h1 h2 => i1 h1 (h2.imp id Ne.symm)
  by_cases h1 : arrived s <+: p <;> by_cases h2 : p <+: arrived s <;> by_cases h3 : U.segs s = []
  · rw [i1' h1 (.inl h3)]; simp [h1, h2, h3]
  · have h4 : arrived s = p := h1.eq_of_length (Nat.le_antisymm h1.length_le h2.length_le)
    obtain ⟨r, h5⟩ := i2' h3 h2
    rw [h5]; simp [h3, h4]
  · rw [i1' h1 (.inl h3)]; simp [h1, h2, h3]
  · rw [i1' h1 (.inr fun h => h2 (h ▸ List.prefix_rfl))]; simp [h1, h2, h3]
    rintro rfl; exact h2 List.prefix_rfl
  · rw [hnil h3] at h1; simp at h1
  · obtain ⟨r, h5⟩ := i2' h3 h2
    rw [h5]; simp [h1, h2, h3]
  · rw [hnil h3] at h1; simp at h1
  · obtain ⟨u, h5⟩ := i3' h1 h2
    rw [h5]; simp [h1, h2, h3]

end

/-- Non-vacuity: `atom([1, 2])` waits after `1`, and fails after `1 3`; `atom([])` waits though nothing can change its mind. -/
example : (atom [1, 2]).parse (⟨⟨0, [[1]]⟩⟩ : Arriving (List Nat) Nat) = Run.diverge ∧
    (∃ u, (atom [1, 2]).parse (⟨⟨0, [[1], [3]]⟩⟩ : Arriving (List Nat) Nat) = pure (.err ⟨()⟩ u)) ∧
    (atom []).parse (⟨⟨0, []⟩⟩ : Arriving (List Nat) Nat) = Run.diverge := by
  refine ⟨(C120_atom _ _).1.mpr ⟨?_, .inr ?_⟩, (C120_atom _ _).2.1.mpr ⟨?_, ?_⟩, (C120_atom _ _).1.mpr ⟨?_, .inl rfl⟩⟩
  · show [1] <+: [1, 2]; decide
  · show [1] ≠ [1, 2]; decide
  · show ¬ [1, 3] <+: [1, 2]; decide
  · show ¬ [1, 2] <+: [1, 3]; decide
  · show [] <+: []; decide

/-! ## Grammars -/

section
variable [Sequence S Str] [RewindSequence S] [U : Unfinished S]

/-- What C120 says of one parser, with what the induction needs. -/
structure SettlesPeg (i : ParseError E) (f : S → Run (PResult S O E)) (g : Peg) : Prop where
  tidy : Tidy f
  sane : ∀ s x, f s ≠ Run.fault x
  mild : ∀ s e u, f s = pure (.err e u) → i.shouldTerminate e = false
  ok : ∀ s v r, f s = pure (.ok v r) → g.Settled (arrived s) (some (arrived r))
  err : ∀ s e u, f s = pure (.err e u) → g.Settled (arrived s) none
  hits : ∀ s ds, g.Settled (arrived s) (some ds) → ∃ v r, f s = pure (.ok v r) ∧ arrived r = ds
  misses : ∀ s, g.Settled (arrived s) none → ∃ e u, f s = pure (.err e u)

theorem SettlesPeg.descends {i : ParseError E} {f : S → Run (PResult S O E)} {g : Peg} (h : SettlesPeg i f g) :
    Descends f := (tidy_iff.mp h.tidy).1

theorem settles_char (c : Char) : SettlesPeg inferInstance (theChar (S := S) c).parse (.char c) := by
  have key : ∀ s : S, (∃ cs r, arrived s = c :: cs ∧ (theChar c).parse s = pure (.ok () r) ∧ arrived r = cs ∧ U.Desc s r) ∨
      (∃ d cs u, arrived s = d :: cs ∧ d ≠ c ∧ (theChar c).parse s = pure (.err ⟨()⟩ u) ∧ U.Desc s u.val) ∨
      (arrived s = [] ∧ (theChar c).parse s = Run.diverge) := by
    intro s
    obtain ⟨k1, k2, k3⟩ := C120_the_char c s
    cases h : arrived s with
    | nil => exact .inr (.inr ⟨rfl, k3 h⟩)
    | cons d cs =>
      by_cases hd : d = c
      · subst hd
        obtain ⟨r, h1, h2, h3⟩ := k1 cs h
        exact .inl ⟨cs, r, rfl, h1, h2, h3⟩
      · obtain ⟨u, h1, -, h3⟩ := k2 d cs h hd
        exact .inr (.inl ⟨d, cs, u, rfl, hd, h1, h3⟩)
  refine ⟨?_, ?_, fun _ _ _ _ => rfl, ?_, ?_, ?_, ?_⟩
  · intro s
    rcases key s with ⟨cs, r, h1, h2, h3, h4⟩ | ⟨d, cs, u, h1, hd, h2, h4⟩ | ⟨h1, h2⟩ <;> rw [h2]
    · exact ⟨fun res h => by rw [← Run.pure_inj'.mp h]; exact h4, Run.avoids_pure⟩
    · exact ⟨fun res h => by rw [← Run.pure_inj'.mp h]; exact h4, Run.avoids_pure⟩
    · exact ⟨fun res h => by simp at h, fun f _ h => by simp at h⟩
  · intro s x h
    rcases key s with ⟨cs, r, h1, h2, h3⟩ | ⟨d, cs, u, h1, hd, h2, h4⟩ | ⟨h1, h2⟩ <;> rw [h2] at h <;> simp at h
  · intro s v r h
    rcases key s with ⟨cs, r, h1, h2, h3, -⟩ | ⟨d, cs, u, h1, hd, h2, h4⟩ | ⟨h1, h2⟩ <;> rw [h2] at h <;> simp at h
    rw [h1, ← h, h3]; exact .char c cs
  · intro s v r h
    rcases key s with ⟨cs, r, h1, h2, h3⟩ | ⟨d, cs, u, h1, hd, h2, h4⟩ | ⟨h1, h2⟩ <;> rw [h2] at h <;> simp at h
    rw [h1]; exact .charFails c d cs hd
  · intro s ds h
    rcases key s with ⟨cs, r, h1, h2, h3, -⟩ | ⟨d, cs, u, h1, hd, h2, h4⟩ | ⟨h1, h2⟩ <;> rw [h1] at h <;> cases h
    · exact ⟨_, _, h2, h3⟩
    · exact absurd rfl hd
  · intro s h
    rcases key s with ⟨cs, r, h1, h2, h3, -⟩ | ⟨d, cs, u, h1, hd, h2, h4⟩ | ⟨h1, h2⟩ <;> rw [h1] at h <;> cases h
    · rename_i h; exact absurd rfl h
    · exact ⟨_, _, h2⟩

theorem settles_any : SettlesPeg inferInstance (anyChar (S := S)).parse .any := by
  have key : ∀ s : S, (∃ c cs r, arrived s = c :: cs ∧ anyChar.parse s = pure (.ok c r) ∧ arrived r = cs ∧ U.Desc s r) ∨
      (arrived s = [] ∧ anyChar.parse s = Run.diverge) := by
    intro s
    obtain ⟨k1, k2⟩ := C120_any_char s
    cases h : arrived s with
    | cons c cs =>
      obtain ⟨r, h1, h2, h3⟩ := k1 c cs h
      exact .inl ⟨c, cs, r, rfl, h1, h2, h3⟩
    | nil => exact .inr ⟨rfl, k2 h⟩
  refine ⟨?_, ?_, fun _ _ _ _ => rfl, ?_, ?_, ?_, ?_⟩
  · intro s
    rcases key s with ⟨c, cs, r, h1, h2, h3, h4⟩ | ⟨h1, h2⟩ <;> rw [h2]
    · exact ⟨fun res h => by rw [← Run.pure_inj'.mp h]; exact h4, Run.avoids_pure⟩
    · exact ⟨fun res h => by simp at h, fun f _ h => by simp at h⟩
  · intro s x h; rcases key s with ⟨c, cs, r, h1, h2, h3⟩ | ⟨h1, h2⟩ <;> rw [h2] at h <;> simp at h
  · intro s v r h
    rcases key s with ⟨c, cs, r, h1, h2, h3, -⟩ | ⟨h1, h2⟩ <;> rw [h2] at h <;> simp at h
    rw [h1, ← h.2, h3]; exact .any c cs
  · intro s v r h
    rcases key s with ⟨c, cs, r, h1, h2, h3⟩ | ⟨h1, h2⟩ <;> rw [h2] at h <;> simp at h
  · intro s ds h
    rcases key s with ⟨c, cs, r, h1, h2, h3, -⟩ | ⟨h1, h2⟩ <;> rw [h1] at h <;> cases h
    exact ⟨_, _, h2, h3⟩
  · intro s h
    rcases key s with ⟨c, cs, r, h1, h2, h3⟩ | ⟨h1, h2⟩ <;> rw [h1] at h <;> cases h

theorem settles_seq [i₀ : ParseError E₀] [i₁ : ParseError E₁] {p : Parser S O₀ E₀} {q : Parser S O₁ E₁} {g h : Peg}
    (hp : SettlesPeg i₀ p.parse g) (hq : SettlesPeg i₁ q.parse h) :
    SettlesPeg inferInstance (p.join q).parse (.seq g h) := by
  refine ⟨tidy_join hp.tidy hq.tidy, ?_, ?_, ?_, ?_, ?_, ?_⟩
  · intro s x
    refine Run.avoids_bind (bad := fun _ => True) (fun f _ => hp.sane s f) (fun res _ => ?_) x trivial
    cases res with
    | ok v r =>
      refine Run.avoids_bind (fun f _ => hq.sane r f) (fun res _ => ?_)
      cases res <;> exact Run.avoids_pure
    | err e u => exact Run.avoids_pure
  · intro s e u ht
    rcases (C19_join_fails p q s e u).mp ht with ⟨e0, h1, rfl⟩ | ⟨v, r, e1, h1, h2, rfl⟩
    · exact hp.mild _ _ _ h1
    · exact hq.mild _ _ _ h2
  · rintro s ⟨v, w⟩ t ht
    obtain ⟨r, h1, h2⟩ := (C19_join_succeeds p q s v w t).mp ht
    exact .seq (hp.ok _ _ _ h1) (hq.ok _ _ _ h2)
  · intro s e u ht
    rcases (C19_join_fails p q s e u).mp ht with ⟨e0, h1, -⟩ | ⟨v, r, e1, h1, h2, -⟩
    · exact .seqFails (hp.err _ _ _ h1)
    · exact .seq (hp.ok _ _ _ h1) (hq.err _ _ _ h2)
  · intro s ds hm
    cases hm with
    | seq a b =>
      obtain ⟨v, r, h1, rfl⟩ := hp.hits _ _ a
      obtain ⟨w, t, h2, rfl⟩ := hq.hits _ _ b
      exact ⟨(v, w), t, (C19_join_succeeds p q s v w t).mpr ⟨r, h1, h2⟩, rfl⟩
  · intro s hm
    cases hm with
    | seq a b =>
      obtain ⟨v, r, h1, rfl⟩ := hp.hits _ _ a
      obtain ⟨e, u, h2⟩ := hq.misses _ b
      exact ⟨_, u, (C19_join_fails p q s _ u).mpr (.inr ⟨v, r, e, h1, h2, rfl⟩)⟩
    | seqFails a =>
      obtain ⟨e, u, h1⟩ := hp.misses _ a
      exact ⟨_, u, (C19_join_fails p q s _ u).mpr (.inl ⟨e, h1, rfl⟩)⟩

theorem settles_alt [i₀ : ParseError E₀] [i₁ : ParseError E₁] {p : Parser S O₀ E₀} {q : Parser S O₁ E₁} {g h : Peg}
    (hp : SettlesPeg i₀ p.parse g) (hq : SettlesPeg i₁ q.parse h) :
    SettlesPeg inferInstance (p.or q).parse (.alt g h) := by
  refine ⟨tidy_or hp.tidy hq.tidy, ?_, ?_, ?_, ?_, ?_, ?_⟩
  · intro s x hx
    cases h0 : p.parse s using Run.casesRun with
    | ret res =>
      rcases res with ⟨v, r⟩ | ⟨e, u⟩
      · rw [or_ok p q h0] at hx; simp at hx
      · rw [or_second p q hp.descends h0 (hp.mild _ _ _ h0)] at hx
        revert hx
        refine Run.avoids_bind (bad := fun _ => True) (fun f _ => hq.sane s f) (fun res _ => ?_) x trivial
        cases res <;> exact Run.avoids_pure
    | fault f => exact hp.sane _ _ h0
    | diverge => simp [Parser.or, h0] at hx
  · intro s e u ht
    rcases (C15_or_fails p q hp.descends s e u).mp ht with ⟨e0, h1, h2, rfl⟩ | ⟨e0, u0, e1, h1, h3, h2, h4⟩
    · exact hp.mild _ _ _ h1
    · have h5 := hq.mild _ _ _ h2
      rcases h4 with ⟨h4, rfl⟩ | ⟨h4, rfl⟩
      · exact h5
      · show (shouldTerminate e0 || shouldTerminate e1) = false; rw [h3, h4]; rfl
  · intro s o r ht
    rcases (C15_or_succeeds p q hp.descends s o r).mp ht with ⟨v, h1, -⟩ | ⟨e, u, v, h1, -, h2, -⟩
    · exact .altFirst (hp.ok _ _ _ h1)
    · exact .altSecond (hp.err _ _ _ h1) (hq.ok _ _ _ h2)
  · intro s e u ht
    rcases (C15_or_fails p q hp.descends s e u).mp ht with ⟨e0, h1, h2, -⟩ | ⟨e0, u0, e1, h1, -, h2, -⟩
    · rw [hp.mild _ _ _ h1] at h2; simp at h2
    · exact .altSecond (hp.err _ _ _ h1) (hq.err _ _ _ h2)
  · intro s ds hm
    cases hm with
    | altFirst a =>
      obtain ⟨v, r, h1, rfl⟩ := hp.hits _ _ a
      exact ⟨_, r, (C15_or_succeeds p q hp.descends s _ r).mpr (.inl ⟨v, h1, rfl⟩), rfl⟩
    | altSecond a b =>
      obtain ⟨e, u, h1⟩ := hp.misses _ a
      obtain ⟨v, r, h2, rfl⟩ := hq.hits _ _ b
      exact ⟨_, r, (C15_or_succeeds p q hp.descends s _ r).mpr (.inr ⟨e, u, v, h1, hp.mild _ _ _ h1, h2, rfl⟩), rfl⟩
  · intro s hm
    cases hm with
    | altSecond a b =>
      obtain ⟨e, u, h1⟩ := hp.misses _ a
      obtain ⟨e1, u1, h2⟩ := hq.misses _ b
      exact ⟨_, u1, (C15_or_fails p q hp.descends s _ u1).mpr
        (.inr ⟨e, u, e1, h1, hp.mild _ _ _ h1, h2, .inr ⟨hq.mild _ _ _ h2, rfl⟩⟩)⟩

theorem settles_opt [i : ParseError E] {p : Parser S O E} {g : Peg} (hp : SettlesPeg i p.parse g) :
    SettlesPeg i p.optional.parse (.opt g) := by
  refine ⟨tidy_optional hp.tidy, ?_, fun s e u h => hp.mild s e u ((C16_optional_fails p hp.descends s e u).mp h).1, ?_, ?_, ?_, ?_⟩
  · intro s x hx
    revert hx
    refine Run.avoids_bind (bad := fun _ => True) (fun f _ => hp.sane s f) (fun res h => ?_) x trivial
    cases res with
    | ok v r => exact Run.avoids_pure
    | err e u =>
      refine Run.avoids_ite (fun _ => ?_) (fun _ => Run.avoids_pure)
      have hw : u.rewind (anchor s) = pure s := U.rewind (hp.descends.err h)
      rw [hw]
      exact Run.avoids_pure
  · intro s o r ht
    rcases (C16_optional_succeeds p hp.descends s o r).mp ht with ⟨v, h1, -⟩ | ⟨e, u, h1, -, -, rfl⟩
    · exact .opt (hp.ok _ _ _ h1)
    · exact .optNot (hp.err _ _ _ h1)
  · intro s e u ht
    have := (C16_optional_fails p hp.descends s e u).mp ht
    rw [hp.mild _ _ _ this.1] at this
    simp at this
  · intro s ds hm
    cases hm with
    | opt a =>
      obtain ⟨v, r, h1, rfl⟩ := hp.hits _ _ a
      exact ⟨_, r, (C16_optional_succeeds p hp.descends s _ r).mpr (.inl ⟨v, h1, rfl⟩), rfl⟩
    | optNot a =>
      obtain ⟨e, u, h1⟩ := hp.misses _ a
      exact ⟨_, s, (C16_optional_succeeds p hp.descends s _ s).mpr (.inr ⟨e, u, h1, hp.mild _ _ _ h1, rfl, rfl⟩), rfl⟩
  · intro s hm; cases hm

theorem settles_star [i : ParseError E] {p : Parser S O E} {g : Peg} (hp : SettlesPeg i p.parse g) :
    SettlesPeg i p.repeat.parse (.star g) := by
  have hrun : ∀ s t vs e u, RunOf p.parse s vs t → p.parse t = pure (.err e u) →
      (Peg.star g).Settled (arrived s) (some (arrived t)) := by
    intro s t vs e u hr he
    induction hr with
    | nil s => exact .starEnd (hp.err _ _ _ he)
    | cons h1 _ ih => exact .starMore (hp.ok _ _ _ h1) (ih he)
  refine ⟨tidy_repeat hp.tidy, ?_, ?_, ?_, ?_, ?_, ?_⟩
  · suffices H : ∀ buf s, (repeatLoop p.parse buf s).Avoids fun _ => True from fun s x hx => H [] s x trivial hx
    refine repeatLoop.fixpoint_induct (parse := p.parse) (motive := fun g => ∀ buf s, Run.Avoids (fun _ => True) (g buf s))
      Run.admissible_avoids₂ ?_
    intro k ih buf s
    refine Run.avoids_bind (fun f _ => hp.sane s f) (fun res h => ?_)
    cases res with
    | ok v r => exact ih _ _
    | err e u =>
      refine Run.avoids_ite (fun _ => Run.avoids_pure) (fun _ => ?_)
      have hw : u.rewind (anchor s) = pure s := U.rewind (hp.descends.err h)
      rw [hw]
      exact Run.avoids_pure
  · intro s e u ht
    obtain ⟨_, _, _, h1, -⟩ := (C17_repeat_fails p hp.descends s e u).mp ht
    exact hp.mild _ _ _ h1
  · rintro s ⟨vs, e⟩ r ht
    obtain ⟨h1, u, h2, -⟩ := (C17_repeat_succeeds p hp.descends s vs e r).mp ht
    exact hrun _ _ _ _ _ h1 h2
  · intro s e u ht
    obtain ⟨_, _, _, h1, h⟩ := (C17_repeat_fails p hp.descends s e u).mp ht
    rw [hp.mild _ _ _ h1] at h
    simp at h
  · intro s ds hm
    have H : ∀ g' cs r, Peg.Settled g' cs r → g' = .star g → ∀ s : S, arrived s = cs → ∀ ds, r = some ds →
        ∃ vs t e u, RunOf p.parse s vs t ∧ p.parse t = pure (.err e u) ∧ arrived t = ds := by
      intro g' cs r hm
      induction hm <;> intro hg s hs ds hds <;> cases hg
      case starEnd a _ =>
        subst hs
        simp at hds
        obtain ⟨e, u, h1⟩ := hp.misses _ a
        exact ⟨[], s, e, u, .nil s, h1, hds⟩
      case starMore a _ _ ih =>
        subst hs
        obtain ⟨v, r, h1, h2⟩ := hp.hits _ _ a
        obtain ⟨vs, t, e, u, h3, h4, h5⟩ := ih rfl r h2 ds hds
        exact ⟨v :: vs, t, e, u, .cons h1 h3, h4, h5⟩
    obtain ⟨vs, t, e, u, h1, h2, h3⟩ := H _ _ _ hm rfl s rfl ds rfl
    exact ⟨(vs, e), t, (C17_repeat_succeeds p hp.descends s vs e t).mpr ⟨h1, u, h2, hp.mild _ _ _ h2⟩, h3⟩
  · intro s hm
    have H : ∀ g' cs r, Peg.Settled g' cs r → g' = .star g → r ≠ none := by
      intro g' cs r hm
      induction hm <;> intro hg <;> cases hg
      case starEnd => simp
      case starMore ih => exact ih rfl
    exact absurd rfl (H _ _ _ hm rfl)

theorem settles_map [i : ParseError E] {p : Parser S O E} {g : Peg} (f : O → T) (hp : SettlesPeg i p.parse g) :
    SettlesPeg i (p.map f).parse g := by
  have key : ∀ s, (p.map f).parse s = (do
      match ← p.parse s with
      | .ok v r => return .ok (f v) r
      | .err e u => return .err e u) := by
    intro s
    cases h0 : p.parse s using Run.casesRun with
    | ret res => cases res <;> simp [Parser.map, h0]
    | fault f => simp [Parser.map, h0]
    | diverge => simp [Parser.map, h0]
  refine ⟨tidy_bind hp.tidy _ fun res => by cases res <;> exact ⟨_, rfl, rfl⟩, ?_, ?_, ?_, ?_, ?_, ?_⟩
  · intro s x
    rw [key]
    refine Run.avoids_bind (bad := fun _ => True) (fun f _ => hp.sane s f) (fun res _ => ?_) x trivial
    cases res <;> exact Run.avoids_pure
  · intro s e u h
    rw [key, Run.bind_eq_pure] at h
    obtain ⟨⟨v', r'⟩ | ⟨e, u⟩, h1, h2⟩ := h <;> simp [Run.pure_eq] at h2
    obtain ⟨rfl, rfl⟩ := h2
    exact hp.mild _ _ _ h1
  · intro s v r h
    rw [key, Run.bind_eq_pure] at h
    obtain ⟨⟨v', r'⟩ | ⟨e, u⟩, h1, h2⟩ := h <;> simp [Run.pure_eq] at h2
    obtain ⟨-, rfl⟩ := h2
    exact hp.ok _ _ _ h1
  · intro s v r h
    rw [key, Run.bind_eq_pure] at h
    obtain ⟨⟨v', r'⟩ | ⟨e, u⟩, h1, h2⟩ := h <;> simp [Run.pure_eq] at h2
    exact hp.err _ _ _ h1
  · intro s ds hm
    obtain ⟨v, r, h1, h2⟩ := hp.hits _ _ hm
    exact ⟨f v, r, by simp [key, h1], h2⟩
  · intro s hm
    obtain ⟨e, u, h1⟩ := hp.misses _ hm
    exact ⟨e, u, by simp [key, h1]⟩

theorem settles_mapErr [i : ParseError E] [j : ParseError T] {p : Parser S O E} {g : Peg} (f : E → T)
    (hf : ∀ e, shouldTerminate (f e) = false) (hp : SettlesPeg i p.parse g) :
    SettlesPeg j (p.mapErr f).parse g := by
  have key : ∀ s, (p.mapErr f).parse s = (do
      match ← p.parse s with
      | .ok v r => return .ok v r
      | .err e u => return .err (f e) u) := by
    intro s
    cases h0 : p.parse s using Run.casesRun with
    | ret res => cases res <;> simp [Parser.mapErr, h0]
    | fault f => simp [Parser.mapErr, h0]
    | diverge => simp [Parser.mapErr, h0]
  refine ⟨tidy_bind hp.tidy _ fun res => by cases res <;> exact ⟨_, rfl, rfl⟩, ?_, ?_, ?_, ?_, ?_, ?_⟩
  · intro s x
    rw [key]
    refine Run.avoids_bind (bad := fun _ => True) (fun f _ => hp.sane s f) (fun res _ => ?_) x trivial
    cases res <;> exact Run.avoids_pure
  · intro s e u h
    rw [key, Run.bind_eq_pure] at h
    obtain ⟨⟨v', r'⟩ | ⟨e, u⟩, h1, h2⟩ := h <;> simp [Run.pure_eq] at h2
    obtain ⟨rfl, rfl⟩ := h2
    exact hf _
  · intro s v r h
    rw [key, Run.bind_eq_pure] at h
    obtain ⟨⟨v', r'⟩ | ⟨e, u⟩, h1, h2⟩ := h <;> simp [Run.pure_eq] at h2
    obtain ⟨-, rfl⟩ := h2
    exact hp.ok _ _ _ h1
  · intro s v r h
    rw [key, Run.bind_eq_pure] at h
    obtain ⟨⟨v', r'⟩ | ⟨e, u⟩, h1, h2⟩ := h <;> simp [Run.pure_eq] at h2
    exact hp.err _ _ _ h1
  · intro s ds hm
    obtain ⟨v, r, h1, h2⟩ := hp.hits _ _ hm
    exact ⟨v, r, by simp [key, h1], h2⟩
  · intro s hm
    obtain ⟨e, u, h1⟩ := hp.misses _ hm
    exact ⟨f e, u, by simp [key, h1]⟩

theorem settles {i : ParseError E} {p : Parser S O E} {g : Peg} (h : Spells i p g) : SettlesPeg i p.parse g := by
  induction h with
  | char c => exact settles_char c
  | any => exact settles_any
  | seq _ _ h1 h2 => exact settles_seq h1 h2
  | alt _ _ h1 h2 => exact settles_alt h1 h2
  | opt _ h => exact settles_opt h
  | star _ h => exact settles_star h
  | map f _ h => exact settles_map f h
  | mapErr f hf _ h => exact settles_mapErr f hf h

/-- C120: on input that has not all arrived, a parser that spells out a grammar succeeds, leaving `ds` of what has arrived,
exactly when that is settled. -/
theorem C120_succeeds [i : ParseError E] {p : Parser S O E} {g : Peg} (h : Spells i p g) (s : S) (ds : List Char) :
    (∃ v r, p.parse s = pure (.ok v r) ∧ arrived r = ds) ↔ g.Settled (arrived s) (some ds) := by
  constructor
  · rintro ⟨v, r, h1, rfl⟩; exact (settles h).ok _ _ _ h1
  · exact (settles h).hits s ds

/-- C120: it fails exactly when that is settled. -/
theorem C120_fails [i : ParseError E] {p : Parser S O E} {g : Peg} (h : Spells i p g) (s : S) :
    (∃ e u, p.parse s = pure (.err e u)) ↔ g.Settled (arrived s) none := by
  constructor
  · rintro ⟨v, r, h1⟩; exact (settles h).err _ _ _ h1
  · exact (settles h).misses s

/-- C120: it waits (or repeats nothing for ever) exactly when nothing is settled, and never panics. -/
theorem C120_waits [i : ParseError E] {p : Parser S O E} {g : Peg} (h : Spells i p g) (s : S) :
    (p.parse s = Run.diverge ↔ ∀ r, ¬ g.Settled (arrived s) r) ∧ ∀ x, p.parse s ≠ Run.fault x := by
  refine ⟨⟨?_, ?_⟩, (settles h).sane s⟩
  · rintro h1 (_ | ds) hm
    · obtain ⟨e, u, h2⟩ := (settles h).misses s hm; rw [h1] at h2; simp at h2
    · obtain ⟨v, r, h2, -⟩ := (settles h).hits s ds hm; rw [h1] at h2; simp at h2
  · intro hn
    cases h1 : p.parse s using Run.casesRun with
    | ret res =>
      rcases res with ⟨v, r⟩ | ⟨e, u⟩
      · exact absurd ((settles h).ok _ _ _ h1) (hn _)
      · exact absurd ((settles h).err _ _ _ h1) (hn _)
    | fault f => exact absurd h1 ((settles h).sane s f)
    | diverge => rfl

end

/-! ## Whatever comes -/

section
variable {Seg Item : Type} [ItemSegment Seg Item] [Sequence S Seg] [Sequence S' Seg] [RewindSequence S] [RewindSequence S']

/-- Input that has not all arrived, and the same input when `more` has come and nothing else will. -/
def onceCome (S S' : Type) {Seg Item : Type} [ItemSegment Seg Item] [Sequence S Seg] [Sequence S' Seg]
    [RewindSequence S] [RewindSequence S'] [U : Unfinished S] [LawfulSequence S'] [R' : LawfulRewind S'] (more : List Item) :
    TwinLaw S S' where
  Similar s s' := content s' = arrived s ++ more
  From s s' r r' := U.Desc s r ∧ R'.Desc s' r'
  refl {s s'} _ := ⟨U.refl s, R'.refl s'⟩
  trans h1 h2 := ⟨U.trans h1.1 h2.1, R'.trans h1.2 h2.2⟩
  rewind {s _ s' _} h _ h2 := .inl ⟨s, s', U.rewind h2.1, R'.rewind h2.2, h, U.refl s, R'.refl s'⟩

end

section
variable [Sequence S Str] [Sequence S' Str] [RewindSequence S] [RewindSequence S'] [U : Unfinished S] [LawfulSequence S']
  [R' : LawfulRewind S']

theorem charTwin_early (more : List Char) {p : Parser S O E} {p' : Parser S' O E} (h : CharTwin S S' p p') :
    SimParse (onceCome S S' more) p.parse p'.parse := by
  intro s s' hs
  have hs : content s' = arrived s ++ more := hs
  cases h with
  | any =>
    cases hc : arrived s with
    | nil => rw [(C120_any_char s).2 hc]; exact Run.sim_diverge
    | cons c cs =>
      obtain ⟨r, h1, h2, h3⟩ := (C120_any_char s).1 c cs hc
      rw [hc] at hs
      obtain ⟨r', h4, h5⟩ := (C09_any_char s').1 c (cs ++ more) hs
      rw [h1, h4]
      exact Run.sim_pure (.ok ⟨by show _ = _ ++ _; rw [h5, h2], h3, (tidy_anyChar s').1 _ h4⟩)
  | the c =>
    cases hc : arrived s with
    | nil => rw [(C120_the_char c s).2.2 hc]; exact Run.sim_diverge
    | cons d cs =>
      rw [hc] at hs
      by_cases hd : d = c
      · subst hd
        obtain ⟨r, h1, h2, h3⟩ := (C120_the_char d s).1 cs hc
        obtain ⟨r', h4, h5⟩ := (C10_the_char d s').1 (cs ++ more) hs
        rw [h1, h4]
        exact Run.sim_pure (.ok ⟨by show _ = _ ++ _; rw [h5, h2], h3, (tidy_theChar d s').1 _ h4⟩)
      · obtain ⟨u, h1, h2, h3⟩ := (C120_the_char c s).2.1 d cs hc hd
        obtain ⟨u', h4, h5⟩ := (C10_the_char c s').2 (by rw [hs]; simpa using hd)
        rw [h1, h4]
        exact Run.sim_pure (.err ⟨by show _ = _ ++ _; rw [h5, h2, hs, hc], h3, (tidy_theChar c s').1 _ h4⟩)

/-- C120 (texts): what a grammar returns before all its input has arrived, it returns on every input that begins so, however
that is cut, and leaves what it left and what came since; if it panics, it panics there too. -/
theorem C120_early_text {p : Parser S O E} {p' : Parser S' O E} (h : BuiltTwin (CharTwin S S') p p') (more : List Char)
    (s : S) (s' : S') (hs : content s' = arrived s ++ more) :
    (∀ res, p.parse s = pure res → ∃ res', p'.parse s' = pure res' ∧
      SameResult (fun r r' => content r' = arrived r ++ more) res res') ∧
    (∀ f, p.parse s = Run.fault f → p'.parse s' = Run.fault f) := by
  rcases built_sim (L := onceCome S S' more) (charTwin_early more) h s s' hs with ⟨a, b, h1, h2, h3⟩ | ⟨f, h1, h2⟩ | h1 <;> rw [h1]
  · refine ⟨fun res h => ?_, fun f h => by simp at h⟩
    rw [← Run.pure_inj'.mp h]
    exact ⟨b, h2, h3.mono fun _ _ h => h.1⟩
  · exact ⟨fun res h => by simp at h, fun g h => by simp at h; rw [h2, h]⟩
  · exact ⟨fun res h => by simp at h, fun g h => by simp at h⟩

end

section
variable {α : Type} [BEq α] [Sequence S (List α)] [Sequence S' (List α)] [RewindSequence S] [RewindSequence S']
  [U : Unfinished S] [LawfulSequence S'] [R' : LawfulRewind S']

theorem itemTwin_early (more : List α) {p : Parser S O E} {p' : Parser S' O E} (h : ItemTwin α S S' p p') :
    SimParse (onceCome S S' more) p.parse p'.parse := by
  intro s s' hs
  have hs : content s' = arrived s ++ more := hs
  cases h with
  | any =>
    cases hc : arrived s with
    | nil => rw [(C120_any_item s).2 hc]; exact Run.sim_diverge
    | cons c cs =>
      obtain ⟨r, h1, h2, h3⟩ := (C120_any_item s).1 c cs hc
      rw [hc] at hs
      obtain ⟨r', h4, h5⟩ := (C09_any_item s').1 c (cs ++ more) hs
      rw [h1, h4]
      exact Run.sim_pure (.ok ⟨by show _ = _ ++ _; rw [h5, h2], h3, (tidy_anyItem s').1 _ h4⟩)
  | the x =>
    cases hc : arrived s with
    | nil => rw [(C120_the_item x s).2.2 hc]; exact Run.sim_diverge
    | cons y ys =>
      rw [hc] at hs
      cases hy : (y == x) with
      | true =>
        obtain ⟨r, h1, h2, h3⟩ := (C120_the_item x s).1 y ys hc hy
        obtain ⟨r', h4, h5⟩ := (C10_the_item x s').1 y (ys ++ more) hs hy
        rw [h1, h4]
        exact Run.sim_pure (.ok ⟨by show _ = _ ++ _; rw [h5, h2], h3, (tidy_theItem x s').1 _ h4⟩)
      | false =>
        obtain ⟨u, h1, h2, h3⟩ := (C120_the_item x s).2.1 y ys hc hy
        obtain ⟨u', h4, h5⟩ := (C10_the_item x s').2 (by rw [hs]; simpa using hy)
        rw [h1, h4]
        exact Run.sim_pure (.err ⟨by show _ = _ ++ _; rw [h5, h2, hs, hc], h3, (tidy_theItem x s').1 _ h4⟩)

/-- C120 (items). -/
theorem C120_early_items {p : Parser S O E} {p' : Parser S' O E} (h : BuiltTwin (ItemTwin α S S') p p') (more : List α)
    (s : S) (s' : S') (hs : content s' = arrived s ++ more) :
    (∀ res, p.parse s = pure res → ∃ res', p'.parse s' = pure res' ∧
      SameResult (fun r r' => content r' = arrived r ++ more) res res') ∧
    (∀ f, p.parse s = Run.fault f → p'.parse s' = Run.fault f) := by
  rcases built_sim (L := onceCome S S' more) (itemTwin_early more) h s s' hs with ⟨a, b, h1, h2, h3⟩ | ⟨f, h1, h2⟩ | h1 <;> rw [h1]
  · refine ⟨fun res h => ?_, fun f h => by simp at h⟩
    rw [← Run.pure_inj'.mp h]
    exact ⟨b, h2, h3.mono fun _ _ h => h.1⟩
  · exact ⟨fun res h => by simp at h, fun g h => by simp at h; rw [h2, h]⟩
  · exact ⟨fun res h => by simp at h, fun g h => by simp at h⟩

end

/-- What `Settled` claims: a settled verdict is the verdict whatever comes. -/
theorem C120_settled_is_final {g : Peg} {cs : List Char} {r : Option (List Char)} (h : g.Settled cs r) (more : List Char) :
    g.Matches (cs ++ more) (r.map (· ++ more)) := by
  induction h with
  | char c cs => exact .char c _
  | charFails c d cs hd => exact .charFails c _ (by simpa using hd)
  | any c cs => exact .any c _
  | seq _ _ h1 h2 => exact .seq h1 h2
  | seqFails _ h1 => exact .seqFails h1
  | altFirst _ h1 => exact .altFirst h1
  | altSecond _ _ h1 h2 => exact .altSecond h1 h2
  | opt _ h1 => exact .opt h1
  | optNot _ h1 => exact .optNot h1
  | starEnd _ h1 => exact .starEnd h1
  | starMore _ _ h1 h2 => exact .starMore h1 h2

/-- Non-vacuity of C120: `a*` is settled by `aab`, leaving `b`, whether or not it came in one piece ... -/
example : ∃ v r, (theChar 'a').repeat.parse (⟨⟨0, [['a'], [], ['a', 'b']]⟩⟩ : Arriving Str Char) = pure (.ok v r) ∧
    arrived r = ['b'] :=
  (C120_succeeds (.star (.char 'a')) (⟨⟨0, [['a'], [], ['a', 'b']]⟩⟩ : Arriving Str Char) ['b']).mpr
    (.starMore (.char 'a' _) (.starMore (.char 'a' _) (.starEnd (.charFails 'a' 'b' _ (by decide)))))

/-- ... but by no number of `a`s alone: `repeat` then waits for what comes. -/
example (n : Nat) : (theChar 'a').repeat.parse (⟨⟨0, [List.replicate n 'a']⟩⟩ : Arriving Str Char) = Run.diverge := by
  refine (C120_waits (.star (.char 'a')) _).1.mpr fun r => ?_
  show ¬ (Peg.star (.char 'a')).Settled (List.replicate n 'a' ++ []) r
  rw [List.append_nil]
  induction n with
  | zero => intro h; cases h with
    | starEnd h => cases h
    | starMore h _ => cases h
  | succ n ih => intro h; cases h with
    | starEnd h => cases h with
      | charFails _ _ _ h => exact h rfl
    | starMore h h2 => cases h with
      | char => exact ih h2

/-- Non-vacuity of `C120_early_text`: such a grammar, and such inputs. -/
example : BuiltTwin (CharTwin (Arriving Str Char) StrRef) (theChar 'a').repeat (theChar 'a').repeat ∧
    content ({ alloc := 1, off := 0, text := ⟨['a', 'b', 'c', 'd']⟩ } : StrRef) =
      arrived (⟨⟨0, [['a'], ['b']]⟩⟩ : Arriving Str Char) ++ ['c', 'd'] :=
  ⟨.repeat (.leaf (.the 'a')), rfl⟩

end Parcom
