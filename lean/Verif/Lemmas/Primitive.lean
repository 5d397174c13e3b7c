import Verif.Lemmas.Lawful
import Verif.Model.Primitive
/-!
# The loops of the primitive parsers over segment streams
-/
namespace Parcom
open Spec Sequence

variable {S : Type}

/-! ## Finding the first item -/

section
variable [Sequence S Str]

theorem anyCharLoop_found {st : Stream S} {es : List Str} {seg : Str} {c : Char} {cs : List Char}
    (h : Delivers st (es ++ [seg])) (he : ∀ e ∈ es, e.chars = []) (hs : seg.chars = c :: cs) :
    ∃ st', Reads st st' ∧
      anyCharLoop st = (do let s ← advance (release st') c.utf8Size; return done c s) := by
  induction es generalizing st with
  | nil =>
    cases h with
    | seg f hn ht =>
      exact ⟨f 0, .step (hn 0) (.refl _), by rw [anyCharLoop, hn]; simp [hs]⟩
  | cons e es ih =>
    cases h with
    | seg f hn ht =>
      obtain ⟨st', h1, h2⟩ := ih (ht 0) (fun e h => he e (List.mem_cons_of_mem _ h))
      exact ⟨st', .step (hn 0) h1, by rw [anyCharLoop, hn]; simp [he e, h2]⟩

theorem anyCharLoop_missing {st : Stream S} {es : List Str} (h : Yields st es) (he : ∀ e ∈ es, e.chars = []) :
    ∃ st', Reads st st' ∧ anyCharLoop st = pure (failAt ⟨()⟩ (release st')) := by
  induction es generalizing st with
  | nil =>
    cases h with
    | done f hn => exact ⟨f 0, .step (hn 0) (.refl _), by rw [anyCharLoop, hn]; simp⟩
  | cons e es ih =>
    cases h with
    | seg f hn ht =>
      obtain ⟨st', h1, h2⟩ := ih (ht 0) (fun e h => he e (List.mem_cons_of_mem _ h))
      exact ⟨st', .step (hn 0) h1, by rw [anyCharLoop, hn]; simp [he e, h2]⟩

theorem theCharLoop_found {st : Stream S} {es : List Str} {seg : Str} {c d : Char} {cs : List Char}
    (h : Delivers st (es ++ [seg])) (he : ∀ e ∈ es, e.chars = []) (hs : seg.chars = d :: cs) :
    ∃ st', Reads st st' ∧
      theCharLoop c st = if d = c then (do let s ← advance (release st') c.utf8Size; return done () s)
        else pure (failAt ⟨()⟩ (release st')) := by
  induction es generalizing st with
  | nil =>
    cases h with
    | seg f hn ht =>
      exact ⟨f c.utf8Size, .step (hn _) (.refl _), by rw [theCharLoop, hn]; simp [hs]⟩
  | cons e es ih =>
    cases h with
    | seg f hn ht =>
      obtain ⟨st', h1, h2⟩ := ih (ht c.utf8Size) (fun e h => he e (List.mem_cons_of_mem _ h))
      exact ⟨st', .step (hn _) h1, by rw [theCharLoop, hn]; simp [he e, h2]⟩

theorem theCharLoop_missing {st : Stream S} {es : List Str} (c : Char) (h : Yields st es) (he : ∀ e ∈ es, e.chars = []) :
    ∃ st', Reads st st' ∧ theCharLoop c st = pure (failAt ⟨()⟩ (release st')) := by
  induction es generalizing st with
  | nil =>
    cases h with
    | done f hn => exact ⟨f c.utf8Size, .step (hn _) (.refl _), by rw [theCharLoop, hn]; simp⟩
  | cons e es ih =>
    cases h with
    | seg f hn ht =>
      obtain ⟨st', h1, h2⟩ := ih (ht c.utf8Size) (fun e h => he e (List.mem_cons_of_mem _ h))
      exact ⟨st', .step (hn _) h1, by rw [theCharLoop, hn]; simp [he e, h2]⟩

end

section
variable {α : Type} [Sequence S (List α)]

theorem anyItemLoop_found {st : Stream S} {es : List (List α)} {c : α} {cs : List α}
    (h : Delivers st (es ++ [c :: cs])) (he : ∀ e ∈ es, e = []) :
    ∃ st', Reads st st' ∧
      anyItemLoop st = (do let s ← advance (release st') 1; return done c s) := by
  induction es generalizing st with
  | nil =>
    cases h with
    | seg f hn ht => exact ⟨f 0, .step (hn 0) (.refl _), by rw [anyItemLoop, hn]; simp⟩
  | cons e es ih =>
    cases h with
    | seg f hn ht =>
      obtain ⟨st', h1, h2⟩ := ih (ht 0) (fun e h => he e (List.mem_cons_of_mem _ h))
      exact ⟨st', .step (hn 0) h1, by rw [anyItemLoop, hn]; simp [he e, h2]⟩

theorem anyItemLoop_missing {st : Stream S} {es : List (List α)} (h : Yields st es) (he : ∀ e ∈ es, e = []) :
    ∃ st', Reads st st' ∧ anyItemLoop st = pure (failAt ⟨()⟩ (release st')) := by
  induction es generalizing st with
  | nil =>
    cases h with
    | done f hn => exact ⟨f 0, .step (hn 0) (.refl _), by rw [anyItemLoop, hn]; simp⟩
  | cons e es ih =>
    cases h with
    | seg f hn ht =>
      obtain ⟨st', h1, h2⟩ := ih (ht 0) (fun e h => he e (List.mem_cons_of_mem _ h))
      exact ⟨st', .step (hn 0) h1, by rw [anyItemLoop, hn]; simp [he e, h2]⟩

variable [BEq α]

theorem theItemLoop_found {st : Stream S} {es : List (List α)} {c d : α} {cs : List α}
    (h : Delivers st (es ++ [d :: cs])) (he : ∀ e ∈ es, e = []) :
    ∃ st', Reads st st' ∧
      theItemLoop c st = if d == c then (do let s ← advance (release st') 1; return done () s)
        else pure (failAt ⟨()⟩ (release st')) := by
  induction es generalizing st with
  | nil =>
    cases h with
    | seg f hn ht => exact ⟨f 1, .step (hn _) (.refl _), by rw [theItemLoop, hn]; simp⟩
  | cons e es ih =>
    cases h with
    | seg f hn ht =>
      obtain ⟨st', h1, h2⟩ := ih (ht 1) (fun e h => he e (List.mem_cons_of_mem _ h))
      exact ⟨st', .step (hn _) h1, by rw [theItemLoop, hn]; simp [he e, h2]⟩

theorem theItemLoop_missing {st : Stream S} {es : List (List α)} (c : α) (h : Yields st es) (he : ∀ e ∈ es, e = []) :
    ∃ st', Reads st st' ∧ theItemLoop c st = pure (failAt ⟨()⟩ (release st')) := by
  induction es generalizing st with
  | nil =>
    cases h with
    | done f hn => exact ⟨f 1, .step (hn _) (.refl _), by rw [theItemLoop, hn]; simp⟩
  | cons e es ih =>
    cases h with
    | seg f hn ht =>
      obtain ⟨st', h1, h2⟩ := ih (ht 1) (fun e h => he e (List.mem_cons_of_mem _ h))
      exact ⟨st', .step (hn _) h1, by rw [theItemLoop, hn]; simp [he e, h2]⟩

end

/-- A list of lists is all empty, or begins with empty ones and then one with a first item. -/
theorem first_item {α β : Type} (f : β → List α) (l : List β) :
    (∀ e ∈ l, f e = []) ∨ ∃ es e l' x xs, l = es ++ e :: l' ∧ (∀ e ∈ es, f e = []) ∧ f e = x :: xs := by
  induction l with
  | nil => left; simp
  | cons e l ih =>
    rcases he : f e with _ | ⟨x, xs⟩
    · rcases ih with h | ⟨es, e', l', x, xs, rfl, h2, h3⟩
      · left; simpa [he] using h
      · right; exact ⟨e :: es, e', l', x, xs, rfl, by simpa [he] using h2, h3⟩
    · right; exact ⟨[], e, l, x, xs, rfl, by simp, he⟩

/-- The first item of the content and where the stream delivers it. -/
theorem content_cases {Seg Item : Type} [Sequence S Seg] [ItemSegment Seg Item] [L : LawfulSequence S] (s : S) :
    (content s = [] ∧ Yields (segments s) (segs s) ∧ ∀ e ∈ segs s, ItemSegment.items e = []) ∨
    ∃ es e x xs post, content s = x :: post ∧ Delivers (segments s) (es ++ [e]) ∧
      (∀ e ∈ es, ItemSegment.items e = []) ∧ ItemSegment.items e = x :: xs := by
  have hy := L.yields s
  have hc := L.concat s
  rcases first_item (ItemSegment.items (Seg := Seg)) (segs s) with h | ⟨es, e, l', x, xs, h1, h2, h3⟩
  · left
    refine ⟨?_, hy, h⟩
    show L.content s = []
    rw [← hc, List.flatMap_eq_nil_iff]
    exact h
  · right
    have h1' : L.segs s = es ++ e :: l' := h1
    refine ⟨es, e, x, xs, xs ++ l'.flatMap ItemSegment.items, ?_, ?_, h2, h3⟩
    · show L.content s = _
      have h4 : es.flatMap ItemSegment.items = [] := by simpa using h2
      rw [← hc, h1']
      simp [h3, h4]
    · rw [h1'] at hy
      exact Yields.delivers (l' := l') (by simpa using hy)

/-! ## Where a failure leaves the input -/

/-- A failing result whose location is the input after reading on in its stream. -/
def FailsInPlace {Seg O E : Type} [Sequence S Seg] (st : Stream S) (r : Run (PResult S O E)) : Prop :=
  ∀ e u, r = pure (.err e u) → ∃ st', Reads st st' ∧ u.val = release st'

theorem failsInPlace_diverge {Seg O E : Type} [Sequence S Seg] (st : Stream S) :
    FailsInPlace (O := O) (E := E) st Run.diverge := by
  intro e u h; simp at h

theorem anyCharLoop_fails [Sequence S Str] (st : Stream S) : FailsInPlace st (anyCharLoop st) := by
  revert st
  refine anyCharLoop.fixpoint_induct (motive := fun f => ∀ st, FailsInPlace st (f st)) ?_ ?_
  · exact Run.admissible_fun _ fun st => failsInPlace_diverge st
  · intro f ih st e u h
    rw [Run.bind_eq_pure] at h
    obtain ⟨⟨o, st'⟩, h1, h2⟩ := h
    rcases o with _ | seg
    · simp [failAt] at h2
      exact ⟨st', .step h1 (.refl _), by rw [← h2]⟩
    · simp only at h2
      rcases hh : seg.chars.head? with _ | c
      · rw [hh] at h2
        obtain ⟨st'', h3, h4⟩ := ih st' e u h2
        exact ⟨st'', .step h1 h3, h4⟩
      · rw [hh] at h2
        simp only [Run.bind_eq_ret] at h2
        obtain ⟨s, _, h3⟩ := h2
        simp [done] at h3

theorem theCharLoop_fails [Sequence S Str] (c : Char) (st : Stream S) : FailsInPlace st (theCharLoop c st) := by
  revert st
  refine theCharLoop.fixpoint_induct (c := c) (motive := fun f => ∀ st, FailsInPlace st (f st)) ?_ ?_
  · exact Run.admissible_fun _ fun st => failsInPlace_diverge st
  · intro f ih st e u h
    rw [Run.bind_eq_pure] at h
    obtain ⟨⟨o, st'⟩, h1, h2⟩ := h
    rcases o with _ | seg
    · simp [failAt] at h2
      exact ⟨st', .step h1 (.refl _), by rw [← h2]⟩
    · simp only at h2
      rcases hh : seg.chars.head? with _ | d
      · rw [hh] at h2
        obtain ⟨st'', h3, h4⟩ := ih st' e u h2
        exact ⟨st'', .step h1 h3, h4⟩
      · rw [hh] at h2
        simp only at h2
        split at h2
        · simp only [Run.bind_eq_ret] at h2
          obtain ⟨s, _, h3⟩ := h2
          simp [done] at h3
        · simp [failAt] at h2
          exact ⟨st', .step h1 (.refl _), by rw [← h2]⟩

theorem anyItemLoop_fails {α : Type} [Sequence S (List α)] (st : Stream S) : FailsInPlace st (anyItemLoop st) := by
  revert st
  refine anyItemLoop.fixpoint_induct (motive := fun f => ∀ st, FailsInPlace st (f st)) ?_ ?_
  · exact Run.admissible_fun _ fun st => failsInPlace_diverge st
  · intro f ih st e u h
    rw [Run.bind_eq_pure] at h
    obtain ⟨⟨o, st'⟩, h1, h2⟩ := h
    rcases o with _ | seg
    · simp [failAt] at h2
      exact ⟨st', .step h1 (.refl _), by rw [← h2]⟩
    · rcases seg with _ | ⟨x, xs⟩
      · obtain ⟨st'', h3, h4⟩ := ih st' e u h2
        exact ⟨st'', .step h1 h3, h4⟩
      · simp only [Run.bind_eq_ret] at h2
        obtain ⟨s, _, h3⟩ := h2
        simp [done] at h3

theorem theItemLoop_fails {α : Type} [BEq α] [Sequence S (List α)] (c : α) (st : Stream S) :
    FailsInPlace st (theItemLoop c st) := by
  revert st
  refine theItemLoop.fixpoint_induct (x := c) (motive := fun f => ∀ st, FailsInPlace st (f st)) ?_ ?_
  · exact Run.admissible_fun _ fun st => failsInPlace_diverge st
  · intro f ih st e u h
    rw [Run.bind_eq_pure] at h
    obtain ⟨⟨o, st'⟩, h1, h2⟩ := h
    rcases o with _ | seg
    · simp [failAt] at h2
      exact ⟨st', .step h1 (.refl _), by rw [← h2]⟩
    · rcases seg with _ | ⟨x, xs⟩
      · obtain ⟨st'', h3, h4⟩ := ih st' e u h2
        exact ⟨st'', .step h1 h3, h4⟩
      · simp only at h2
        split at h2
        · simp only [Run.bind_eq_ret] at h2
          obtain ⟨s, _, h3⟩ := h2
          simp [done] at h3
        · simp [failAt] at h2
          exact ⟨st', .step h1 (.refl _), by rw [← h2]⟩

theorem atomLoop_fails {Seg : Type} [SequenceSegment Seg] [BEq Seg] [Sequence S Seg] (p : Seg) (st : Stream S) :
    FailsInPlace st (atomLoop p st) := by
  revert p st
  refine atomLoop.fixpoint_induct (motive := fun f => ∀ p st, FailsInPlace st (f p st)) ?_ ?_
  · exact Run.admissible_fun₂ _ fun p st => failsInPlace_diverge st
  · intro f ih p st e u h
    rw [Run.bind_eq_pure] at h
    obtain ⟨⟨o, st'⟩, h1, h2⟩ := h
    have here : ∀ {r : Run (PResult S Unit (Miss Unit))}, r = pure (failAt ⟨()⟩ (release st')) →
        r = Run.ret (.err e u) → ∃ st'', Reads st st'' ∧ u.val = release st'' := by
      intro r h3 h4
      rw [h3] at h4
      simp [failAt] at h4
      exact ⟨st', .step h1 (.refl _), by rw [← h4]⟩
    rcases o with _ | seg
    · exact here rfl h2
    · simp only at h2
      split at h2
      · simp only [Run.bind_eq_ret] at h2
        obtain ⟨⟨a, b⟩, _, h3⟩ := h2
        simp only at h3
        split at h3
        · simp only [Run.bind_eq_ret] at h3
          obtain ⟨s, _, h3⟩ := h3
          simp [done] at h3
        · exact here rfl h3
      · simp only [Run.bind_eq_ret] at h2
        obtain ⟨⟨a, b⟩, _, h3⟩ := h2
        simp only at h3
        split at h3
        · exact here rfl h3
        · obtain ⟨st'', h4, h5⟩ := ih b st' e u h3
          exact ⟨st'', .step h1 h4, h5⟩

end Parcom
