import Verif.Props.Combinator
import Verif.Props.Primitive
/-!
# C97: repeating a keyword

`example/src/repeat.rs` parses `atom("text").map(|_| "text").repeat()`; here any keyword and any value.
-/
namespace Parcom
open Spec

/-- `example/src/repeat.rs:9`, for any keyword and any closure. -/
def keywords {T : Type} (p : Str) (f : Unit → T) : Parser StrRef (List T × Miss Unit) (Miss Unit) := ((atom p).map f).repeat

/-- `k` copies of a text. -/
def copies (k : Nat) (p : List Char) : List Char := (List.replicate k p).flatten

theorem copies_succ (k : Nat) (p : List Char) : copies (k + 1) p = p ++ copies k p := by
  simp [copies, List.replicate_succ]

theorem keywords_run {T : Type} (p : Str) (f : Unit → T) (k : Nat) (buf : List T) (s : StrRef) (r : List Char)
    (hs : s.text.chars = copies k p.chars ++ r) :
    repeatLoop ((atom p).map f).parse buf s = repeatLoop ((atom p).map f).parse (buf ++ List.replicate k (f ()))
      ({ alloc := s.alloc, off := s.off + k * textBytes p.chars, text := ⟨r⟩ } : StrRef) := by
  induction k generalizing buf s with
  | zero =>
    have : s = { alloc := s.alloc, off := s.off + 0 * textBytes p.chars, text := ⟨r⟩ } := by
      obtain ⟨a, o, ⟨t⟩⟩ := s
      simp [copies] at hs ⊢
      exact hs
    rw [← this]; simp
  | succ k ih =>
    rw [copies_succ, List.append_assoc] at hs
    rw [repeatLoop, show ((atom p).map f).parse s = _ from by
      show ((atom p).parse s >>= _) = _
      rw [(atom_str p s).1 _ hs]]
    simp only [Run.pure_bind']
    rw [ih (buf ++ [f ()]) { alloc := s.alloc, off := s.off + textBytes p.chars, text := ⟨copies k p.chars ++ r⟩ } rfl]
    simp only [List.append_assoc, List.singleton_append, ← List.replicate_succ, Nat.add_mul, Nat.one_mul]
    rw [show s.off + textBytes p.chars + k * textBytes p.chars = s.off + (k * textBytes p.chars + textBytes p.chars) by omega]

/-- C97: repeating a keyword on a text gives one value for each copy of the keyword at the beginning and leaves what follows
the last copy; it panics exactly when the keyword's size cuts a char there; it never fails and always comes back. -/
theorem C97_keywords {T : Type} (p : Str) (f : Unit → T) (k : Nat) (s : StrRef) (r : List Char)
    (hs : s.text.chars = copies k p.chars ++ r) (hr : ¬ p.chars <+: r) :
    (Aligned p.chars r → (keywords p f).parse s = pure (.ok (List.replicate k (f ()), ⟨()⟩)
      { alloc := s.alloc, off := s.off + k * textBytes p.chars, text := ⟨r⟩ })) ∧
    (¬ Aligned p.chars r → (keywords p f).parse s = Run.fault .charBoundary) := by
  have hrun : (keywords p f).parse s = _ := keywords_run p f k [] s r hs
  obtain ⟨-, h2, h3⟩ := atom_str p { alloc := s.alloc, off := s.off + k * textBytes p.chars, text := ⟨r⟩ }
  rw [hrun, repeatLoop]
  constructor
  · intro ha
    rw [show ((atom p).map f).parse _ = ((atom p).parse _ >>= _) from rfl, h2 hr ha]
    simp [RewindSequence.anchor, UnknownLocation.rewind, RewindSequence.rewind, StrRef.rewind, shouldTerminate, ParseError.shouldTerminate, done]
  · intro ha
    rw [show ((atom p).map f).parse _ = ((atom p).parse _ >>= _) from rfl, h3 ha]
    rfl

/-- Every text is of that form, for a keyword that is not empty. -/
theorem C97_any (p : List Char) (hp : p ≠ []) (t : List Char) : ∃ k r, t = copies k p ++ r ∧ ¬ p <+: r := by
  generalize hn : t.length = n
  induction n using Nat.strongRecOn generalizing t with
  | _ n ih =>
    by_cases h : p <+: t
    · obtain ⟨t', rfl⟩ := h
      have := List.length_pos_iff.mpr hp
      obtain ⟨k, r, h1, h2⟩ := ih t'.length (by rw [← hn]; simp; omega) t' rfl
      exact ⟨k + 1, r, by rw [copies_succ, h1]; simp, h2⟩
    · exact ⟨0, t, by simp [copies], h⟩

/-- The empty keyword makes it hang. -/
theorem C97_empty {T : Type} (f : Unit → T) (s : StrRef) : (keywords ⟨[]⟩ f).parse s = Run.diverge := by
  suffices h : ∀ buf s, repeatLoop ((atom (⟨[]⟩ : Str)).map f).parse buf s = Run.diverge from h [] s
  refine repeatLoop.fixpoint_induct (parse := ((atom (⟨[]⟩ : Str)).map f).parse)
    (motive := fun g => ∀ buf s, g buf s = Run.diverge) (Run.admissible_fun₂ (fun _ _ x => x = Run.diverge) fun _ _ => rfl) ?_
  intro g ih buf s
  dsimp only
  rw [show ((atom (⟨[]⟩ : Str)).map f).parse s = ((atom (⟨[]⟩ : Str)).parse s >>= _) from rfl,
    (atom_str ⟨[]⟩ s).1 s.text.chars rfl]
  simp only [Run.pure_bind']
  exact ih _ _

/-- The text of the example (repeat.rs:10). -/
example : (keywords ⟨"text".toList⟩ fun _ => "text").parse { alloc := 1, off := 0, text := ⟨"texttexttextaaaa".toList⟩ } =
    pure (.ok (["text", "text", "text"], ⟨()⟩) { alloc := 1, off := 12, text := ⟨"aaaa".toList⟩ }) :=
  (C97_keywords ⟨"text".toList⟩ (fun _ => "text") 3 _ "aaaa".toList rfl (by decide)).1 (.inl ⟨"aaaa".toList, by decide, by decide⟩)

/-- A text on which it panics: the fourth byte after the first copy lies inside a char. -/
example : (keywords ⟨"text".toList⟩ fun _ => "text").parse { alloc := 1, off := 0, text := ⟨"texttexあ".toList⟩ } =
    Run.fault .charBoundary := by
  refine (C97_keywords ⟨"text".toList⟩ (fun _ => "text") 1 _ "texあ".toList rfl (by decide)).2 ?_
  rintro (⟨q, h1, h2⟩ | ⟨q, h1, h2⟩)
  · have h3 := h1.length_le
    rw [List.prefix_iff_eq_take] at h1
    have : ∀ n ≤ 4, textBytes ("texあ".toList.take n) ≠ 4 := by decide
    exact this q.length h3 (by rw [← h1]; exact h2)
  · have h3 := h1.length_le
    rw [List.prefix_iff_eq_take] at h1
    have : ∀ n ≤ 4, textBytes ("text".toList.take n) ≠ 6 := by decide
    exact this q.length h3 (by rw [← h1]; exact h2)
end Parcom
