/-!
# Lines of a text

A line starts at the first character, and at every character right after a line terminator.
-/
namespace Parcom.Spec

/-- The positions in a text at which a line starts. `T p` says that the text `p` ends with a line terminator. -/
def lineStarts (T : List Char → Prop) [DecidablePred T] (cs : List Char) : List Nat :=
  (List.range cs.length).filter fun i => i = 0 ∨ T (cs.take i)

/-- How many lines have started. -/
def lineCount (T : List Char → Prop) [DecidablePred T] (cs : List Char) : Nat := (lineStarts T cs).length

/-- How many characters lie at or after the last line start (0 if no line has started). -/
def columnCount (T : List Char → Prop) [DecidablePred T] (cs : List Char) : Nat :=
  match (lineStarts T cs).getLast? with
  | some i => cs.length - i
  | none => 0

/-- The text ends with `\n`. -/
def endsLF (cs : List Char) : Prop := ['\n'] <:+ cs
/-- The text ends with `\r`. -/
def endsCR (cs : List Char) : Prop := ['\r'] <:+ cs
/-- The text ends with `\r\n`. -/
def endsCRLF (cs : List Char) : Prop := ['\r', '\n'] <:+ cs

instance : DecidablePred endsLF := fun cs => inferInstanceAs (Decidable (['\n'] <:+ cs))
instance : DecidablePred endsCR := fun cs => inferInstanceAs (Decidable (['\r'] <:+ cs))
instance : DecidablePred endsCRLF := fun cs => inferInstanceAs (Decidable (['\r', '\n'] <:+ cs))

/-- The number of `\r` at the end of a text. -/
def trailingCR (cs : List Char) : Nat := (cs.reverse.takeWhile (· = '\r')).length

/-- The text ends with an odd number of `\r` and a `\n`. -/
def endsOddCRLF (cs : List Char) : Prop := ∃ p, cs = p ++ ['\n'] ∧ trailingCR p % 2 = 1

instance : DecidablePred endsOddCRLF := fun cs =>
  decidable_of_iff (cs.getLast? = some '\n' ∧ trailingCR cs.dropLast % 2 = 1) <| by
    constructor
    · rintro ⟨h1, h2⟩
      rcases List.eq_nil_or_concat cs with rfl | ⟨p, d, rfl⟩
      · simp at h1
      · simp at h1 h2
        exact ⟨p, by simp [h1], h2⟩
    · rintro ⟨p, rfl, h⟩
      simp [h]

end Parcom.Spec
