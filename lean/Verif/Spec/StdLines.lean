import Verif.Spec.Lines
/-!
# Lines as the standard library cuts them, and texts cut within a line end
-/
namespace Parcom.Spec

/-- `str::split_inclusive('\n')` (std): the text cut after each `\n`; no piece is empty. -/
def splitInclusive : List Char → List (List Char)
  | [] => []
  | c :: cs =>
    if c = '\n' then [c] :: splitInclusive cs
    else match splitInclusive cs with
      | [] => [[c]]
      | p :: ps => (c :: p) :: ps

/-- What `str::lines` (std) takes off a line: `\n`, and a `\r` before it. -/
def stripLine (l : List Char) : List Char :=
  if l.getLast? = some '\n' then
    if l.dropLast.getLast? = some '\r' then l.dropLast.dropLast else l.dropLast
  else l

/-- `str::lines` (std). -/
def stdLines (text : List Char) : List (List Char) := (splitInclusive text).map stripLine

/-- The length of what ends the text, if it ends a line for `str::lines`. -/
def endLength (text : List Char) : Nat := if endsCRLF text then 2 else if endsLF text then 1 else 0

/-- What remains of a text cut within `\r…\r\n`: an even number of `\r`, the `\n`, and then enough to begin another line. -/
def CutShort (post : List Char) : Prop :=
  ∃ j rest, post = List.replicate (2 * j) '\r' ++ '\n' :: rest ∧ 2 ≤ lineCount endsOddCRLF rest

end Parcom.Spec
