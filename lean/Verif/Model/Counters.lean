import Verif.Model.BinExpr
import Verif.Model.ShortVec
import Verif.Model.LineColumn
/-!
# The counters of the meters as `usize`

`Model/LineColumn` and `Model/Sequences` count in natural numbers. Here the additions are those of `usize`.
-/
namespace Parcom

/-- One iteration of the loop in `Meter::advance` (parcom-metrics/src/line_colmn.rs:74-86). -/
def LineColumnMeter.stepIn {ε : Type} [EndOfLine ε] (b : Build) (m : LineColumnMeter ε) (c : Char) : Run (LineColumnMeter ε) := do
  let m ← if m.nextIsNewLine then do
      let line ← usizeAdd b m.location.line 1
      pure { m with location := { m.location with line := line, column := 0 }, nextIsNewLine := false }
    else pure m
  let totalCount ← usizeAdd b m.location.totalCount 1
  let column ← usizeAdd b m.location.column 1
  let m := { m with location := { m.location with totalCount, column } }
  let (r, state) := EndOfLine.next m.state c
  let m := { m with state := state }
  return if r = .match then { m with nextIsNewLine := true } else m

/-- `Meter::advance` for `LineColumnMeter` (line_colmn.rs:73-89). -/
def LineColumnMeter.advanceIn {ε : Type} [EndOfLine ε] (b : Build) (m : LineColumnMeter ε) : List Char → Run (LineColumnMeter ε)
  | [] => pure m
  | c :: cs => do
    let m ← m.stepIn b c
    m.advanceIn b cs

/-- One `advance` for each of several segments. -/
def LineColumnMeter.feedIn {ε : Type} [EndOfLine ε] (b : Build) (m : LineColumnMeter ε) : List (List Char) → Run (LineColumnMeter ε)
  | [] => pure m
  | cs :: rest => do
    let m ← m.advanceIn b cs
    m.feedIn b rest

/-- `Sequence::advance` for `Measured` over `&str` (parcom-core/src/primitive/str.rs:98-104) with a `LineColumnMeter`. -/
def MeasuredStr.advanceIn {ε : Type} [EndOfLine ε] (b : Build) (s : MeasuredStr (LineColumnMeter ε)) (delta : Nat) :
    Run (MeasuredStr (LineColumnMeter ε)) := do
  let segment := s.base.text
  let e := min (byteLen segment.chars) delta
  let pre ← strPrefix segment e
  let meter ← s.meter.advanceIn b pre.chars
  let base ← s.base.advance delta
  return { meter, base }

/-- `Sequence::advance` for `Measured` over `&[T]` (parcom-core/src/primitive/slice.rs:108-114) with a `usize` for a meter,
whose `advance` is `self += segment.len()` (sequence/measured.rs:36-57). -/
def MeasuredSlice.advanceIn {α : Type} (b : Build) (s : MeasuredSlice α Nat) (delta : Nat) : Run (MeasuredSlice α Nat) := do
  let segment := s.base.items
  let e := min segment.length delta
  let pre ← slicePrefix segment e
  let meter ← usizeAdd b s.meter pre.length
  let base ← s.base.advance delta
  return { meter, base }

end Parcom
