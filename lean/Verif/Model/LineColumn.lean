import Verif.Model.Sequences
/-!
# Line/column metrics

`crates/parcom-metrics/src/end_of_line.rs`, `crates/parcom-metrics/src/line_colmn.rs`.
-/
namespace Parcom

/-- `enum EndOfLineMatch` (end_of_line.rs:1-6). -/
inductive EndOfLineMatch where
  | notMatch
  | partialMatch
  | match
  deriving DecidableEq, Repr

/-- `trait EndOfLine: Default` (end_of_line.rs:8-10): the default state and `next(&mut self, c)`. -/
class EndOfLine (ε : Type) where
  default : ε
  next : ε → Char → EndOfLineMatch × ε

/-- `struct LF` (end_of_line.rs:12-13). -/
inductive LF where | mk deriving DecidableEq, Repr

/-- `impl EndOfLine for LF` (end_of_line.rs:15-22). -/
instance : EndOfLine LF where
  default := .mk
  next s c := (if c = '\n' then .match else .notMatch, s)

/-- `struct CR` (end_of_line.rs:24-25). -/
inductive CR where | mk deriving DecidableEq, Repr

/-- `impl EndOfLine for CR` (end_of_line.rs:27-34). -/
instance : EndOfLine CR where
  default := .mk
  next s c := (if c = '\r' then .match else .notMatch, s)

/-- `enum CRLFState` (end_of_line.rs:36-41) inside `struct CRLF` (43-46). -/
inductive CRLF where
  | initial
  | cr
  deriving DecidableEq, Repr

/-- `impl EndOfLine for CRLF` (end_of_line.rs:48-67). -/
instance : EndOfLine CRLF where
  default := .initial
  next
    | .initial, c => if c = '\r' then (.partialMatch, .cr) else (.notMatch, .initial)
    | .cr, c => (if c = '\n' then .match else .notMatch, .initial)

/-- `struct LineColumn` (line_colmn.rs:5-11). -/
structure LineColumn where
  totalCount : Nat
  line : Nat
  column : Nat
  deriving DecidableEq, Repr

/-- `impl Default for LineColumn` (line_colmn.rs:13-22). -/
def LineColumn.default : LineColumn := { totalCount := 0, line := 0, column := 0 }

/-- `impl PartialEq for LineColumn` (line_colmn.rs:35-42). -/
def LineColumn.eq (a b : LineColumn) : Bool :=
  a.totalCount == b.totalCount && a.line == b.line && a.column == b.column

/-- `impl PartialOrd for LineColumn` (line_colmn.rs:49-53). -/
def LineColumn.partialCmp (a b : LineColumn) : Option Ordering :=
  some (compare a.totalCount b.totalCount)

/-- `impl Ord for LineColumn` (line_colmn.rs:44-48): `partial_cmp(..).unwrap()`. -/
def LineColumn.cmp (a b : LineColumn) : Run Ordering :=
  match a.partialCmp b with
  | some o => pure o
  | none => Run.fault .assertion

/-- `struct LineColumnMeter` (line_colmn.rs:59-65). -/
structure LineColumnMeter (ε : Type) where
  location : LineColumn
  nextIsNewLine : Bool
  state : ε
  deriving DecidableEq, Repr

/-- One iteration of the loop in `Meter::advance` (line_colmn.rs:74-86). -/
def LineColumnMeter.step {ε : Type} [EndOfLine ε] (m : LineColumnMeter ε) (c : Char) : LineColumnMeter ε :=
  let m :=
    if m.nextIsNewLine then
      { m with location := { m.location with line := m.location.line + 1, column := 0 }, nextIsNewLine := false }
    else m
  let m := { m with location := { m.location with
    totalCount := m.location.totalCount + 1, column := m.location.column + 1 } }
  let (r, state) := EndOfLine.next m.state c
  let m := { m with state := state }
  if r = .match then { m with nextIsNewLine := true } else m

/-- `impl Meter<str> for LineColumnMeter` (line_colmn.rs:67-90). -/
instance {ε : Type} [EndOfLine ε] : Meter (LineColumnMeter ε) Str LineColumn where
  advance m segment := segment.chars.foldl LineColumnMeter.step m
  metrics m := m.location

/-- `LineColumnMeter::new` (line_colmn.rs:92-100). -/
def LineColumnMeter.new {ε : Type} [EndOfLine ε] (start : LineColumn) : LineColumnMeter ε :=
  { location := start, nextIsNewLine := true, state := EndOfLine.default }

/-- `impl Default for LineColumnMeter` (line_colmn.rs:102-110). -/
def LineColumnMeter.default {ε : Type} [EndOfLine ε] : LineColumnMeter ε :=
  { location := LineColumn.default, nextIsNewLine := true, state := EndOfLine.default }

/-- `IntoMeasured::into_measured` (parcom-core/src/sequence/measured.rs:22-27) for `&str` and `LineColumn`. -/
def StrRef.intoMeasured (ε : Type) [EndOfLine ε] (s : StrRef) : MeasuredStr (LineColumnMeter ε) :=
  s.intoMeasuredWith LineColumnMeter.default

end Parcom
