import Verif.Model.Sequences
/-!
# Primitive parsers

`crates/parcom-parsers/src/primitive/{any,the,atom}.rs`. Each `while let Some(segment) = segments.next(..).await` loop is
a `partial_fixpoint` over the segment stream.
-/
namespace Parcom
open Sequence

variable {S : Type}

/-- The loop of `AnyChar::parse` (primitive/any.rs:31-41). -/
def anyCharLoop [Sequence S Str] (st : Stream S) : Run (PResult S Char (Miss Unit)) := do
  match ← next st 0 with
  | (some segment, st) =>
    match segment.chars.head? with
    | none => anyCharLoop st
    | some c => return done c (← advance (release st) c.utf8Size)
  | (none, st) => return failAt ⟨()⟩ (release st)
partial_fixpoint

/-- `any_char()`: `AnyChar::parse`, `parse_once` (primitive/any.rs:19-43). -/
def anyChar [Sequence S Str] : Parser S Char (Miss Unit) where
  parse input := anyCharLoop (segments input)
  parseOnce input := anyCharLoop (segments input)

/-- The loop of `AnyItem::parse` (primitive/any.rs:72-83). -/
def anyItemLoop {α : Type} [Sequence S (List α)] (st : Stream S) : Run (PResult S α (Miss Unit)) := do
  match ← next st 0 with
  | (some segment, st) =>
    match segment with
    | [] => anyItemLoop st
    | item :: _ => return done item (← advance (release st) 1)
  | (none, st) => return failAt ⟨()⟩ (release st)
partial_fixpoint

/-- `any_item()`: `AnyItem::parse`, `parse_once` (primitive/any.rs:57-85). -/
def anyItem {α : Type} [Sequence S (List α)] : Parser S α (Miss Unit) where
  parse input := anyItemLoop (segments input)
  parseOnce input := anyItemLoop (segments input)

/-- The loop of `TheChar::parse` (primitive/the.rs:24-38). -/
def theCharLoop [Sequence S Str] (c : Char) (st : Stream S) : Run (PResult S Unit (Miss Unit)) := do
  match ← next st c.utf8Size with
  | (some segment, st) =>
    match segment.chars.head? with
    | none => theCharLoop c st
    | some c' =>
      if c' = c then return done () (← advance (release st) c.utf8Size)
      else return failAt ⟨()⟩ (release st)
  | (none, st) => return failAt ⟨()⟩ (release st)
partial_fixpoint

/-- `the_char(c)`: `TheChar::parse`, `parse_once` (primitive/the.rs:11-40). -/
def theChar [Sequence S Str] (c : Char) : Parser S Unit (Miss Unit) where
  parse input := theCharLoop c (segments input)
  parseOnce input := theCharLoop c (segments input)

/-- The loop of `TheItem::parse` (primitive/the.rs:65-79). `==` is the element type's `PartialEq`. -/
def theItemLoop {α : Type} [BEq α] [Sequence S (List α)] (x : α) (st : Stream S) :
    Run (PResult S Unit (Miss Unit)) := do
  match ← next st 1 with
  | (some segment, st) =>
    match segment with
    | [] => theItemLoop x st
    | item :: _ =>
      if item == x then return done () (← advance (release st) 1)
      else return failAt ⟨()⟩ (release st)
  | (none, st) => return failAt ⟨()⟩ (release st)
partial_fixpoint

/-- `the_item(x)`: `TheItem::parse`, `parse_once` (primitive/the.rs:50-81). -/
def theItem {α : Type} [BEq α] [Sequence S (List α)] (x : α) : Parser S Unit (Miss Unit) where
  parse input := theItemLoop x (segments input)
  parseOnce input := theItemLoop x (segments input)

/-- The loop of `Atom::parse` (primitive/atom.rs:40-63). `==` is the segment type's `PartialEq`. -/
def atomLoop {Seg : Type} [SequenceSegment Seg] [BEq Seg] [Sequence S Seg] (remain : Seg) (st : Stream S) :
    Run (PResult S Unit (Miss Unit)) := do
  match ← next st (SequenceSegment.len remain) with
  | (some segment, st) =>
    if SequenceSegment.len segment ≥ SequenceSegment.len remain then
      let (s, _) ← SequenceSegment.splitAt segment (SequenceSegment.len remain)
      let matched := s == remain
      if matched then return done () (← advance (release st) (SequenceSegment.len remain))
      else return failAt ⟨()⟩ (release st)
    else
      let (p, r) ← SequenceSegment.splitAt remain (SequenceSegment.len segment)
      if segment != p then return failAt ⟨()⟩ (release st)
      else atomLoop r st
  | (none, st) => return failAt ⟨()⟩ (release st)
partial_fixpoint

/-- `atom(pattern)`: `Atom::parse`, `parse_once` (primitive/atom.rs:18-65); `pattern` is `AtomPattern::pattern()`
(67-111). -/
def atom {Seg : Type} [SequenceSegment Seg] [BEq Seg] [Sequence S Seg] (pattern : Seg) :
    Parser S Unit (Miss Unit) where
  parse input := atomLoop pattern (segments input)
  parseOnce input := atomLoop pattern (segments input)

end Parcom
