import Verif.Model.Errors
/-!
# Parsers and sequences

`crates/parcom-core/src/{lib,parser,sequence,unknown}.rs`, `crates/parcom-core/src/sequence/*.rs`,
`crates/parcom-util/src/lib.rs`.
-/
namespace Parcom

/-- `struct UnknownLocation<S>(S)` (parcom-core/src/unknown.rs:3-4). -/
structure UnknownLocation (S : Type) where
  val : S
  deriving DecidableEq, Repr

/-- `type ParseResult<S, O, E> = Result<(O, S), (E, UnknownLocation<S>)>` (parcom-core/src/lib.rs:19). -/
inductive PResult (S O E : Type) where
  | ok (output : O) (rest : S)
  | err (error : E) (loc : UnknownLocation S)
  deriving DecidableEq, Repr

/-- `done` (parcom-util/src/lib.rs:11-13). -/
def done {S O E : Type} (output : O) (rest : S) : PResult S O E := .ok output rest

/-- `fail` (parcom-util/src/lib.rs:15-20), called with an error of the right type and an `UnknownLocation`. -/
def fail {S O E : Type} (err : E) (rest : UnknownLocation S) : PResult S O E := .err err rest

/-- `fail` called with a sequence, which `From<S> for UnknownLocation<S>` (parcom-core/src/unknown.rs:21-25) wraps. -/
def failAt {S O E : Type} (err : E) (rest : S) : PResult S O E := .err err ⟨rest⟩

/-- A value whose type implements `Parser<S>` and `ParserOnce<S>` (parcom-core/src/parser.rs:5-35): the two methods.
`parse` takes `&self`, `parse_once` takes `self`; both are asynchronous in the code and sequential here. -/
structure Parser (S O E : Type) where
  parse : S → Run (PResult S O E)
  parseOnce : S → Run (PResult S O E)

/-- Closures and functions as parsers (parcom-core/src/parser.rs:9-28). -/
def Parser.ofFn {S O E : Type} (f : S → Run (PResult S O E)) : Parser S O E where
  parse input := f input
  parseOnce input := f input

/-- One running iteration: a value implementing `IterativeParserState<S>` (parcom-core/src/parser.rs:37-45) together with
its initial state. `parse_next(&mut self, input)` returns the result and the new state. -/
structure IterState (σ S O E : Type) where
  init : σ
  next : σ → S → Run (PResult S (Option O) E × σ)

/-- A value implementing `IterativeParser<S>` and `IterativeParserOnce<S>` (parcom-core/src/parser.rs:47-61):
the iteration started by `parse_iterative` and the one started by `parse_iterative_once`. -/
structure IterParser (σ σ₁ S O E : Type) where
  iter : IterState σ S O E
  once : IterState σ₁ S O E

/-- `impl IterativeParser for &P`, `impl IterativeParserOnce for &P` (parcom-core/src/parser.rs:63-81). -/
def IterParser.byRef {σ σ₁ S O E : Type} (p : IterParser σ σ₁ S O E) : IterParser σ σ S O E where
  iter := p.iter
  once := p.iter

/-- `trait SequenceSegment` (parcom-core/src/sequence/segment.rs:1-6). Lengths (`usize` or `BytesDelta`) are `Nat`. -/
class SequenceSegment (Seg : Type) where
  len : Seg → Nat
  splitAt : Seg → Nat → Run (Seg × Seg)

/-- `trait Sequence` with `trait SegmentStream` (parcom-core/src/sequence.rs:13-23, sequence/segment_stream.rs:3-12).
`segments(&mut self)` borrows the sequence; `release` is the sequence after that borrow ends (`drop(segments)`). -/
class Sequence (S : Type) (Seg : outParam Type) where
  Stream : Type
  segments : S → Stream
  next : Stream → Nat → Run (Option Seg × Stream)
  release : Stream → S
  advance : S → Nat → Run S

/-- `trait RewindSequence` (parcom-core/src/sequence.rs:29-35). -/
class RewindSequence (S : Type) where
  Anchor : Type
  anchor : S → Anchor
  rewind : S → Anchor → Run S

export RewindSequence (anchor rewind)

/-- `UnknownLocation::rewind` (parcom-core/src/unknown.rs:15-19). -/
def UnknownLocation.rewind {S : Type} [RewindSequence S] (u : UnknownLocation S)
    (a : RewindSequence.Anchor S) : Run S :=
  RewindSequence.rewind u.val a

/-- `trait Meter` / `trait Metrics` (parcom-core/src/sequence/measured.rs:3-12). -/
class Meter (μ : Type) (Seg : Type) (M : outParam Type) where
  advance : μ → Seg → μ
  metrics : μ → M

end Parcom
