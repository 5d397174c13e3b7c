import Verif.Model.Loader
/-!
# IteratorSource

`crates/parcom-sequence-sources/src/iterator_source.rs`. The iterator is the list of the chunks it still yields; cloning an
item gives an equal one.
-/
namespace Parcom
variable {C W T R E : Type}

/-- The loop in `next` (iterator_source.rs:58-60): what `push_item` returns is ignored. -/
def pushIgnoring (B : BufferWriter W T R E) : W → List T → Run W
  | w, [] => pure w
  | w, x :: xs => do
    let (_, w) ← B.pushItem w x
    pushIgnoring B w xs

/-- `IteratorSource::next` (iterator_source.rs:47-63), for any control; the future is ready at once. -/
def IteratorSource.next (S : SequenceControl C W T R E) (control : C) : List (List T) → Run (R × List (List T))
  | [] => do
    let r ← S.finish control
    return (r, [])
  | seg :: iter => do
    let req ← S.requestWriter control seg.length
    let req ← pushIgnoring S.writer req seg
    let r ← S.writer.advance req
    return (r, iter)

/-- The script of one call. -/
def IteratorSource.script : List (List T) → Script T E
  | [] => .finish
  | seg :: _ => .request seg.length (seg.map .push) .advance

end Parcom
