import Verif.Model.Loader
/-!
# Utf8Validator

`crates/parcom-sequence-sources/src/utf8_validator.rs`.
-/
namespace Parcom
variable {C W R E : Type}

/-! ## `std::str::from_utf8` -/

/-- The character the bytes begin with. -/
def firstChar (bs : List UInt8) : Option Char := bs.toByteArray.utf8DecodeChar? 0

/-- `from_utf8` accepts the bytes iff this is their number; otherwise it is `valid_up_to` of its error (std). Characters
are decoded from the front as long as there are any. `UInt8` lists stand for byte slices. -/
def validUpTo (bs : List UInt8) : Nat :=
  match firstChar bs with
  | none => 0
  | some c => if c.utf8Size ≤ bs.length then c.utf8Size + validUpTo (bs.drop c.utf8Size) else 0
termination_by bs.length
decreasing_by
  have := c.utf8Size_pos
  rw [List.length_drop]
  omega

/-! ## The validator -/

/-- `enum Utf8ValidationError` (utf8_validator.rs:25-28). -/
inductive Utf8Error (E : Type) where
  | invalidSequence
  | inner (e : E)

/-- `struct Utf8Validator` (utf8_validator.rs:9-13) without the source; `rest` is an array of three bytes. -/
structure Validator where
  buffered : Nat
  rest : List UInt8

/-- `Utf8Validator::new` (utf8_validator.rs:16-22). -/
def Validator.new : Validator := { buffered := 0, rest := [0, 0, 0] }

/-- `struct Control` (utf8_validator.rs:102-107). -/
structure Utf8Control (C : Type) where
  buffered : Nat
  rest : List UInt8
  control : C

/-- `struct Writer` (utf8_validator.rs:153-161). -/
structure Utf8Writer (W : Type) where
  buffered : Nat
  req : W

/-- `enum InnerResponse` (utf8_validator.rs:245-260). -/
inductive Utf8Response (R : Type) where
  | advance (buffered : Nat) (rest : List UInt8) (res : R)
  | finish (res : R)
  | err (res : R)

/-- `Writer::advance` (utf8_validator.rs:193-224). The slice `rest[..invalids.len()]` and the one `invalids` is taken from
are in bounds, as the model of `validUpTo` shows. -/
def Utf8Writer.advance (B : BufferWriter W UInt8 R (Utf8Error E)) (w : Utf8Writer W) : Run (Utf8Response R) := do
  let buf ← B.asSlice w.req
  let validLen := validUpTo buf
  if ¬ validLen ≤ buf.length then
    Run.fault .bounds
  let invalids := buf.drop validLen
  if invalids.length > 3 then
    let res ← B.cancel w.req .invalidSequence
    return .err res
  else
    let rest := invalids ++ List.replicate (3 - invalids.length) 0
    let buffered := invalids.length
    let req ← B.shrinkTo w.req validLen
    let res ← B.advance req
    return .advance buffered rest res

/-- `impl BufferWriter for Writer` (utf8_validator.rs:163-234): `capacity` 173-175, `len` 177-179, `as_ptr` and
`as_mut_ptr` 181-187, `set_len` 189-191, `cancel` 226-233. -/
def utf8BufferWriter (b : Build) (B : BufferWriter W UInt8 R (Utf8Error E)) : BufferWriter (Utf8Writer W) UInt8 (Utf8Response R) E where
  capacity w := do
    let c ← B.capacity w.req
    usizeSub b c w.buffered
  len w := do
    let l ← B.len w.req
    usizeSub b l w.buffered
  read w i := B.read w.req (w.buffered + i)
  write w i x := do
    let req ← B.write w.req (w.buffered + i) x
    return { w with req }
  dropAt w i := do
    let req ← B.dropAt w.req (w.buffered + i)
    return { w with req }
  within w i n := B.within w.req (w.buffered + i) n
  setLen w n := do
    let req ← B.setLen w.req (n + w.buffered)
    return { w with req }
  advance w := w.advance B
  cancel w e := do
    let res ← B.cancel w.req (.inner e)
    return .err res

/-- `Control::request_writer` (utf8_validator.rs:119-134). Copying more bytes than the array has is undefined. -/
def Utf8Control.requestWriter (b : Build) (S : SequenceControl C W UInt8 R (Utf8Error E)) (c : Utf8Control C) (minCapacity : Nat) :
    Run (Utf8Writer W) := do
  let total ← usizeAdd b c.buffered minCapacity
  let req ← S.requestWriter c.control total
  if ¬ c.buffered ≤ c.rest.length then
    Run.fault .ub
  let req ← S.writer.writeMany req 0 (c.rest.take c.buffered)
  let req ← S.writer.setLen req c.buffered
  return { buffered := c.buffered, req }

/-- `impl SequenceControl for Control` (utf8_validator.rs:109-151): `cancel` 136-142, `finish` 144-150. -/
def utf8Control (b : Build) (S : SequenceControl C W UInt8 R (Utf8Error E)) :
    SequenceControl (Utf8Control C) (Utf8Writer W) UInt8 (Utf8Response R) E where
  writer := utf8BufferWriter b S.writer
  requestWriter c n := c.requestWriter b S n
  cancel c e := do
    let res ← S.cancel c.control (.inner e)
    return .err res
  finish c := do
    let res ← S.finish c.control
    return .finish res

/-- `Utf8Validator::next` (utf8_validator.rs:40-57) and polling its future to the end (78-99), for a source that does the
script. The first list is what the source should assume to have written. -/
def Validator.next (b : Build) (S : SequenceControl C W UInt8 R (Utf8Error E)) (v : Validator) (control : C) (s : Script UInt8 E) :
    Run ((Outcome C W R × List UInt8) × Validator) := do
  let (out, told) ← s.run b (utf8Control b S) { buffered := v.buffered, rest := v.rest, control }
  match out with
  | .done (.advance buffered rest res) => return ((.done res, told), { buffered, rest })
  | .done (.finish res) => return ((.done res, told), v)
  | .done (.err res) => return ((.done res, told), v)
  | .droppedWriter w => return ((.droppedWriter w.req, told), v)
  | .droppedControl c => return ((.droppedControl c.control, told), v)
  | .droppedResult (.advance _ _ res) | .droppedResult (.finish res) | .droppedResult (.err res) =>
    return ((.droppedResult res, told), v)

/-! ## A loader whose source is a validator -/

/-- `GenericSequenceLoader::load` (loader.rs:100-105) as in `load`, the source being a validator. -/
def loadValidated (env : Env) (v : Validator) (s : Script UInt8 E) (h : Cells UInt8) (l : Loader UInt8) :
    Run ((Option (Except (Utf8Error E) LoadInfo) × List UInt8) × Validator × Cells UInt8 × Loader UInt8) := do
  let ((out, told), v) ← v.next env.build (genericControl env) { buf := l.buf } s
  match out with
  | .done (res, buf) => do
    let (r, h, tail) ← finishLoad h l.tail res
    return ((some r, told), v, h, { buf, tail })
  | .droppedWriter w => return ((none, told), v, h, { l with buf := w.buf })
  | .droppedControl c => return ((none, told), v, h, { l with buf := c.buf })
  | .droppedResult (_, buf) => return ((none, told), v, h, { l with buf })

/-- Such a loader, with its buffer. -/
structure Validated (E : Type) where
  sys : Loading UInt8 (Utf8Error E)
  validator : Validator

/-- `GenericSequenceBuilder::build(Utf8Validator::new(source))`. -/
def Validated.init (newCapacity : Nat) : Validated E := { sys := .init newCapacity, validator := .new }

/-- The steps: loads, in which the source of the validator does the script, and everything else. -/
inductive ValidatedMove (E : Type) where
  | load (env : Env) (s : Script UInt8 E)
  | other (m : Move UInt8 (Utf8Error E))

/-- One step. The items logged for a load are those the validator's writer accepted. -/
def Validated.move (b : Build) (st : Validated E) : ValidatedMove E → Run (Validated E)
  | .load env script => do
    let ((r, told), validator, cells, loader) ← loadValidated env st.validator script st.sys.cells st.sys.loader
    let new ← newlyCommitted st.sys.cells cells st.sys.loader.tail
    return { sys := { st.sys with cells, loader, log := st.sys.log ++ new.map .committed ++ [.loaded told r] }, validator }
  | .other (.load _ _) => pure st
  | .other m => do
    let sys ← st.sys.move b m
    return { st with sys }

/-- A history. -/
def Validated.run (b : Build) : Validated E → List (ValidatedMove E) → Run (Validated E)
  | st, [] => pure st
  | st, m :: ms => do
    let st ← st.move b m
    Validated.run b st ms

end Parcom
