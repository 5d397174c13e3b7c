import Verif.Props.Utf8
/-!
# C63: the validator's writer, apart from its capacity
-/
namespace Parcom
open Spec
variable {W R E : Type} {b : Build} {B : BufferWriter W UInt8 R (Utf8Error E)} {View : W → List UInt8 → Nat → Prop}

/-- C63: apart from `capacity`, the validator's writer behaves as a buffer if the writer below does. The source sees the bytes it
wrote, and not those kept back, which stay before them. -/
theorem C63_lawful (L : Lawful B View) (kept : List UInt8) : Lawful (utf8BufferWriter b B)
    (fun w told room => w.buffered = kept.length ∧ View w.req (kept ++ told) (kept.length + room)) where
  fits := by
    rintro w told room ⟨-, h⟩
    have := L.fits h
    rw [List.length_append] at this
    omega
  len := by
    rintro w told room ⟨hb, h⟩
    exact utf8_len L h hb
  read := by
    rintro w told room ⟨hb, h⟩ i hi
    show B.read w.req (w.buffered + i) = _
    rw [L.read h (w.buffered + i) (by rw [List.length_append]; omega)]
    congr 1
    rw [List.getElem_append_right (by omega)]
    congr 1
    omega
  fill := by
    rintro w told room ys ⟨hb, h⟩ hr
    obtain ⟨req, e, hv⟩ := L.fill ys h (by rw [List.length_append]; omega)
    obtain ⟨req₁, e1, e2⟩ := Run.bind_eq_ret.mp e
    refine ⟨⟨w.buffered, req⟩, ?_, hb, by rw [← List.append_assoc]; exact hv⟩
    rw [utf8_writeMany, hb, ← List.length_append, e1, Run.ret_bind, Run.ret_bind]
    show (B.setLen req₁ (told.length + ys.length + kept.length) >>= _) = _
    rw [show told.length + ys.length + kept.length = (kept ++ told).length + ys.length by rw [List.length_append]; omega, e2]
    rfl
  overrun := by
    rintro w told room ys ⟨hb, h⟩ hr
    rw [utf8_writeMany, hb, ← List.length_append, L.overrun ys h (by rw [List.length_append]; omega)]
    rfl
  replace := by
    rintro w told room i x ⟨hb, h⟩ hi
    obtain ⟨req, e, hv⟩ := L.replace (i := w.buffered + i) x h (by rw [List.length_append]; omega)
    obtain ⟨req₁, e1, e2⟩ := Run.bind_eq_ret.mp e
    refine ⟨⟨w.buffered, req⟩, ?_, hb, ?_⟩
    · show ((B.dropAt w.req (w.buffered + i) >>= _) >>= _) = _
      rw [e1, Run.ret_bind, Run.pure_bind']
      show (B.write req₁ (w.buffered + i) x >>= _) = _
      rw [e2]
      rfl
    · rw [List.set_append, if_neg (by omega), show w.buffered + i - kept.length = i by omega] at hv
      exact hv
  cut := by
    rintro w told room n ⟨hb, h⟩ hn
    obtain ⟨req, e, hv⟩ := L.cut (n := kept.length + n) h (by rw [List.length_append]; omega)
    obtain ⟨req₁, e1, e2⟩ := Run.bind_eq_ret.mp e
    refine ⟨⟨w.buffered, req⟩, ?_, hb, ?_⟩
    · rw [utf8_dropMany, hb, show told.length - n = (kept ++ told).length - (kept.length + n) by rw [List.length_append]; omega, e1,
        Run.ret_bind, Run.ret_bind]
      show (B.setLen req₁ (n + kept.length) >>= _) = _
      rw [Nat.add_comm n, e2]
      rfl
    · rw [List.take_length_add_append] at hv
      exact hv

/-- C63: `as_slice` of the validator's writer on top of the loader is what the source wrote. -/
theorem C63_slice (env : Env) {toAppend : RawVec UInt8} {pre kept told : List UInt8} {w : Utf8Writer (Request UInt8)} {room : Nat}
    (h : RequestView toAppend pre w.req (kept ++ told) room) (hb : w.buffered = kept.length) :
    (utf8BufferWriter b (requestBufferWriter (E := Utf8Error E) env)).asSlice w = Run.ret told := by
  have L := request_lawful (E := Utf8Error E) env toAppend pre
  have hf := L.fits h
  rw [List.length_append] at hf
  exact (C63_lawful (b := b) L kept).asSlice (room := room - kept.length)
    ⟨hb, by rwa [show kept.length + (room - kept.length) = room by omega]⟩

/-- C63: what `spare_capacity` makes of the capacity. There is room for `room - b - j` bytes. If that is at least `b + j`, the slice
begins behind the bytes written and is that much too short. If not, it panics with overflow checks, and without them the slice
reaches beyond the allocation. -/
theorem C63_spare (env : Env) {toAppend : RawVec UInt8} {pre kept told : List UInt8} {w : Utf8Writer (Request UInt8)} {room : Nat}
    (h : RequestView toAppend pre w.req (kept ++ told) room) (hb : w.buffered = kept.length) (hr : room ≤ usizeMax) :
    (2 * (kept.length + told.length) ≤ room →
      (utf8BufferWriter env.build (requestBufferWriter (E := Utf8Error E) env)).spareCapacity env.build w =
        Run.ret (told.length, room - 2 * (kept.length + told.length))) ∧
    (room < 2 * (kept.length + told.length) → env.build = .checked →
      (utf8BufferWriter env.build (requestBufferWriter (E := Utf8Error E) env)).spareCapacity env.build w = Run.fault .overflow) ∧
    (room < 2 * (kept.length + told.length) → env.build = .wrapping →
      (utf8BufferWriter env.build (requestBufferWriter (E := Utf8Error E) env)).spareCapacity env.build w = Run.fault .ub) := by
  have L := request_lawful (E := Utf8Error E) env toAppend pre
  obtain ⟨c1, c2, c3⟩ := C63_exact (E := E) env h hb
  have hf := L.fits h
  rw [List.length_append] at hf
  have hw : ∀ n, (utf8BufferWriter env.build (requestBufferWriter (E := Utf8Error E) env)).within w told.length n =
      if kept.length + told.length + n ≤ room then Run.ret () else Run.fault .ub := by
    intro n
    show (if w.req.offset + (w.buffered + told.length) + n ≤ w.req.buf.cap then _ else _) = _
    rw [h.offset, h.room, hb]
    by_cases hc : kept.length + told.length + n ≤ room
    · rw [if_pos (by omega), if_pos hc]; rfl
    · rw [if_neg (by omega), if_neg hc]
  unfold BufferWriter.spareCapacity
  rw [utf8_len L h hb, Run.ret_bind]
  refine ⟨fun hl => ?_, fun hl hbd => ?_, fun hl hbd => ?_⟩
  · rw [c1 (by omega), Run.ret_bind, usizeSub_ret _ (by omega), Run.ret_bind, hw, if_pos (by omega), Run.ret_bind,
      show room - 2 * kept.length - told.length - told.length = room - 2 * (kept.length + told.length) by omega]
    rfl
  · by_cases hc : 2 * kept.length + told.length ≤ room
    · rw [c1 hc, Run.ret_bind, hbd, usizeSub_checked (by omega)]; rfl
    · rw [c2 (by omega) hbd]; rfl
  · by_cases hc : 2 * kept.length + told.length ≤ room
    · rw [c1 hc, Run.ret_bind, hbd, usizeSub_wrapping (by omega), Run.ret_bind, ← hbd, hw, if_neg (by omega)]; rfl
    · rw [c3 (by omega) hbd, Run.ret_bind, usizeSub_ret _ (by omega), Run.ret_bind, hw, if_neg (by omega)]; rfl

/-- Three bytes are kept back and there is room for one more. -/
example : ∃ w, (utf8Control .checked (genericControl (E := Utf8Error Nat) plainEnv)).requestWriter
      { buffered := threeKept.buffered, rest := threeKept.rest, control := { buf := .empty 0 } } 1 = Run.ret w ∧
    (utf8BufferWriter .checked (requestBufferWriter (E := Utf8Error Nat) plainEnv)).asSlice w = Run.ret [] ∧
    (utf8BufferWriter .checked (requestBufferWriter (E := Utf8Error Nat) plainEnv)).spareCapacity .checked w = Run.fault .overflow := by
  obtain ⟨w, hw, hwb, hview⟩ := threeKept_request
  exact ⟨w, hw, C63_slice plainEnv hview hwb, (C63_spare plainEnv hview hwb (by decide)).2.1 (by decide) rfl⟩

end Parcom
