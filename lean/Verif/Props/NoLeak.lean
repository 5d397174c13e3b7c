import Verif.Lemmas.Loader
/-!
# The loader leaks no item

The items in a `Vec` behind its length are never dropped, and neither is an item that another one is written over. The
loader writes items through pointers and sets lengths itself (buffer_writer.rs:50-80, control.rs:76-121), so nothing but this
code keeps it from leaking either way.
-/
namespace Parcom.Spec
open Parcom
variable {T E : Type}

/-- The vector's memory has its items and no other: dropping the vector drops all that is in its memory. -/
def NoStray (v : RawVec T) : Prop := ∀ i, (v.cells i).isSome = true ↔ i < v.len

/-- The vectors a source leaves: in a result, in a writer or control it was stopped with, and the one the loader goes on with. -/
def leftOver : Outcome (Control T) (Request T) (Response T E × RawVec T) → List (RawVec T)
  | .done (r, buf) | .droppedResult (r, buf) => buf :: match r with
    | .advance old _ _ => [old]
    | .finish old => [old]
    | .appended _ _ | .cancel _ => []
  | .droppedWriter w => [w.toAppend, w.buf]
  | .droppedControl c => [c.buf]

/-- The loader's writer, but writing over an item is not allowed. -/
def carefulWriter (env : Env) : BufferWriter (Request T) T (Response T E × RawVec T) E :=
  { requestBufferWriter env with
    write := fun r i x =>
      if (r.buf.cells (r.offset + i)).isSome then Run.fault .ub else (requestBufferWriter env (E := E)).write r i x }

/-- The loader's control with that writer. -/
def carefulControl (env : Env) : SequenceControl (Control T) (Request T) T (Response T E × RawVec T) E :=
  { genericControl env with writer := carefulWriter env }

end Parcom.Spec

namespace Parcom
open Spec
variable {T E : Type}

theorem Run.bind_congr_ret {α β : Type} {x : Run α} {f g : α → Run β} (h : ∀ a, x = Run.ret a → f a = g a) : (x >>= f) = (x >>= g) := by
  match x with
  | none => rfl
  | some (.error e) => rfl
  | some (.ok a) => exact h a rfl

theorem Spec.Holds.noStray {v : RawVec T} {xs : List T} (h : Holds v xs) : NoStray v := by
  intro i
  rw [h.cells i, h.len]
  simp

theorem Spec.NoStray.holds {v : RawVec T} (h : NoStray v) (hl : v.len ≤ v.cap) : ∃ xs, Holds v xs := by
  refine ⟨(List.range v.len).filterMap v.cells, ?_⟩
  have hm : (List.range v.len).map v.cells = ((List.range v.len).filterMap v.cells).map some := by
    have : ∀ l : List Nat, (∀ i ∈ l, i < v.len) → l.map v.cells = (l.filterMap v.cells).map some := by
      intro l
      induction l with
      | nil => intro _; rfl
      | cons i l ih =>
        intro hi
        have hs := (h i).mpr (hi i List.mem_cons_self)
        obtain ⟨x, hx⟩ := Option.isSome_iff_exists.mp hs
        rw [List.map_cons, List.filterMap_cons, hx, ih (fun j hj => hi j (List.mem_cons_of_mem _ hj))]
        rfl
    exact this _ fun i hi => List.mem_range.mp hi
  have hlen : ((List.range v.len).filterMap v.cells).length = v.len := by
    have := congrArg List.length hm
    simpa using this.symm
  refine ⟨hlen.symm, by rw [hlen]; exact hl, fun i => ?_⟩
  by_cases hi : i < v.len
  · have := congrArg (·[i]?) hm
    simp only [List.getElem?_map, List.getElem?_range hi, Option.map_some] at this
    cases hx : ((List.range v.len).filterMap v.cells)[i]? with
    | none => rw [hx] at this; simp at this
    | some x => rw [hx] at this; simpa using this
  · rw [List.getElem?_eq_none (by omega)]
    cases hc : v.cells i with
    | none => rfl
    | some x => exact absurd ((h i).mp (by rw [hc]; rfl)) hi

/-- C129: at every moment of every history, the loader's buffer and the nodes have no item in their memory behind their length. -/
theorem C129 {b : Build} {ms : List (Move T E)} {s : Loading T E} (h : Reaches b ms s) :
    NoStray s.loader.buf ∧ ∀ i n, s.cells.get i = some n → NoStray n.buf := by
  have hr := reaches_induction (P := fun s => ∀ i n, s.cells.get i = some n → NoStray n.buf) (b := b)
    (fun c i n hn => by simp [Loading.init] at hn) (by
      intro s s' m hi hP he
      obtain ⟨pend, hp⟩ := hi.pending
      have commit : ∀ {h' : Cells T} {t' : Nat}, commitTo s.cells s.loader.tail s.loader.buf = Run.ret (h', t') →
          ∀ i n, h'.get i = some n → NoStray n.buf := by
        intro h' t' e i n hn
        rw [commitTo_ret hi.cells] at e
        simp only [Run.ret_inj, Prod.mk.injEq] at e
        obtain ⟨rfl, rfl⟩ := e
        simp only at hn
        split at hn
        · cases hn
          exact Holds.noStray hp
        · exact hP i n hn
      cases m with
      | load env script =>
        obtain ⟨r, told, hc, h1, h2, ⟨h3, h4, h5⟩ | ⟨h3, h5⟩⟩ := move_load hi hp he
        · rw [h3]; exact hP
        · exact commit h3
      | forceCommit env =>
        obtain ⟨s₁, e, hp', h1, h2, h3, h4⟩ := move_forceCommit (b := b) (env := env) hi hp
        rw [e] at he
        simp at he
        subst he
        exact commit h3
      | advance | segments | dropIter =>
        simp only [Loading.move] at he
        split at he <;> (simp at he; subst he; exact hP)
      | get =>
        simp only [Loading.move] at he
        split at he
        · obtain ⟨o, _, he⟩ := Run.bind_eq_ret.mp he
          split at he <;> (simp at he; subst he; exact hP)
        · simp at he; subst he; exact hP
      | next =>
        simp only [Loading.move] at he
        split at he
        · obtain ⟨⟨o, c⟩, _, he⟩ := Run.bind_eq_ret.mp he
          simp only at he
          split at he <;> (simp at he; subst he; exact hP)
        · simp at he; subst he; exact hP) h
  obtain ⟨pend, hp⟩ := hr.1.pending
  exact ⟨hp.noStray, hr.2⟩

/-- C129: neither have the vectors a source leaves, whatever it does and wherever it is stopped: so what is dropped with them,
and what the loader goes on with, is all there is. -/
theorem C129_left {env : Env} {buf : RawVec T} {script : Script T E} {out : Outcome (Control T) (Request T) (Response T E × RawVec T)}
    {told : List T} (hb : NoStray buf) (hl : buf.len ≤ buf.cap)
    (he : script.run env.build (genericControl env) { buf } = Run.ret (out, told)) : ∀ v ∈ leftOver out, NoStray v := by
  obtain ⟨pend, hp⟩ := hb.holds hl
  induction script generalizing out told with
  | request n ops fin =>
    simp only [Script.run] at he
    obtain ⟨w₀, h1, he⟩ := Run.bind_eq_ret.mp he
    obtain ⟨⟨w, told₁⟩, h2, he⟩ := Run.bind_eq_ret.mp he
    have hv : ∃ pre xs room, RequestView w.toAppend pre w xs room ∧ NoStray w.toAppend := by
      rcases requestWriter_cases hp h1 with ⟨_, hv⟩ | ⟨_, _, _, _, _, hv⟩
      · have := (request_lawful (E := E) env _ _).runOps hv h2
        refine ⟨_, _, _, by rw [this.toAppend]; exact this, ?_⟩
        rw [this.toAppend]; exact (holds_empty _).noStray
      · have := (request_lawful (E := E) env _ _).runOps hv h2
        refine ⟨_, _, _, by rw [this.toAppend]; exact this, ?_⟩
        rw [this.toAppend]; exact hb
    obtain ⟨pre, xs, room, hv, ha⟩ := hv
    cases fin with
    | advance =>
      simp only [genericControl, requestBufferWriter, Run.pure_bind'] at he
      simp at he
      obtain ⟨rfl, rfl⟩ := he
      unfold Request.advance
      split
      · simp only [leftOver, List.mem_singleton, forall_eq]
        exact hv.holds.noStray
      · simp only [leftOver, List.mem_cons, List.not_mem_nil, or_false, forall_eq_or_imp, forall_eq]
        exact ⟨hv.holds.noStray, ha⟩
    | cancel e =>
      simp only [genericControl, requestBufferWriter] at he
      have hle : w.offset ≤ w.buf.len := by rw [hv.offset, hv.holds.len, List.length_append]; omega
      have hd : w.buf.drain w.offset = Run.ret _ := if_pos hle
      rw [hd] at he
      simp at he
      obtain ⟨rfl, rfl⟩ := he
      simp only [leftOver, List.mem_singleton, forall_eq]
      intro i
      show (if w.offset ≤ i ∧ i < w.buf.len then none else w.buf.cells i).isSome = true ↔ i < w.offset
      have hn := hv.holds.noStray i
      split
      · simp; omega
      · rw [hn]; omega
    | drop =>
      simp at he
      obtain ⟨rfl, rfl⟩ := he
      simp only [leftOver, List.mem_cons, List.not_mem_nil, or_false, forall_eq_or_imp, forall_eq]
      exact ⟨ha, hv.holds.noStray⟩
  | cancel e =>
    simp [Script.run, genericControl] at he
    obtain ⟨rfl, rfl⟩ := he
    simpa [leftOver] using hb
  | finish =>
    simp [Script.run, genericControl] at he
    obtain ⟨rfl, rfl⟩ := he
    simp only [leftOver, List.mem_cons, List.not_mem_nil, or_false, forall_eq_or_imp, forall_eq]
    exact ⟨(holds_empty _).noStray, hb⟩
  | drop =>
    simp [Script.run] at he
    obtain ⟨rfl, rfl⟩ := he
    simpa [leftOver] using hb
  | lost s ih =>
    simp only [Script.run] at he
    obtain ⟨⟨o, t⟩, h1, he⟩ := Run.bind_eq_ret.mp he
    have := ih h1
    cases o with
    | done r => simp at he; obtain ⟨rfl, rfl⟩ := he; exact this
    | droppedWriter | droppedControl | droppedResult => simp at he; obtain ⟨rfl, rfl⟩ := he; exact this

/-- A source writes three items, takes two back, replaces one, and is stopped. -/
def busyScript : Script Nat Nat := .request 4 [.push 7, .fill [8, 9], .shrink 1, .set 0 5, .raw [6]] .drop

/-- The case: the loader's buffer has what the source left, and nothing else. -/
example : ∃ s : Loading Nat Nat, Reaches .checked [.load ⟨.checked, pure, pure, 0⟩ busyScript] s ∧ s.loader.buf.len = 2 ∧
    s.loader.buf.cells 0 = some 5 ∧ s.loader.buf.cells 1 = some 6 ∧ s.loader.buf.cells 2 = none :=
  ⟨_, ⟨0, rfl⟩, rfl, rfl, rfl, rfl⟩

/-- A vector that was shortened by `set_len` alone is another matter. -/
example : ¬ NoStray ({ cap := 4, len := 1, cells := fun i => [7, 8][i]? } : RawVec Nat) := fun h => by
  have := (h 1).mp rfl
  simp at this

/-! ## Nothing is written over -/

section
variable {env : Env} {toAppend : RawVec T} {pre : List T}

theorem careful_writeMany {r : Request T} {a : Nat} {ys : List T} (h : ∀ i, r.offset + a ≤ i → r.buf.cells i = none) :
    (carefulWriter env (E := E)).writeMany r a ys = (requestBufferWriter env (E := E)).writeMany r a ys := by
  induction ys generalizing r a with
  | nil => rfl
  | cons y ys ih =>
    have hw : (carefulWriter env (E := E)).write r a y = (requestBufferWriter env (E := E)).write r a y := by
      show (if _ then _ else _) = _
      rw [if_neg (by rw [h _ (Nat.le_refl _)]; simp)]
    simp only [BufferWriter.writeMany, hw]
    by_cases hc : r.offset + a < r.buf.cap
    · have : (requestBufferWriter env (E := E)).write r a y = Run.ret
          { r with buf := { r.buf with cells := fun j => if j = r.offset + a then some y else r.buf.cells j } } := by
        show (r.buf.write (r.offset + a) y >>= _) = _
        rw [write_ret hc]
        rfl
      rw [this, Run.ret_bind, Run.ret_bind]
      apply ih
      intro i hi
      have hi : r.offset + (a + 1) ≤ i := hi
      show (if i = r.offset + a then some y else r.buf.cells i) = none
      rw [if_neg (by omega)]
      exact h i (by omega)
    · have : (requestBufferWriter env (E := E)).write r a y = Run.fault .ub := by
        show (r.buf.write (r.offset + a) y >>= _) = _
        rw [write_ub hc]
        rfl
      rw [this, Run.fault_bind, Run.fault_bind]

theorem RequestView.free {r : Request T} {xs : List T} {room : Nat} (h : RequestView toAppend pre r xs room) :
    ∀ i, r.offset + xs.length ≤ i → r.buf.cells i = none := by
  intro i hi
  rw [h.holds.cells i, List.getElem?_eq_none]
  rw [List.length_append, ← h.offset]
  exact hi

theorem careful_op {b : Build} {r : Request T} {told : List T} {room : Nat} (h : RequestView toAppend pre r told room) (op : WriterOp T) :
    op.run b (carefulWriter env (E := E)) r told = op.run b (requestBufferWriter env (E := E)) r told := by
  have L := request_lawful (E := E) env toAppend pre
  have hlen : (requestBufferWriter env (E := E)).len r = Run.ret told.length := L.len h
  have hlen' : (carefulWriter env (E := E)).len r = Run.ret told.length := hlen
  cases op with
  | push x =>
    have hw : (carefulWriter env (E := E)).write r told.length x = (requestBufferWriter env (E := E)).write r told.length x := by
      show (if _ then _ else _) = _
      rw [if_neg (by rw [h.free _ (Nat.le_refl _)]; simp)]
    simp only [WriterOp.run, BufferWriter.pushItem, hlen, hlen', Run.ret_bind, hw]
    rfl
  | fill xs =>
    simp only [WriterOp.run, BufferWriter.spareCapacity, hlen, hlen', Run.ret_bind, Run.bind_assoc', Run.pure_bind',
      careful_writeMany h.free]
    rfl
  | shrink n =>
    have hd : ∀ k a (r : Request T), (carefulWriter env (E := E)).dropMany r a k = (requestBufferWriter env (E := E)).dropMany r a k := by
      intro k
      induction k with
      | zero => intro a r; rfl
      | succ k ih =>
        intro a r
        simp only [BufferWriter.dropMany, ih]
        rfl
    simp only [WriterOp.run, BufferWriter.shrinkTo, hlen, hlen', hd]
    rfl
  | set i x =>
    simp only [WriterOp.run, BufferWriter.setItem, hlen, hlen', Run.ret_bind]
    by_cases hi : i < told.length
    · rw [if_pos hi, if_pos hi]
      have hf := h.holds.fits
      rw [List.length_append] at hf
      have hcell : r.buf.cells (r.offset + i) = some told[i] := by
        rw [h.offset, h.holds.cells _, List.getElem?_append_right (by omega), Nat.add_sub_cancel_left, List.getElem?_eq_getElem hi]
      have hd : (requestBufferWriter env (E := E)).dropAt r i =
          Run.ret { r with buf := { r.buf with cells := fun j => if j = r.offset + i then none else r.buf.cells j } } := by
        show (r.buf.dropAt (r.offset + i) >>= _) = _
        unfold RawVec.dropAt RawVec.read
        rw [if_pos (by rw [h.offset]; omega), hcell]
        rfl
      have hd' : (carefulWriter env (E := E)).dropAt r i = _ := hd
      rw [hd, hd', Run.ret_bind, Run.ret_bind]
      congr 1
      show (if _ then _ else _) = _
      rw [if_neg (by simp)]
    · rw [if_neg hi, if_neg hi]
  | raw xs =>
    simp only [WriterOp.run, hlen, hlen', Run.ret_bind, careful_writeMany h.free]
    rfl

theorem careful_ops {b : Build} {r : Request T} {told : List T} {room : Nat} (h : RequestView toAppend pre r told room)
    (ops : List (WriterOp T)) :
    runOps b (carefulWriter env (E := E)) r told ops = runOps b (requestBufferWriter env (E := E)) r told ops := by
  induction ops generalizing r told with
  | nil => rfl
  | cons op ops ih =>
    simp only [runOps, careful_op h]
    apply Run.bind_congr_ret
    rintro ⟨r', told'⟩ e
    exact ih ((request_lawful (E := E) env toAppend pre).runOp h e)

end

/-- C129: no item is written over another: whatever a source does, it makes no difference if that is not allowed. -/
theorem C129_careful {env : Env} {buf : RawVec T} (hb : NoStray buf) (hl : buf.len ≤ buf.cap) (script : Script T E) :
    script.run env.build (carefulControl env) { buf } = script.run env.build (genericControl env) { buf } := by
  obtain ⟨pend, hp⟩ := hb.holds hl
  induction script with
  | request n ops fin =>
    simp only [Script.run]
    apply Run.bind_congr_ret
    intro w hw
    have : runOps env.build (carefulControl env (E := E)).writer w [] ops = runOps env.build (genericControl env (E := E)).writer w [] ops := by
      rcases requestWriter_cases hp hw with ⟨_, hv⟩ | ⟨_, _, _, _, _, hv⟩
      · exact careful_ops hv ops
      · exact careful_ops hv ops
    rw [this]
    rfl
  | cancel | finish | drop => rfl
  | lost s ih => simp only [Script.run, ih]

/-- What is not allowed there: to write over an item. -/
example : (carefulWriter (E := Nat) ⟨.checked, pure, pure, 0⟩).write
    { toAppend := .empty 0, buf := { cap := 4, len := 1, cells := fun i => [7][i]? }, offset := 0 } 0 8 = Run.fault .ub := rfl

end Parcom
