import Verif.Props.WriterPanic
/-!
# C113: writers of items whose destructors do not panic
-/
namespace Parcom
open Spec
variable {T : Type} {env : Env} {start r r' : Request T} {hist : List (WriterOp T × Settled T)} {toAppend buf : RawVec T}
  {pre xs pend : List T} {room n : Nat}

namespace Spec

/-- The same operation without and with destructors that may panic, on the writer `r`: both return and leave the same writer; or
the first ends with the panic of an index or an assertion, and so does the second, which leaves `r` as it was; or both end with
undefined behaviour or with an overflow. -/
inductive Matches (r : Request T) : Run (Request T × List T) → Run (Settled T) → Prop where
  | ret {r' : Request T} {told : List T} {s : Settled T} : s.panicked = false → s.writer = r' → Matches r (Run.ret (r', told)) (Run.ret s)
  | panic {f : Fault} {s : Settled T} : f = .bounds ∨ f = .assertion → s.panicked = true → s.writer = r →
    Matches r (Run.fault f) (Run.ret s)
  | fault {f : Fault} : f = .ub ∨ f = .overflow → Matches r (Run.fault f) (Run.fault f)

end Spec

/-- A sound writer is determined by what is written. -/
theorem RequestView.unique (h : RequestView toAppend pre r xs room) (h' : RequestView toAppend pre r' xs room) : r = r' := by
  obtain ⟨a1, a2, ⟨a3, -, a4⟩, a5⟩ := h
  obtain ⟨b1, b2, ⟨b3, -, b4⟩, b5⟩ := h'
  obtain ⟨ra, ⟨_, _, _⟩, ro⟩ := r
  obtain ⟨rb, ⟨_, _, _⟩, rp⟩ := r'
  simp only at a1 a2 a3 a4 a5 b1 b2 b3 b4 b5
  have := funext fun i => (a4 i).trans (b4 i).symm
  simp_all

theorem usizeSub_ends (b : Build) (x y : Nat) : (∃ c, usizeSub b x y = Run.ret c) ∨ usizeSub b x y = Run.fault .overflow := by
  unfold usizeSub
  generalize x + (usizeMax + 1) - y = z
  by_cases h : y ≤ x
  · exact .inl ⟨x - y, if_pos h⟩
  · rw [if_neg h]
    cases b with
    | checked => exact .inr rfl
    | wrapping => exact .inl ⟨z, rfl⟩

/-- One operation on a sound writer. -/
theorem quiet_step (h : RequestView toAppend pre r xs room) (op : WriterOp T) (told : List T) :
    Matches r (op.run env.build (requestBufferWriter env (E := Unit)) r told) (op.runPanicking (fun _ => false) env r) := by
  have L := panicWriter_lawful env toAppend pre
  have M := request_lawful (E := Unit) env toAppend pre
  have writes : ∀ ys told', Matches r
      ((requestBufferWriter env (E := Unit)).writeMany r xs.length ys >>= fun w =>
        (requestBufferWriter env (E := Unit)).setLen w (xs.length + ys.length) >>= fun w => pure (w, told'))
      ((panicWriter env).writeMany r xs.length ys >>= fun w => (panicWriter env).setLen w (xs.length + ys.length) >>= fun w =>
        pure { panicked := false, writer := w, dropped := [], back := [] }) := by
    intro ys told'
    by_cases hr : xs.length + ys.length ≤ room
    · obtain ⟨w₁, e₁, h₁⟩ := M.fill ys h hr
      obtain ⟨w₂, e₂, h₂⟩ := L.fill ys h hr
      rw [← Run.bind_assoc', e₁, ← Run.bind_assoc', e₂, Run.ret_bind, Run.ret_bind]
      exact .ret rfl (h₂.unique h₁)
    · rw [M.overrun ys h (by omega), L.overrun ys h (by omega), Run.fault_bind, Run.fault_bind]
      exact .fault (.inl rfl)
  cases op with
  | push x =>
    simp only [WriterOp.run, WriterOp.runPanicking]
    have hc : (panicWriter env).capacity r = Run.ret (room - xs.length) := request_capacity (E := Unit) env h
    obtain ⟨l1, l2, l3⟩ := L.pushItem h hc x
    obtain ⟨m1, m2, m3⟩ := M.pushItem h (request_capacity (E := Unit) env h) x
    by_cases hx : xs.length = room - xs.length
    · rw [l1 hx, m1 hx, Run.ret_bind, Run.ret_bind]
      exact .ret rfl rfl
    · by_cases hr : xs.length < room
      · obtain ⟨w₁, e₁, h₁⟩ := m2 hx hr
        obtain ⟨w₂, e₂, h₂⟩ := l2 hx hr
        rw [e₁, e₂, Run.ret_bind, Run.ret_bind]
        exact .ret rfl (h₂.unique h₁)
      · rw [l3 hx hr, m3 hx hr, Run.fault_bind, Run.fault_bind]
        exact .fault (.inl rfl)
  | fill ys =>
    simp only [WriterOp.run, WriterOp.runPanicking]
    have he : (panicWriter env).spareCapacity env.build r = (requestBufferWriter env (E := Unit)).spareCapacity env.build r := rfl
    rw [he]
    unfold BufferWriter.spareCapacity
    rw [M.len h, Run.ret_bind, request_capacity env h, Run.ret_bind]
    have rest : ∀ c : Nat, Matches r
        (((requestBufferWriter env (E := Unit)).within r xs.length c >>= fun _ => (pure (xs.length, c) : Run (Nat × Nat))) >>=
          fun p => if ys.length ≤ p.2 then (requestBufferWriter env (E := Unit)).writeMany r p.1 ys >>= fun w =>
            (requestBufferWriter env (E := Unit)).setLen w (p.1 + ys.length) >>= fun w => pure (w, told ++ ys) else pure (r, told))
        (((requestBufferWriter env (E := Unit)).within r xs.length c >>= fun _ => (pure (xs.length, c) : Run (Nat × Nat))) >>=
          fun p => if ys.length ≤ p.2 then (panicWriter env).writeMany r p.1 ys >>= fun w =>
            (panicWriter env).setLen w (p.1 + ys.length) >>= fun w =>
              pure { panicked := false, writer := w, dropped := [], back := [] }
            else pure { panicked := false, writer := r, dropped := [], back := ys }) := by
      intro c
      have hw : (requestBufferWriter env (E := Unit)).within r xs.length c = Run.ret () ∨
          (requestBufferWriter env (E := Unit)).within r xs.length c = Run.fault .ub := by
        show (if _ then _ else _) = _ ∨ (if _ then _ else _) = _
        split
        · exact .inl rfl
        · exact .inr rfl
      rcases hw with hw | hw
      · rw [hw, Run.ret_bind]
        show Matches r (if ys.length ≤ c then _ else _) (if ys.length ≤ c then _ else _)
        split
        · exact writes ys _
        · exact .ret rfl rfl
      · rw [hw]
        exact .fault (.inl rfl)
    rcases usizeSub_ends env.build (room - xs.length) xs.length with ⟨c, hc⟩ | hc
    · rw [hc]
      exact rest c
    · rw [hc]
      exact .fault (.inr rfl)
  | raw ys =>
    simp only [WriterOp.run, WriterOp.runPanicking]
    rw [M.len h, L.len h, Run.ret_bind, Run.ret_bind]
    exact writes ys _
  | set i x =>
    simp only [WriterOp.run, WriterOp.runPanicking, Request.setItem, BufferWriter.setItem]
    rw [M.len h, L.len h, Run.ret_bind, Run.ret_bind]
    by_cases hi : i < xs.length
    · obtain ⟨w₁, e₁, h₁⟩ := M.replace x h hi
      obtain ⟨w₂, e₂, h₂⟩ := L.replace x h hi
      rw [if_pos hi, e₁, if_pos hi, L.read h i hi, Run.ret_bind, Run.ret_bind, ← Run.bind_assoc', e₂]
      exact .ret rfl (h₂.unique h₁)
    · rw [if_neg hi, if_neg hi, Run.fault_bind]
      exact .panic (.inl rfl) rfl rfl
  | shrink k =>
    simp only [WriterOp.run, WriterOp.runPanicking]
    obtain ⟨c1, c2, -, -⟩ := shrinkTo_cases (panics := fun _ => false) (env := env) h k
    by_cases hk : k ≤ xs.length
    · obtain ⟨w₁, e₁, h₁⟩ := M.shrinkTo h hk
      obtain ⟨w₂, e₂, h₂⟩ := c2 hk (by simp)
      rw [e₁, e₂, Run.ret_bind]
      exact .ret rfl (h₂.unique h₁)
    · rw [c1 (by omega)]
      unfold BufferWriter.shrinkTo
      rw [M.len h, Run.ret_bind, if_pos hk, Run.fault_bind]
      exact .panic (.inr rfl) rfl rfl

/-- No operation of a source then tears a hole into the buffer. -/
theorem quiet_whole (hh : Handled (fun _ => false) env start hist r) (h : RequestView toAppend pre start xs room) : ¬ Torn hist := by
  induction hh with
  | start => exact fun ⟨_, _, hm, _⟩ => nomatch hm
  | @step hist r op s hh hs ih =>
    rw [torn_append]
    rintro (ht | ⟨k, rfl, h1, h2⟩)
    · exact ih ht
    · rcases C113_exact h hh with ⟨-, ys, hv, -⟩ | ⟨ht, -⟩
      · obtain ⟨c1, c2, -, -⟩ := shrinkTo_cases (panics := fun _ => false) (env := env) hv k
        simp only [WriterOp.runPanicking] at hs
        by_cases hk : k ≤ ys.length
        · obtain ⟨r', e, -⟩ := c2 hk (by simp)
          rw [e] at hs
          simp at hs
          subst hs
          simp at h1
        · rw [c1 (by omega)] at hs
          simp at hs
          subst hs
          exact h2 rfl
      · exact ih ht

/-- C113. Where no destructor panics, each operation on a requested writer, after any operations, panics included, does what it
does in the model of C53, which knows no panicking destructors. -/
theorem C113_quiet (hb : Holds buf pend) (hreq : Control.requestWriter env { buf := buf } n = Run.ret start)
    (hh : Handled (fun _ => false) env start hist r) (op : WriterOp T) (told : List T) :
    Matches r (op.run env.build (requestBufferWriter env (E := Unit)) r told) (op.runPanicking (fun _ => false) env r) := by
  obtain ⟨app, pre, room, hv, -, -⟩ := request_view hb hreq
  rcases C113_exact hv hh with ⟨-, ys, hv, -⟩ | ⟨ht, -⟩
  · exact quiet_step hv op told
  · exact absurd ht (quiet_whole hh hv)

/-- Such a history, and an operation after it that panics. -/
example : ∃ (start r : Request Nat) (hist : List (WriterOp Nat × Settled Nat)),
    Control.requestWriter plainEnv ({ buf := .empty 0 } : Control Nat) 8 = Run.ret start ∧
    Handled (fun _ => false) plainEnv start hist r ∧ droppedOf hist = [8] ∧
    (WriterOp.set 4 9).run plainEnv.build (requestBufferWriter plainEnv (E := Unit)) r [7] = Run.fault .bounds ∧
    ∃ s, (WriterOp.set 4 9).runPanicking (fun _ => false) plainEnv r = Run.ret s ∧ s.panicked = true :=
  ⟨_, _, _, rfl, .step (.step (.step .start (op := .push 7) rfl) (op := .push 8) rfl) (op := .shrink 1) rfl, rfl, rfl, _, rfl, rfl⟩

end Parcom
