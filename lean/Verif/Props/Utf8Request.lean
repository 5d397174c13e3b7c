import Verif.Props.Utf8
/-!
# C123: what the validator writes when it asks for a writer
-/
namespace Parcom
open Spec
variable {E : Type}

/-! ## The claim -/

/-- A strategy is safe code, so it may return any number or panic, but it is defined. The allocator gives at least what is
asked for, or refuses. -/
structure SafeEnv (env : Env) : Prop where
  strategy : ∀ n, env.calcCapacity n ≠ Run.fault .ub
  defined : ∀ n, env.withCapacity n ≠ Run.fault .ub
  alloc : ∀ n c, env.withCapacity n = Run.ret c → n ≤ c

/-- What `request_writer(n)` of the validator's control does in the state of the validator `v`, on a loader with the buffer `buf`. -/
def askWriter (env : Env) (v : Validator) (buf : RawVec UInt8) (n : Nat) : Run (Utf8Writer (Request UInt8)) :=
  (utf8Control env.build (genericControl (E := Utf8Error E) env)).requestWriter
    { buffered := v.buffered, rest := v.rest, control := { buf } } n

/-- C123: whatever the strategy is, and whatever size a source asks for, asking for a writer is defined. -/
def C123Statement : Prop := ∀ (E : Type) (b : Build) (ms : List (ValidatedMove E)) (st : Validated E) (env : Env) (n : Nat),
  ReachesValidated b ms st → SafeEnv env → n ≤ usizeMax → askWriter (E := E) env st.validator st.sys.loader.buf n ≠ Run.fault .ub

/-! ## What happens -/

/-- The sum of the bytes kept back and the size asked for, as a `usize`, if the build lets it be computed. -/
def Asked (b : Build) (kept n total : Nat) : Prop :=
  (kept + n ≤ usizeMax ∧ total = kept + n) ∨ (b = .wrapping ∧ usizeMax < kept + n ∧ total = kept + n - (usizeMax + 1))

theorem asked_iff {b : Build} {kept n total : Nat} (hk : kept ≤ 3) (hn : n ≤ usizeMax) :
    usizeAdd b kept n = Run.ret total ↔ Asked b kept n total := by
  unfold usizeAdd Asked
  have hm : 3 < usizeMax := by decide
  split
  · rename_i h
    rw [Run.pure_eq_ret]
    constructor
    · rintro rfl; exact .inl ⟨h, rfl⟩
    · rintro (⟨-, rfl⟩ | ⟨-, h', -⟩)
      · rfl
      · omega
  · rename_i h
    cases b with
    | checked =>
      constructor
      · intro e; exact absurd e (by simp)
      · rintro (⟨h', -⟩ | ⟨h', -⟩)
        · exact absurd h' h
        · exact absurd h' (by decide)
    | wrapping =>
      rw [Run.pure_eq_ret, show (kept + n) % (usizeMax + 1) = kept + n - (usizeMax + 1) by
        rw [Nat.mod_eq_sub_mod (by omega), Nat.mod_eq_of_lt (by omega)]]
      constructor
      · intro e
        have e : kept + n - (usizeMax + 1) = total := by simpa using e
        exact Or.inr ⟨rfl, Nat.lt_of_not_le h, e.symm⟩
      · rintro (⟨h', -⟩ | ⟨-, -, e⟩)
        · exact absurd h' h
        · rw [e]

/-- Writing more than there is room for is undefined. -/
theorem writeMany_outside {env : Env} {xs : List UInt8} : ∀ {r : Request UInt8} {a : Nat}, r.offset + a ≤ r.buf.cap →
    r.buf.cap < r.offset + a + xs.length → (requestBufferWriter (E := Utf8Error E) env).writeMany r a xs = Run.fault .ub := by
  induction xs with
  | nil => intro r a h h'; simp at h'; omega
  | cons x xs ih =>
    intro r a h h'
    show ((r.buf.write (r.offset + a) x >>= fun buf => pure { r with buf }) >>= _) = _
    unfold RawVec.write
    by_cases hlt : r.offset + a < r.buf.cap
    · rw [if_pos hlt]
      simp only [Run.pure_bind']
      refine ih (r := { r with buf := { r.buf with cells := _ } }) (a := a + 1) ?_ ?_
      · show r.offset + (a + 1) ≤ r.buf.cap
        omega
      · show r.buf.cap < r.offset + (a + 1) + xs.length
        simp at h'
        omega
    · rw [if_neg hlt]; rfl

/-- The request once the size is computed. -/
theorem askWriter_eq {env : Env} {buf : RawVec UInt8} {v : Validator} {n total : Nat} (ht : usizeAdd env.build v.buffered n = Run.ret total)
    (hv : v.Ok) : askWriter (E := E) env v buf n = (Control.requestWriter env { buf } total >>= fun req =>
      (requestBufferWriter (E := Utf8Error E) env).writeMany req 0 v.kept >>= fun req =>
      (requestBufferWriter (E := Utf8Error E) env).setLen req v.buffered >>= fun req => pure { buffered := v.buffered, req }) := by
  show Utf8Control.requestWriter _ _ _ _ = _
  unfold Utf8Control.requestWriter
  simp only [ht, Run.ret_bind]
  congr 1
  funext req
  rw [if_neg (by have := hv.rest; have := hv.buffered; omega)]
  rfl

/-- A request that gets a buffer is undefined iff the bytes kept back do not fit into it. -/
theorem after_request {env : Env} {v : Validator} {req toAppend : _} {pre : List UInt8} {room : Nat} (hv : v.Ok)
    (hview : RequestView toAppend pre req [] room) :
    ((requestBufferWriter (E := Utf8Error E) env).writeMany req 0 v.kept >>= fun req =>
      (requestBufferWriter (E := Utf8Error E) env).setLen req v.buffered >>= fun req =>
        (pure { buffered := v.buffered, req } : Run (Utf8Writer (Request UInt8)))) = Run.fault .ub ↔ room < v.buffered := by
  have hk := hv.kept
  have hl := hview.room
  have ho := hview.offset
  constructor
  · intro h
    by_cases hr : v.buffered ≤ room
    · exfalso
      obtain ⟨req', hw, -⟩ := (request_lawful (E := Utf8Error E) env toAppend pre).fill v.kept hview (by
        rw [List.length_nil, hk]; omega)
      simp only [List.length_nil, Nat.zero_add, hk] at hw
      obtain ⟨req₁, h1, h2⟩ := Run.bind_eq_ret.mp hw
      have h2 : (requestBufferWriter (E := Utf8Error E) env).setLen req₁ v.buffered = Run.ret req' := h2
      rw [h1, Run.ret_bind, h2, Run.ret_bind] at h
      exact absurd h (by simp)
    · omega
  · intro h
    rw [writeMany_outside (by omega) (by omega)]
    rfl

/-- C123, exactly: it is undefined iff a new buffer is needed and the strategy's is too small for the bytes kept back, or the old
one is taken, because the size has wrapped around, and is too small for them. -/
theorem C123_exact {env : Env} {buf : RawVec UInt8} {pend : List UInt8} {v : Validator} {n : Nat} (hs : SafeEnv env)
    (hb : Holds buf pend) (hv : v.Ok) (hn : n ≤ usizeMax) :
    askWriter (E := E) env v buf n = Run.fault .ub ↔ ∃ total, Asked env.build v.buffered n total ∧
      ((buf.cap < pend.length + total ∧ ∃ c got, env.calcCapacity total = Run.ret c ∧ env.withCapacity c = Run.ret got ∧ got < v.buffered) ∨
       (pend.length + total ≤ buf.cap ∧ buf.cap < pend.length + v.buffered)) := by
  by_cases hask : ∃ total, usizeAdd env.build v.buffered n = Run.ret total
  · obtain ⟨total, ht⟩ := hask
    have ha := (asked_iff hv.buffered hn).mp ht
    have huniq : ∀ t, Asked env.build v.buffered n t → t = total := by
      intro t h
      have := (asked_iff hv.buffered hn).mpr h
      rw [ht] at this
      simpa using this.symm
    rw [askWriter_eq ht hv]
    have hf := hb.fits
    have hreq : Control.requestWriter env { buf := buf } total =
        if buf.cap - pend.length ≥ total then pure { toAppend := .empty env.newCapacity, buf := buf, offset := pend.length }
        else env.calcCapacity total >>= fun c => env.withCapacity c >>= fun got => pure { toAppend := buf, buf := .empty got, offset := 0 } := by
      unfold Control.requestWriter
      simp only [hb.len]
      rw [usizeSub_ret _ hf, Run.ret_bind]
    constructor
    · intro h
      refine ⟨total, ha, ?_⟩
      rw [hreq] at h
      by_cases hfit : buf.cap - pend.length ≥ total
      · rw [if_pos hfit, Run.pure_bind'] at h
        have := (after_request (E := E) (env := env) (toAppend := .empty env.newCapacity) (pre := pend) (room := buf.cap - pend.length) hv
          ⟨rfl, rfl, by rw [List.append_nil]; exact hb, by show buf.cap = _; omega⟩).mp h
        exact .inr ⟨by omega, by omega⟩
      · rw [if_neg hfit] at h
        left
        refine ⟨by omega, ?_⟩
        have hstrat := hs.strategy total
        have hdef := hs.defined
        rcases hc : env.calcCapacity total with _ | e | c
        · rw [hc] at h; exact absurd h (by intro h; cases h)
        · rw [hc] at h hstrat
          exact absurd (show (some (Except.error e) : Run Nat) = Run.fault .ub by cases h; rfl) hstrat
        · rw [show (some (Except.ok c) : Run Nat) = Run.ret c from rfl] at hc
          rw [hc, Run.ret_bind] at h
          rcases hg : env.withCapacity c with _ | e | got
          · rw [hg] at h; exact absurd h (by intro h; cases h)
          · have := hdef c
            rw [hg] at h this
            exact absurd (show (some (Except.error e) : Run Nat) = Run.fault .ub by cases h; rfl) this
          · rw [show (some (Except.ok got) : Run Nat) = Run.ret got from rfl] at hg
            rw [hg, Run.ret_bind, Run.pure_bind'] at h
            exact ⟨c, got, rfl, hg, (after_request (E := E) (env := env) (toAppend := buf) (pre := []) (room := got) hv
              ⟨rfl, rfl, holds_empty _, by show got = _; simp⟩).mp h⟩
    · rintro ⟨t, hta, h⟩
      obtain rfl := huniq t hta
      rw [hreq]
      rcases h with ⟨hlt, c, got, hc, hg, hlt'⟩ | ⟨hle, hlt⟩
      · rw [if_neg (by omega), hc, Run.ret_bind, hg, Run.ret_bind, Run.pure_bind']
        exact (after_request (E := E) (env := env) (toAppend := buf) (pre := []) (room := got) hv
          ⟨rfl, rfl, holds_empty _, by show got = _; simp⟩).mpr hlt'
      · rw [if_pos (by omega), Run.pure_bind']
        exact (after_request (E := E) (env := env) (toAppend := .empty env.newCapacity) (pre := pend) (room := buf.cap - pend.length) hv
          ⟨rfl, rfl, by rw [List.append_nil]; exact hb, by show buf.cap = _; omega⟩).mpr (by omega)
  · constructor
    · intro h
      exfalso
      have h : (usizeAdd env.build v.buffered n >>= _) = _ := h
      unfold usizeAdd at h hask
      split at h
      · rename_i hle
        exact hask ⟨_, if_pos hle⟩
      · rename_i hle
        cases hbd : env.build with
        | checked => rw [hbd] at h; exact absurd h (by intro h; cases h)
        | wrapping => exact hask ⟨_, by rw [if_neg hle, hbd]; rfl⟩
    · rintro ⟨t, hta, -⟩
      exact absurd ⟨t, (asked_iff hv.buffered hn).mpr hta⟩ hask

/-- C123, what is true: the strategy returns at least what it is asked for, and the sizes add up. Missing: other strategies, and
sizes of almost `usize::MAX` without overflow checks. -/
theorem C123_partial {b : Build} {ms : List (ValidatedMove E)} {st : Validated E} {env : Env} {n : Nat} (h : ReachesValidated b ms st)
    (hs : SafeEnv env) (hl : ∀ n c, env.calcCapacity n = Run.ret c → n ≤ c) (hn : n ≤ usizeMax)
    (hsum : env.build = .checked ∨ n + 3 ≤ usizeMax) :
    askWriter (E := E) env st.validator st.sys.loader.buf n ≠ Run.fault .ub := by
  obtain ⟨s, hi⟩ := vinv_reaches h
  obtain ⟨ms', hr⟩ := hi.reaches
  obtain ⟨pend, hp⟩ := (inv_reaches hr).pending
  have hb : Holds st.sys.loader.buf pend := by rw [hi.sim.sys]; exact hp
  have hbuf := hi.ok.buffered
  intro hub
  obtain ⟨total, ha, hcase⟩ := (C123_exact hs hb hi.ok hn).mp hub
  have htot : total = st.validator.buffered + n := by
    rcases ha with ⟨-, e⟩ | ⟨e, hlt, -⟩
    · exact e
    · rcases hsum with h' | h'
      · rw [h'] at e; exact absurd e (by decide)
      · omega
  rcases hcase with ⟨-, c, got, hc, hg, hlt⟩ | ⟨h1, h2⟩
  · have := hl _ _ hc
    have := hs.alloc _ _ hg
    omega
  · omega

/-- C123, exactly, for strategies that return at least what they are asked for: it takes a build without overflow checks and a
size for which the sum wraps around. -/
theorem C123_lawful {env : Env} {buf : RawVec UInt8} {pend : List UInt8} {v : Validator} {n : Nat} (hs : SafeEnv env)
    (hl : ∀ n c, env.calcCapacity n = Run.ret c → n ≤ c) (hb : Holds buf pend) (hv : v.Ok) (hn : n ≤ usizeMax) :
    askWriter (E := E) env v buf n = Run.fault .ub ↔ env.build = .wrapping ∧ usizeMax < v.buffered + n ∧
      ((buf.cap < pend.length + (v.buffered + n - (usizeMax + 1)) ∧ ∃ c got,
          env.calcCapacity (v.buffered + n - (usizeMax + 1)) = Run.ret c ∧ env.withCapacity c = Run.ret got ∧ got < v.buffered) ∨
       (pend.length + (v.buffered + n - (usizeMax + 1)) ≤ buf.cap ∧ buf.cap < pend.length + v.buffered)) := by
  rw [C123_exact hs hb hv hn]
  constructor
  · rintro ⟨total, ⟨hle, rfl⟩ | ⟨hbd, hlt, e⟩, h⟩
    · exfalso
      rcases h with ⟨-, c, got, hc, hg, hlt⟩ | ⟨h1, h2⟩
      · have := hl _ _ hc
        have := hs.alloc _ _ hg
        omega
      · omega
    · rw [e] at h
      exact ⟨hbd, hlt, h⟩
  · intro ⟨hbd, hlt, h⟩
    exact ⟨v.buffered + n - (usizeMax + 1), Or.inr ⟨hbd, hlt, Eq.refl (v.buffered + n - (usizeMax + 1))⟩, h⟩

/-- If asking is undefined, so is the load. -/
theorem C123_load {b : Build} {st : Validated E} {env : Env} {n : Nat} (ops : List (WriterOp UInt8)) (fin : WriterEnd E)
    (h : askWriter (E := E) env st.validator st.sys.loader.buf n = Run.fault .ub) :
    st.move b (.load env (.request n ops fin)) = Run.fault .ub := by
  unfold askWriter at h
  simp only [Validated.move, loadValidated, Validator.next, Script.run, h]
  rfl

/-! ## It is false -/

/-- A strategy in safe code. -/
def stingyEnv : Env where
  build := .checked
  calcCapacity n := pure (if n ≤ 1 then n else 0)
  withCapacity n := pure n
  newCapacity := 0

/-- `calc_capacity` returns what it is asked for, in a build without overflow checks. -/
def releaseEnv : Env where
  build := .wrapping
  calcCapacity n := pure n
  withCapacity n := pure n
  newCapacity := 0

theorem stingy_safe : SafeEnv stingyEnv where
  strategy n := by simp [stingyEnv]
  defined n := by simp [stingyEnv]
  alloc n c h := by simp [stingyEnv] at h; omega

theorem release_safe : SafeEnv releaseEnv where
  strategy n := by simp [releaseEnv]
  defined n := by simp [releaseEnv]
  alloc n c h := by simp [releaseEnv] at h; omega

/-- The first byte of `é` is loaded and kept back, then the sequence is told to commit. -/
def loneLoad (env : Env) : List (ValidatedMove Nat) := [.load env (.request 1 [.raw [0xC3]] .advance), .other (.forceCommit env)]

theorem loneLoad_ret {env : Env} (b : Build) (hc : env.calcCapacity 1 = Run.ret 1) (hw : env.withCapacity 1 = Run.ret 1)
    (h0 : env.newCapacity = 0) : ∃ st : Validated Nat, (Validated.init 0).run b (loneLoad env) = Run.ret st ∧ st.validator.buffered = 1 ∧
      st.sys.loader.buf = .empty 0 := by
  obtain ⟨bd, strategy, alloc, new⟩ := env
  simp only at hc hw h0
  subst h0
  have hm : 1 ≤ usizeMax := by decide
  simp [loneLoad, Validated.run, Validated.move, loadValidated, Validator.next, Script.run, utf8Control, Utf8Control.requestWriter,
    Validated.init, Validator.new, usizeAdd, genericControl, Control.requestWriter, hc, hw, Loading.init, RawVec.empty, usizeSub, hm,
    BufferWriter.writeMany, requestBufferWriter, RawVec.setLen, RawVec.write, runOps, WriterOp.run, utf8BufferWriter, Utf8Writer.advance,
    BufferWriter.asSlice, BufferWriter.readMany, RawVec.read, validUpTo_lone, BufferWriter.shrinkTo, BufferWriter.dropMany, RawVec.dropAt,
    Request.advance, finishLoad, newlyCommitted, Loading.move, forceCommit, commitTo, RawVec.readMany]

/-- The stingy strategy: asking for one byte more is undefined. The strategy is the same all along. -/
theorem C123_stingy : ∃ st : Validated Nat, ReachesValidated .checked (loneLoad stingyEnv) st ∧
    askWriter (E := Nat) stingyEnv st.validator st.sys.loader.buf 1 = Run.fault .ub := by
  obtain ⟨st, h, hv, hb⟩ := loneLoad_ret (env := stingyEnv) .checked rfl rfl rfl
  have hr : ReachesValidated .checked (loneLoad stingyEnv) st := ⟨0, h⟩
  obtain ⟨s, hi⟩ := vinv_reaches hr
  refine ⟨st, hr, (C123_exact (pend := []) stingy_safe (by rw [hb]; exact holds_empty 0) hi.ok (by decide)).mpr
    ⟨2, .inl ⟨by rw [hv]; decide, by rw [hv]⟩, .inl ⟨by rw [hb]; decide, 0, 0, rfl, rfl, by rw [hv]; decide⟩⟩⟩

/-- A strategy as it should be, in a build without overflow checks: asking for `usize::MAX` bytes is undefined. -/
theorem C123_wraps : ∃ st : Validated Nat, ReachesValidated .wrapping (loneLoad releaseEnv) st ∧
    askWriter (E := Nat) releaseEnv st.validator st.sys.loader.buf usizeMax = Run.fault .ub := by
  obtain ⟨st, h, hv, hb⟩ := loneLoad_ret (env := releaseEnv) .wrapping rfl rfl rfl
  have hr : ReachesValidated .wrapping (loneLoad releaseEnv) st := ⟨0, h⟩
  obtain ⟨s, hi⟩ := vinv_reaches hr
  refine ⟨st, hr, (C123_exact (pend := []) release_safe (by rw [hb]; exact holds_empty 0) hi.ok (Nat.le_refl _)).mpr
    ⟨0, .inr ⟨rfl, by rw [hv]; decide, by rw [hv]; decide⟩, .inr ⟨by rw [hb]; decide, by rw [hb, hv]; decide⟩⟩⟩

/-- C123 is false. -/
theorem C123_false : ¬ C123Statement := by
  intro h
  obtain ⟨st, hr, hub⟩ := C123_stingy
  exact h Nat _ _ st _ _ hr stingy_safe (by decide) hub

/-- C123 is false with a strategy as it should be as well. -/
theorem C123_false_lawful : ¬ ∀ (E : Type) (b : Build) (ms : List (ValidatedMove E)) (st : Validated E) (env : Env) (n : Nat),
    ReachesValidated b ms st → SafeEnv env → LawfulEnv env → n ≤ usizeMax →
      askWriter (E := E) env st.validator st.sys.loader.buf n ≠ Run.fault .ub := by
  intro h
  obtain ⟨st, hr, hub⟩ := C123_wraps
  exact h Nat _ _ st _ _ hr release_safe ⟨fun n c h => by simp [releaseEnv] at h; omega, release_safe.alloc⟩ (Nat.le_refl _) hub

/-- The second of two chunks, from one source and with one strategy, is undefined to load. -/
example : ∃ st : Validated Nat, ReachesValidated .checked (loneLoad stingyEnv) st ∧
    st.move .checked (.load stingyEnv (.request 1 [.raw [0xA9]] .advance)) = Run.fault .ub := by
  obtain ⟨st, hr, hub⟩ := C123_stingy
  exact ⟨st, hr, C123_load _ _ hub⟩

/-- `C123_partial` has instances that ask with bytes kept back. -/
example : ∃ st : Validated Nat, ReachesValidated .checked (loneLoad plainEnv) st ∧ st.validator.buffered = 1 ∧
    askWriter (E := Nat) plainEnv st.validator st.sys.loader.buf 1 ≠ Run.fault .ub := by
  obtain ⟨st, h, hv, -⟩ := loneLoad_ret (env := plainEnv) .checked rfl rfl rfl
  have hr : ReachesValidated .checked (loneLoad plainEnv) st := ⟨0, h⟩
  exact ⟨st, hr, hv, C123_partial hr ⟨fun n => by simp [plainEnv], fun n => by simp [plainEnv], plainEnv_lawful.alloc⟩
    plainEnv_lawful.strategy (by decide) (.inl rfl)⟩

end Parcom
