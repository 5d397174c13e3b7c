import Verif.Props.Utf8
/-!
# C100: loads that are never polled

`load` (loader.rs:100-105) calls `next` of the source at once, and `IteratorSource::next` (iterator_source.rs:47-63) does all
it does before it returns. So when the future of such a load is dropped without being polled, the script of the source has
been done and its result is lost.
-/
namespace Parcom
open Spec
variable {T E : Type}

/-- A load whose result is lost does to the buffer of the loader what it would have done otherwise, and to the visible nodes
nothing. -/
theorem move_lost {b : Build} {s s₁ : Loading T E} {env : Env} {script : Script T E} (hi : Inv s)
    (he : s.move b (.load env script) = Run.ret s₁) : ∃ told r log, s₁.log = log ++ [.loaded told r] ∧
    s.move b (.load env (.lost script)) =
      Run.ret { s with loader := { s.loader with buf := s₁.loader.buf }, log := s.log ++ [.loaded told none] } := by
  simp only [Loading.move] at he
  obtain ⟨⟨⟨r, told⟩, cells, loader⟩, h1, h2⟩ := Run.bind_eq_ret.mp he
  obtain ⟨new, -, h2⟩ := Run.bind_eq_ret.mp h2
  simp only [Run.pure_eq_ret] at h2
  subst h2
  refine ⟨told, r, _, rfl, ?_⟩
  unfold load at h1
  obtain ⟨⟨out, told'⟩, h3, h4⟩ := Run.bind_eq_ret.mp h1
  have hload : load env (.lost script) s.cells s.loader = Run.ret ((none, told), s.cells, { s.loader with buf := loader.buf }) := by
    unfold load
    simp only [Script.run, h3, Run.ret_bind]
    cases out with
    | done x =>
      obtain ⟨res, buf⟩ := x
      obtain ⟨⟨r', h', t'⟩, -, h4⟩ := Run.bind_eq_ret.mp h4
      simp at h4
      obtain ⟨⟨-, rfl⟩, -, rfl⟩ := h4
      rfl
    | droppedWriter w =>
      simp at h4
      obtain ⟨⟨-, rfl⟩, -, rfl⟩ := h4
      rfl
    | droppedControl c =>
      simp at h4
      obtain ⟨⟨-, rfl⟩, -, rfl⟩ := h4
      rfl
    | droppedResult x =>
      obtain ⟨res, buf⟩ := x
      simp at h4
      obtain ⟨⟨-, rfl⟩, -, rfl⟩ := h4
      rfl
  simp only [Loading.move, hload, Run.ret_bind, newlyCommitted_same _ _ hi.cells.unset, List.map_nil, List.append_nil]
  rfl

/-- C100 in full: what was pending and what the source had yielded for the load is pending when the future of the load has been
dropped, not polled. -/
def C100Statement : Prop := ∀ (T E : Type) (b : Build) (ms : List (Move T E)) (s s' : Loading T E) (env : Env) (chunks : List (List T))
  (log : List (Obs T E)) (told pend : List T), LawfulEnv env → Reaches b ms s → Pending s pend →
  s.move b (.load env (.lost (IteratorSource.script chunks))) = Run.ret s' → s'.log = log ++ [.loaded told none] →
  Pending s' (pend ++ told) ∧ committedOf s'.log = committedOf s.log

/-- C100, exactly: a chunk that fits behind the pending items is added to them. One that does not fit replaces them. At the end
of the iterator they are gone. -/
theorem C100_exact {b : Build} {ms : List (Move T E)} {s s' : Loading T E} {env : Env} {chunks : List (List T)} {log : List (Obs T E)}
    {told pend : List T} (h : Reaches b ms s) (hp : Pending s pend)
    (he : s.move b (.load env (.lost (IteratorSource.script chunks))) = Run.ret s') (hl : s'.log = log ++ [.loaded told none]) :
    committedOf s'.log = committedOf s.log ∧
    (∀ seg iter, chunks = seg :: iter → pend.length + seg.length ≤ s.loader.buf.cap → Pending s' (pend ++ told)) ∧
    (∀ seg iter, chunks = seg :: iter → s.loader.buf.cap < pend.length + seg.length → Pending s' told) ∧
    (chunks = [] → Pending s' []) := by
  obtain ⟨h1, h2⟩ := C77_exact h he hl hp
  refine ⟨h1, ?_, ?_, ?_⟩
  · rintro seg iter rfl hf
    simp only [IteratorSource.script, leftBehind, if_pos hf] at h2
    exact h2
  · rintro seg iter rfl hf
    simp only [IteratorSource.script, leftBehind, if_neg (Nat.not_le.mpr hf)] at h2
    exact h2
  · rintro rfl
    exact h2

/-- C100, what is true: the chunk fits behind the pending items. Missing: chunks that do not, and the end of the iterator. -/
theorem C100_partial {b : Build} {ms : List (Move T E)} {s s' : Loading T E} {env : Env} {seg : List T} {iter : List (List T)}
    {log : List (Obs T E)} {told pend : List T} (h : Reaches b ms s) (hp : Pending s pend)
    (he : s.move b (.load env (.lost (IteratorSource.script (seg :: iter)))) = Run.ret s') (hl : s'.log = log ++ [.loaded told none])
    (hf : pend.length + seg.length ≤ s.loader.buf.cap) : Pending s' (pend ++ told) ∧ committedOf s'.log = committedOf s.log :=
  have h := C100_exact h hp he hl
  ⟨h.2.1 seg iter rfl hf, h.1⟩

/-- C100: such a load does return, if it would when polled, and has written what it would have written then. -/
theorem C100_returns {b : Build} {s : Loading T E} {env : Env} {ms : List (Move T E)} {pend seg : List T} {iter : List (List T)}
    (h : Reaches b ms s) (hp : Pending s pend) {room : Nat}
    (hroom : (pend.length + seg.length ≤ s.loader.buf.cap ∧ room = s.loader.buf.cap - pend.length) ∨
      (s.loader.buf.cap < pend.length + seg.length ∧ seg.length ≤ room ∧
        ∃ c, env.calcCapacity seg.length = Run.ret c ∧ env.withCapacity c = Run.ret room)) :
    ∃ s', s.move b (.load env (.lost (IteratorSource.script (seg :: iter)))) = Run.ret s' ∧
      s'.log = s.log ++ [.loaded (seg.take (stored room seg.length)) none] := by
  obtain ⟨s₁, log, info, e, hl, -⟩ := C54_exact h hp (b := b) (iter := iter) hroom
  obtain ⟨told, r, log', hl', e'⟩ := move_lost (inv_reaches h) e
  refine ⟨_, e', ?_⟩
  rw [hl] at hl'
  have := (List.append_inj' hl' rfl).2
  simp at this
  rw [this.1]

/-- The end of the iterator always gets there. -/
theorem finish_returns {s : Loading T E} (b : Build) (env : Env) (hi : Inv s) {pend : List T} (hp : Pending s pend) :
    ∃ s', s.move b (.load env (IteratorSource.script [])) = Run.ret s' ∧ Pending s' [] ∧
      s'.log = s.log ++ [.committed pend] ++ [.loaded [] (some (.ok (.done pend.length)))] := by
  have e := commitTo_ret hi.cells s.loader.buf
  have hmove : s.move b (.load env (IteratorSource.script [])) = Run.ret { s with
      cells := .mk (fun i => if i = s.loader.tail then some { buf := s.loader.buf, next := s.cells.fresh } else s.cells.get i)
        (s.cells.fresh + 1), loader := { buf := .empty env.newCapacity, tail := s.cells.fresh },
      log := s.log ++ [.committed pend] ++ [.loaded [] (some (.ok (.done pend.length)))] } := by
    simp only [Loading.move, load, IteratorSource.script, Script.run, genericControl, Run.pure_bind', finishLoad, e, Run.ret_bind,
      newlyCommitted_commit hi.cells e hp, hp.len]
    rfl
  exact ⟨_, hmove, holds_empty _, by simp⟩

/-- C100 is false, and what is lost stays lost: after a load of one item, a load that is not polled and one that is, the last
one reports the end, and nothing is visible or pending. -/
theorem C100_all_lost : ∃ s : Loading Nat Nat, Reaches .checked [.load plainEnv (IteratorSource.script [[7]]),
      .load plainEnv (.lost (IteratorSource.script [])), .load plainEnv (IteratorSource.script [])] s ∧
    acceptedOf s.log = [7] ∧ committedOf s.log = [] ∧ Pending s [] ∧ ∃ log, s.log = log ++ [.loaded [] (some (.ok (.done 0)))] := by
  obtain ⟨s₁, log₁, info, e₁, hlog₁, l, rfl, hno⟩ := C54_exact (E := Nat) (b := .checked) (env := plainEnv) (ms := []) (s := Loading.init 0)
    (pend := []) (seg := [7]) (iter := []) (room := 1) ⟨0, rfl⟩ (holds_empty 0) (.inr ⟨by decide, by decide, 1, rfl, rfl⟩)
  obtain ⟨-, -, -, -, -, -, hcom⟩ := move_load_committed (inv_init 0) (holds_empty 0) e₁
  have hcom₁ : committedOf s₁.log = [] := by rcases hcom with ⟨-, e⟩ | ⟨-, e⟩ <;> rw [e] <;> rfl
  have hacc₁ : acceptedOf s₁.log = [7] := by
    rw [hlog₁, acceptedOf_append, acceptedOf_quiet hno]
    rfl
  have hr₁ : Reaches .checked [.load plainEnv (IteratorSource.script [[7]])] s₁ := ⟨0, run_single.mpr e₁⟩
  have hi₁ := inv_reaches hr₁
  obtain ⟨pend₁, hp₁⟩ := hi₁.pending
  obtain ⟨s₀, e₀, hp₀, hlog₀⟩ := finish_returns .checked plainEnv hi₁ hp₁
  obtain ⟨told, r, log, hl, e₂⟩ := move_lost hi₁ e₀
  generalize hs₂ : ({ s₁ with loader := { s₁.loader with buf := s₀.loader.buf }, log := s₁.log ++ [.loaded told none] } : Loading Nat Nat) = s₂ at e₂
  have hp₂ : Pending s₂ [] := by rw [← hs₂]; exact hp₀
  have hlog₂ : s₂.log = s₁.log ++ [.loaded told none] := by rw [← hs₂]
  have hr₂ : Reaches .checked ([.load plainEnv (IteratorSource.script [[7]])] ++ [.load plainEnv (.lost (IteratorSource.script []))]) s₂ :=
    ⟨0, run_append.mpr ⟨s₁, run_single.mpr e₁, run_single.mpr e₂⟩⟩
  obtain ⟨s₃, e₃, hp₃, hlog₃⟩ := finish_returns .checked plainEnv (inv_reaches hr₂) hp₂
  refine ⟨s₃, ?_, ?_, ?_, hp₃, _, hlog₃⟩
  · obtain ⟨c, hr₂⟩ := hr₂
    exact ⟨c, run_append (ms := [_, _]).mpr ⟨s₂, hr₂, run_single.mpr e₃⟩⟩
  · rw [hlog₃, hlog₂]
    simp only [acceptedOf_append, hacc₁]
    rfl
  · rw [hlog₃, hlog₂, committedOf]
    unfold committedOf at hcom₁
    simp only [segmentsOf_append, List.flatten_append, hcom₁]
    rfl

theorem C100_false : ¬ C100Statement := by
  intro h
  obtain ⟨s, hr, hp⟩ := one_pending
  obtain ⟨s₀, e₀, hp₀, -⟩ := finish_returns .checked plainEnv (inv_reaches hr) hp
  obtain ⟨told, r, log, hl, e⟩ := move_lost (inv_reaches hr) e₀
  have h1 := (h Nat Nat .checked _ s _ plainEnv [] _ told [7] plainEnv_lawful hr hp e rfl).1
  exact absurd (Spec.Holds.unique h1 hp₀) (by simp)

/-- A load of one more item that is not polled. -/
example : ∃ s s' : Loading Nat Nat, Reaches .checked [.load plainEnv (IteratorSource.script [[7]])] s ∧ Pending s [7] ∧
    s.move .checked (.load plainEnv (.lost (IteratorSource.script [[8]]))) = Run.ret s' ∧ ∃ log told, s'.log = log ++ [.loaded told none] := by
  obtain ⟨s, hr, hp⟩ := one_pending
  by_cases hf : 1 + 1 ≤ s.loader.buf.cap
  · obtain ⟨s', e, hl⟩ := C100_returns (seg := [8]) (iter := []) hr hp (.inl ⟨hf, rfl⟩)
    exact ⟨s, s', hr, hp, e, _, _, hl⟩
  · obtain ⟨s', e, hl⟩ := C100_returns (env := plainEnv) (seg := [8]) (iter := []) (room := 1) hr hp (.inr ⟨Nat.not_le.mp hf, Nat.le_refl _, 1, rfl, rfl⟩)
    exact ⟨s, s', hr, hp, e, _, _, hl⟩

end Parcom
