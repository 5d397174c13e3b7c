import Verif.Lemmas.Utf8
import Verif.Props.Loader
/-!
# C60–C63, C78, C85: Utf8Validator
-/
namespace Parcom
open Spec
variable {E : Type}

/-- The loader gets here from its beginning. -/
def ReachesValidated (b : Build) (ms : List (ValidatedMove E)) (st : Validated E) : Prop :=
  ∃ c, (Validated.init c).run b ms = Run.ret st

/-- No load was dropped. -/
def NoDrop {T E : Type} (log : List (Obs T E)) : Prop := ∀ told, .loaded told none ∉ log

/-- If the source got a writer, it handed it back by `advance` or `cancel`. -/
def Script.HandsBack {T E : Type} : Script T E → Prop
  | .request _ _ .drop => False
  | .request _ _ .advance | .request _ _ (.cancel _) => True
  | .cancel _ | .finish | .drop => True
  | .lost s => s.HandsBack

/-- In all loads the source did. -/
def AllHandBack (ms : List (ValidatedMove E)) : Prop := ∀ env script, .load env script ∈ ms → script.HandsBack

/-! ## A validated history is a history -/

/-- The log without what the loads were told. -/
def untold {T E : Type} : Obs T E → Obs T E
  | .loaded _ r => .loaded [] r
  | o => o

/-- The same but for what the loads were told. -/
structure Sim (st : Validated E) (s : Loading UInt8 (Utf8Error E)) : Prop where
  sys : st.sys = { s with log := st.sys.log }
  log : st.sys.log.map untold = s.log.map untold

theorem segmentsOf_untold {T E : Type} (l : List (Obs T E)) : segmentsOf (l.map untold) = segmentsOf l := by
  induction l with
  | nil => rfl
  | cons o l ih => cases o <;> simp [untold, segmentsOf, ih]

theorem Sim.segments {st : Validated E} {s : Loading UInt8 (Utf8Error E)} (h : Sim st s) : segmentsOf st.sys.log = segmentsOf s.log := by
  rw [← segmentsOf_untold, h.log, segmentsOf_untold]

theorem Sim.allOk {st : Validated E} {s : Loading UInt8 (Utf8Error E)} (h : Sim st s) (hok : AllOk st.sys.log) : AllOk s.log := by
  intro t r hm
  have : untold (.loaded t r) ∈ s.log.map untold := List.mem_map_of_mem hm
  rw [← h.log] at this
  obtain ⟨o, ho, e⟩ := List.mem_map.mp this
  cases o with
  | loaded t' r' =>
    simp [untold] at e
    obtain ⟨info, hi⟩ := hok t' r' ho
    exact ⟨info, by rw [← e, hi]⟩
  | _ => simp [untold] at e

theorem Sim.noDrop {st : Validated E} {s : Loading UInt8 (Utf8Error E)} (h : Sim st s) (hok : NoDrop st.sys.log) : NoDrop s.log := by
  intro t hm
  have : untold (.loaded t none) ∈ s.log.map untold := List.mem_map_of_mem hm
  rw [← h.log] at this
  obtain ⟨o, ho, e⟩ := List.mem_map.mp this
  cases o with
  | loaded t' r' =>
    simp [untold] at e
    subst e
    exact hok t' ho
  | _ => simp [untold] at e

/-- What a step other than a load does does not depend on the log. -/
theorem move_other {T E : Type} {b : Build} {s s' : Loading T E} {m : Move T E} (hm : ∀ env script, m ≠ .load env script)
    (he : s.move b m = Run.ret s') : ∃ ls, s'.log = s.log ++ ls ∧ (∀ t r, .loaded t r ∉ ls) ∧
      ∀ l, Loading.move b { s with log := l } m = Run.ret { s' with log := l ++ ls } := by
  cases m with
  | load env script => exact absurd rfl (hm env script)
  | forceCommit env =>
    simp only [Loading.move] at he ⊢
    obtain ⟨⟨cells, loader⟩, h1, he⟩ := Run.bind_eq_ret.mp he
    obtain ⟨new, h2, he⟩ := Run.bind_eq_ret.mp he
    simp at he
    subst he
    refine ⟨new.map .committed, rfl, by simp, fun l => ?_⟩
    simp only [h1, Run.ret_bind, h2]
    rfl
  | advance length =>
    simp only [Loading.move] at he ⊢
    split at he
    · simp at he
      subst he
      exact ⟨[], by simp, by simp, fun l => by simp [Run.pure_eq]⟩
    · simp at he
      subst he
      refine ⟨[], by simp, by simp, fun l => ?_⟩
      first
        | (split <;> first | contradiction | simp [Run.pure_eq])
        | simp [Run.pure_eq]
  | get =>
    simp only [Loading.move] at he ⊢
    split at he
    · rename_i length remain c hrd
      obtain ⟨turn, h1, he⟩ := Run.bind_eq_ret.mp he
      rcases turn with ⟨k, c'⟩ | ⟨k, c'⟩ <;> simp at he <;> subst he
      · exact ⟨[.advanced length k], rfl, by simp, fun l => by simp [h1, Run.pure_eq]⟩
      · exact ⟨[], by simp, by simp, fun l => by simp [h1, Run.pure_eq]⟩
    · simp at he
      subst he
      refine ⟨[], by simp, by simp, fun l => ?_⟩
      first
        | (split <;> first | contradiction | simp [Run.pure_eq])
        | simp [Run.pure_eq]
  | segments =>
    simp only [Loading.move] at he ⊢
    split at he
    · simp at he
      subst he
      exact ⟨[.iterates], rfl, by simp, fun l => by simp [Run.pure_eq]⟩
    · simp at he
      subst he
      refine ⟨[], by simp, by simp, fun l => ?_⟩
      first
        | (split <;> first | contradiction | simp [Run.pure_eq])
        | simp [Run.pure_eq]
  | next =>
    simp only [Loading.move] at he ⊢
    split at he
    · rename_i c hrd
      obtain ⟨⟨o, c'⟩, h1, he⟩ := Run.bind_eq_ret.mp he
      cases o with
      | none =>
        simp at he; subst he
        exact ⟨[.exhausted], rfl, by simp, fun l => by simp [h1, Run.pure_eq]⟩
      | some seg =>
        simp at he; subst he
        exact ⟨[.yielded seg], rfl, by simp, fun l => by simp [h1, Run.pure_eq]⟩
    · simp at he
      subst he
      refine ⟨[], by simp, by simp, fun l => ?_⟩
      first
        | (split <;> first | contradiction | simp [Run.pure_eq])
        | simp [Run.pure_eq]
  | dropIter =>
    simp only [Loading.move] at he ⊢
    split at he
    · simp at he
      subst he
      exact ⟨[], by simp, by simp, fun l => by simp [Run.pure_eq]⟩
    · simp at he
      subst he
      refine ⟨[], by simp, by simp, fun l => ?_⟩
      first
        | (split <;> first | contradiction | simp [Run.pure_eq])
        | simp [Run.pure_eq]

/-- A load of a validated loader. -/
theorem validated_load {b : Build} {st st' : Validated E} {s : Loading UInt8 (Utf8Error E)} {env : Env} {script : Script UInt8 E}
    (hs : Sim st s) (hi : Inv s) (hv : st.validator.Ok) (he : st.move b (.load env script) = Run.ret st') :
    st'.validator.Ok ∧ ∃ s' script' told told' r, ∃ new : List (List UInt8), s.move b (.load env script') = Run.ret s' ∧ Sim st' s' ∧
      Passes st.validator script told script' told' st'.validator ∧
      st'.sys.log = st.sys.log ++ new.map .committed ++ [.loaded told r] ∧
      s'.log = s.log ++ new.map .committed ++ [.loaded told' r] := by
  obtain ⟨pend, hp⟩ := hi.pending
  simp only [Validated.move] at he
  obtain ⟨⟨⟨r, told⟩, v', cells, loader⟩, h1, he⟩ := Run.bind_eq_ret.mp he
  obtain ⟨new, h2, he⟩ := Run.bind_eq_ret.mp he
  simp only [Run.pure_eq_ret] at he
  subst he
  have hcells : st.sys.cells = s.cells := by rw [hs.sys]
  have hloader : st.sys.loader = s.loader := by rw [hs.sys]
  rw [hcells, hloader] at h1
  simp only [hcells, hloader] at h2
  obtain ⟨hv', script', told', h3, hpass⟩ := loadValidated_load hp hv h1
  refine ⟨hv', { s with cells, loader, log := s.log ++ new.map .committed ++ [.loaded told' r] }, script', told, told', r, new, ?_, ⟨?_, ?_⟩,
    hpass, rfl, rfl⟩
  · simp only [Loading.move, h3, Run.ret_bind, h2]
    rfl
  · have hhead : st.sys.head = s.head := by rw [hs.sys]
    have hreader : st.sys.reader = s.reader := by rw [hs.sys]
    simp only [hhead, hreader]
  · simp only [List.map_append, hs.log]
    rfl

/-- Where a validated loader gets. -/
structure VInv (b : Build) (ms : List (ValidatedMove E)) (st : Validated E) (s : Loading UInt8 (Utf8Error E)) : Prop where
  reaches : ∃ ms, Reaches b ms s
  sim : Sim st s
  ok : st.validator.Ok
  stream : AllOk st.sys.log → acceptedOf st.sys.log = acceptedOf s.log ++ st.validator.kept ∧ Valid (acceptedOf s.log) ∧
    validUpTo st.validator.kept = 0
  valid : AllHandBack ms → (∀ seg ∈ segmentsOf s.log, Valid seg) ∧ ∀ pend, Pending s pend → Valid pend
  handsBack : NoDrop st.sys.log → AllHandBack ms

theorem acceptedOf_quiet {T E : Type} {l : List (Obs T E)} (h : ∀ t r, .loaded t r ∉ l) : acceptedOf l = [] := by
  induction l with
  | nil => rfl
  | cons o l ih =>
    have := ih fun t r h' => h t r (List.mem_cons_of_mem _ h')
    cases o with
    | loaded t r => exact absurd List.mem_cons_self (h t r)
    | _ => exact this

theorem committed_quiet {T E : Type} (new : List (List T)) : ∀ t r, Obs.loaded (E := E) t r ∉ new.map .committed := by simp

theorem Passes.result {v v' : Validator} {script : Script UInt8 E} {script' : Script UInt8 (Utf8Error E)} {told told' pend : List UInt8}
    {env : Env} {h h' : Cells UInt8} {l l' : Loader UInt8} {r : Option (Except (Utf8Error E) LoadInfo)}
    (hp : Passes v script told script' told' v') (hc : LoadCase env h l pend script' r told' h' l') :
    (∃ info, r = some (.ok info) ∧ v'.kept = (v.kept ++ told).drop (validUpTo (v.kept ++ told)) ∧
      told' = (v.kept ++ told).take (validUpTo (v.kept ++ told)) ∧ (v.kept ++ told).length ≤ validUpTo (v.kept ++ told) + 3) ∨
    (∃ info, r = some (.ok info) ∧ v' = v ∧ told = [] ∧ told' = [] ∧ script = .finish) ∨
    (r = some (.error .invalidSequence) ∧ v' = v ∧ validUpTo (v.kept ++ told) + 3 < (v.kept ++ told).length) ∨
    (∃ e, r = some (.error (.inner e)) ∧ v' = v ∧ ∀ n ops, script ≠ .request n ops .advance) ∨
    (r = none ∧ v' = v ∧ ∀ n ops, script ≠ .request n ops .advance) := by
  cases hp with
  | advance h1 h2 =>
    left
    cases hc <;> exact ⟨_, rfl, h2, rfl, h1⟩
  | invalid h1 =>
    right; right; left
    cases hc <;> exact ⟨rfl, rfl, h1⟩
  | cancelWriter =>
    right; right; right; left
    cases hc <;> exact ⟨_, rfl, rfl, by simp⟩
  | dropWriter =>
    right; right; right; right
    cases hc <;> exact ⟨rfl, rfl, by simp⟩
  | cancel =>
    right; right; right; left
    cases hc; exact ⟨_, rfl, rfl, by simp⟩
  | finish =>
    right; left
    cases hc; exact ⟨_, rfl, rfl, rfl, rfl, rfl⟩
  | drop =>
    right; right; right; right
    cases hc; exact ⟨rfl, rfl, by simp⟩
  | lost =>
    right; right; right; right
    cases hc; exact ⟨rfl, rfl, by simp⟩

theorem Passes.none {v v' : Validator} {script : Script UInt8 E} {script' : Script UInt8 (Utf8Error E)} {told told' pend : List UInt8}
    {env : Env} {h h' : Cells UInt8} {l l' : Loader UInt8} {r : Option (Except (Utf8Error E) LoadInfo)}
    (hp : Passes v script told script' told' v') (hc : LoadCase env h l pend script' r told' h' l') (hb : ¬ script.HandsBack) :
    r = Option.none := by
  cases hp with
  | dropWriter | lost => cases hc <;> rfl
  | _ => exact absurd trivial hb

/-- If the writer was handed back, what is then pending is valid. -/
theorem Passes.pending_valid {v v' : Validator} {script : Script UInt8 E} {script' : Script UInt8 (Utf8Error E)} {told told' pend : List UInt8}
    {env : Env} {h h' : Cells UInt8} {l l' : Loader UInt8} {r : Option (Except (Utf8Error E) LoadInfo)}
    (hp : Passes v script told script' told' v') (hc : LoadCase env h l pend script' r told' h' l') (hb : script.HandsBack)
    (hh : Holds l.buf pend) (hpend : Valid pend) : ∃ pend', Holds l'.buf pend' ∧ Valid pend' := by
  induction hp generalizing r h' l' with
  | @advance _ _ _ _ t _ _ _ =>
    have hv := (validUpTo_longest (v.kept ++ t)).valid
    cases hc with
    | append _ hh _ => exact ⟨_, hh, hpend.append hv⟩
    | fresh _ _ hh => exact ⟨_, hh, hv⟩
    | switch _ _ hh _ => exact ⟨_, hh, hv⟩
  | invalid h1 =>
    cases hc with
    | cancelWriter _ hh _ => exact ⟨_, hh, hpend⟩
    | cancelFresh _ hh => exact ⟨_, hh, valid_nil⟩
  | cancelWriter =>
    cases hc with
    | cancelWriter _ hh _ => exact ⟨_, hh, hpend⟩
    | cancelFresh _ hh => exact ⟨_, hh, valid_nil⟩
  | dropWriter => exact hb.elim
  | cancel => cases hc; exact ⟨_, hh, hpend⟩
  | finish => cases hc; exact ⟨_, holds_empty _, valid_nil⟩
  | drop => cases hc; exact ⟨_, hh, hpend⟩
  | lost _ ih =>
    cases hc with
    | lost hc => obtain ⟨pend', h1, h2⟩ := ih hc hb; exact ⟨pend', h1, h2⟩

theorem vinv_reaches {b : Build} {ms : List (ValidatedMove E)} {st : Validated E} (h : ReachesValidated b ms st) : ∃ s, VInv b ms st s := by
  obtain ⟨c, h⟩ := h
  have start : VInv b [] (Validated.init c : Validated E) (Loading.init c) := by
    refine ⟨⟨[], c, rfl⟩, ⟨rfl, rfl⟩, validator_new_ok, fun _ => ⟨rfl, valid_nil, ?_⟩, fun _ => ⟨(fun _ h => nomatch h), fun pend hp => ?_⟩,
      fun _ _ _ h => nomatch h⟩
    · exact validUpTo_of_valid (bs := []) valid_nil
    · have : pend = [] := Spec.Holds.unique hp (holds_empty c)
      rw [this]; exact valid_nil
  suffices key : ∀ (ms past : List (ValidatedMove E)) (st₀ : Validated E), (∃ s, VInv b past st₀ s) → st₀.run b ms = Run.ret st →
      ∃ s, VInv b (past ++ ms) st s from key ms [] _ ⟨_, start⟩ h
  clear h start
  intro ms
  induction ms with
  | nil => intro past st₀ hi h; simp [Validated.run] at h; subst h; rw [List.append_nil]; exact hi
  | cons m ms ih =>
    intro past st₀ hi h
    simp only [Validated.run] at h
    obtain ⟨st₁, h1, h2⟩ := Run.bind_eq_ret.mp h
    rw [show past ++ m :: ms = (past ++ [m]) ++ ms by simp]
    refine ih (past ++ [m]) st₁ ?_ h2
    obtain ⟨s, hi⟩ := hi
    obtain ⟨ms₀, hr⟩ := hi.reaches
    have hinv := inv_reaches hr
    cases m with
    | load env script =>
      obtain ⟨hv', s', script', told, told', r, new, hmove, hsim, hpass, hlog, hlog'⟩ := validated_load hi.sim hinv hi.ok h1
      obtain ⟨pend, hp⟩ := hinv.pending
      obtain ⟨r₁, told₁, hc, -, -, hcom⟩ := move_load hinv hp hmove
      have hcut : ∀ {P : Obs UInt8 (Utf8Error E) → Prop}, (∀ o ∈ st₁.sys.log, P o) → ∀ o ∈ st₀.sys.log, P o := by
        intro P h o ho
        apply h
        rw [hlog]
        simp [ho]
      have hlast : told₁ = told' ∧ r₁ = r := by
        rcases hcom with ⟨-, -, e⟩ | ⟨-, e⟩ <;> rw [hlog'] at e <;> have := (List.append_inj' e rfl).2 <;> simp at this <;>
          exact ⟨this.1.symm, this.2.symm⟩
      obtain ⟨rfl, rfl⟩ := hlast
      refine ⟨s', ⟨ms₀ ++ [.load env script'], ?_⟩, hsim, hv', ?_, ?_, ?_⟩
      · obtain ⟨c, hr⟩ := hr
        exact ⟨c, run_append.mpr ⟨s, hr, run_single.mpr hmove⟩⟩
      · intro hok
        obtain ⟨h3, h4, h5⟩ := hi.stream fun t r hm => hok t r (by rw [hlog]; simp [hm])
        obtain ⟨info, hinfo⟩ := hok told r₁ (by rw [hlog]; simp)
        have ea : acceptedOf st₁.sys.log = acceptedOf s.log ++ (st₀.validator.kept ++ told) := by
          rw [hlog, acceptedOf_append, acceptedOf_append, acceptedOf_quiet (committed_quiet new), h3, hinfo]
          simp [acceptedOf]
        have ea' : acceptedOf s'.log = acceptedOf s.log ++ told₁ := by
          rw [hlog', acceptedOf_append, acceptedOf_append, acceptedOf_quiet (committed_quiet new), hinfo]
          simp [acceptedOf]
        rw [ea, ea']
        rcases hpass.result hc with ⟨_, -, e1, e2, -⟩ | ⟨_, -, e1, e2, e3, -⟩ | ⟨e, -⟩ | ⟨_, e, -⟩ | ⟨e, -⟩
        · have hl := validUpTo_longest (st₀.validator.kept ++ told)
          rw [e1, e2]
          refine ⟨by rw [List.append_assoc, List.take_append_drop], h4.append hl.valid, ?_⟩
          have := validUpTo_append (bs := (st₀.validator.kept ++ told).drop (validUpTo (st₀.validator.kept ++ told))) hl.valid
          rw [List.take_append_drop, List.length_take] at this
          have := hl.within
          omega
        · rw [e1, e2, e3]
          simp only [List.append_nil]
          exact ⟨trivial, h4, h5⟩
        · rw [hinfo] at e; simp at e
        · rw [hinfo] at e; simp at e
        · rw [hinfo] at e; simp at e
      · intro hnd
        obtain ⟨h3, h4⟩ := hi.valid fun env script hm => hnd env script (List.mem_append_left _ hm)
        have hpend := h4 pend hp
        constructor
        · rcases hcom with ⟨-, -, e⟩ | ⟨-, e⟩
          · rw [e, segmentsOf_append]; simpa [segmentsOf] using h3
          · rw [e, segmentsOf_append, segmentsOf_append]
            intro seg hs
            simp [segmentsOf] at hs
            rcases hs with hs | rfl
            · exact h3 _ hs
            · exact hpend
        · intro pend' hp'
          obtain ⟨pend₂, hp₂, hval⟩ := hpass.pending_valid hc (hnd env script (by simp)) hp hpend
          rw [Spec.Holds.unique hp' hp₂]; exact hval
      · intro hnd env₂ script₂ hm
        rcases List.mem_append.mp hm with hm | hm
        · exact hi.handsBack (fun t hm => hnd t (by rw [hlog]; simp [hm])) _ _ hm
        · simp only [List.mem_singleton, ValidatedMove.load.injEq] at hm
          obtain ⟨rfl, rfl⟩ := hm
          refine Classical.byContradiction fun hb => ?_
          have := hpass.none hc hb
          subst this
          exact hnd told (by rw [hlog]; simp)
    | other m =>
      by_cases hm : ∃ env script, m = .load env script
      · obtain ⟨env, script, rfl⟩ := hm
        simp [Validated.move] at h1
        subst h1
        refine ⟨s, hi.reaches, hi.sim, hi.ok, hi.stream, fun h => hi.valid fun _ _ hm => h _ _ (List.mem_append_left _ hm), fun h => ?_⟩
        intro env script hm
        rcases List.mem_append.mp hm with hm | hm
        · exact hi.handsBack h _ _ hm
        · simp at hm
      · have hm : ∀ env script, m ≠ .load env script := fun env script e => hm ⟨env, script, e⟩
        have h1 : (st₀.sys.move b m >>= fun sys => pure { st₀ with sys }) = Run.ret st₁ := by
          cases m <;> first | exact h1 | exact absurd rfl (hm _ _)
        obtain ⟨sys', h3, h4⟩ := Run.bind_eq_ret.mp h1
        simp at h4
        subst h4
        obtain ⟨ls, hls, hq, hall⟩ := move_other hm h3
        have hmove := hall s.log
        have e0 : ({ st₀.sys with log := s.log } : Loading UInt8 (Utf8Error E)) = s := by rw [hi.sim.sys]
        rw [e0] at hmove
        have hacc : acceptedOf ls = [] := acceptedOf_quiet hq
        have hsim : Sim { st₀ with sys := sys' } { sys' with log := s.log ++ ls } := by
          refine ⟨rfl, ?_⟩
          show sys'.log.map untold = _
          rw [hls, List.map_append, hi.sim.log, List.map_append]
        refine ⟨{ sys' with log := s.log ++ ls }, ⟨ms₀ ++ [m], ?_⟩, hsim, hi.ok, ?_, ?_, ?_⟩
        · obtain ⟨c, hr⟩ := hr
          exact ⟨c, run_append.mpr ⟨s, hr, run_single.mpr hmove⟩⟩
        · intro hok
          have hok : AllOk sys'.log := hok
          obtain ⟨h5, h6, h7⟩ := hi.stream fun t r hm => hok t r (by rw [hls]; simp [hm])
          refine ⟨?_, ?_, h7⟩
          · show acceptedOf sys'.log = _
            rw [hls, acceptedOf_append, acceptedOf_append, hacc, List.append_nil, List.append_nil, h5]
          · show Valid (acceptedOf (_ ++ _))
            rw [acceptedOf_append, hacc, List.append_nil]; exact h6
        · intro hnd
          obtain ⟨h5, h6⟩ := hi.valid fun env script hm => hnd env script (List.mem_append_left _ hm)
          obtain ⟨pend, hp⟩ := hinv.pending
          have hpend := h6 pend hp
          cases m with
          | load env script => exact absurd rfl (hm env script)
          | forceCommit env =>
            obtain ⟨s₂, e, hp₂, -, -, -, hlog₂⟩ := move_forceCommit (b := b) (env := env) hinv hp
            rw [hmove] at e
            simp at e
            subst e
            simp only at hlog₂
            constructor
            · show ∀ seg ∈ segmentsOf (_ ++ _), _
              rw [hlog₂, segmentsOf_append]
              intro seg hs
              simp [segmentsOf] at hs
              rcases hs with hs | rfl
              · exact h5 _ hs
              · exact hpend
            · intro pend' hp'
              rw [Spec.Holds.unique hp' hp₂]; exact valid_nil
          | _ =>
            have hrest : sys'.loader = st₀.sys.loader ∧ segmentsOf ls = [] := by
              have := hall []
              simp only [Loading.move] at h3
              split at h3
              all_goals first
                | (simp at h3; subst h3; simp at hls; subst hls; exact ⟨rfl, rfl⟩)
                | (obtain ⟨turn, -, h3⟩ := Run.bind_eq_ret.mp h3
                   rcases turn with ⟨k, c⟩ | ⟨k, c⟩ <;> simp only [Run.pure_eq_ret] at h3 <;> subst h3 <;> simp at hls <;> subst hls <;>
                     exact ⟨rfl, rfl⟩)
                | (obtain ⟨⟨o, c⟩, -, h3⟩ := Run.bind_eq_ret.mp h3
                   cases o <;> simp only [Run.pure_eq_ret] at h3 <;> subst h3 <;> simp at hls <;> subst hls <;> exact ⟨rfl, rfl⟩)
            have hl : sys'.loader = s.loader := by rw [hrest.1, hi.sim.sys]
            constructor
            · show ∀ seg ∈ segmentsOf (_ ++ _), _
              rw [segmentsOf_append, hrest.2, List.append_nil]; exact h5
            · intro pend' hp'
              exact h6 pend' (by have hp' : Holds sys'.loader.buf pend' := hp'; rw [hl] at hp'; exact hp')
        · intro hnd env script hmem
          have hnd : NoDrop sys'.log := hnd
          rcases List.mem_append.mp hmem with hmem | hmem
          · exact hi.handsBack (fun t hm => hnd t (by rw [hls]; simp [hm])) _ _ hmem
          · simp at hmem

/-! ## The properties -/

theorem valid_flatten {segs : List (List UInt8)} (h : ∀ seg ∈ segs, Valid seg) : Valid segs.flatten := by
  induction segs with
  | nil => exact valid_nil
  | cons seg segs ih =>
    rw [List.flatten_cons]
    exact (h seg List.mem_cons_self).append (ih fun x hx => h x (List.mem_cons_of_mem _ hx))

/-- C60: everything that becomes visible is valid UTF-8, segment by segment. No load may be dropped (C78). -/
theorem C60_valid {b : Build} {ms : List (ValidatedMove E)} {st : Validated E} (h : ReachesValidated b ms st) (hd : NoDrop st.sys.log) :
    (∀ seg ∈ segmentsOf st.sys.log, Valid seg) ∧ Valid (committedOf st.sys.log) ∧ ∀ pend, Pending st.sys pend → Valid pend := by
  obtain ⟨s, hi⟩ := vinv_reaches h
  obtain ⟨h1, h2⟩ := hi.valid (hi.handsBack hd)
  rw [← hi.sim.segments] at h1
  refine ⟨h1, ?_, fun pend hp => h2 pend (by have := hi.sim.sys; rw [this] at hp; exact hp)⟩
  exact valid_flatten h1

/-- C60 on any control, also with dropped loads: what the validator does with it is what some source could do, and whenever
that hands over bytes, they are valid. -/
theorem C60_passes {C W R : Type} {b : Build} {S : SequenceControl C W UInt8 R (Utf8Error E)} {v v' : Validator} {c : C}
    {script : Script UInt8 E} {out : Outcome C W R} {told : List UInt8} (hc : LawfulControl S c) (hv : v.Ok)
    (he : v.next b S c script = Run.ret ((out, told), v')) :
    ∃ (script' : Script UInt8 (Utf8Error E)) (told' : List UInt8), script'.run b S c = Run.ret (out, told') ∧
      ∀ n ops, script' = .request n ops .advance → Valid told' := by
  obtain ⟨-, script', told', hrun, hpass⟩ := validator_next hc hv he
  refine ⟨script', told', hrun, fun n ops e => ?_⟩
  cases hpass with
  | advance => exact (validUpTo_longest _).valid
  | _ => simp at e

/-- C62, exactly, for loads that return `Ok`: what has been passed on is the longest valid prefix of the stream, and at
most three bytes are kept back. -/
theorem C62_exact {b : Build} {ms : List (ValidatedMove E)} {st : Validated E} (h : ReachesValidated b ms st) (hok : AllOk st.sys.log) :
    ∃ pend k, Pending st.sys pend ∧ LongestValid (acceptedOf st.sys.log) k ∧
      committedOf st.sys.log ++ pend = (acceptedOf st.sys.log).take k ∧ (acceptedOf st.sys.log).length ≤ k + 3 := by
  obtain ⟨s, hi⟩ := vinv_reaches h
  obtain ⟨ms', hr⟩ := hi.reaches
  obtain ⟨h1, h2, h3⟩ := hi.stream hok
  obtain ⟨pend, hp, hcons⟩ := C55_conservation hr (hi.sim.allOk hok)
  have hk : validUpTo (acceptedOf st.sys.log) = (acceptedOf s.log).length := by rw [h1, validUpTo_append h2, h3, Nat.add_zero]
  refine ⟨pend, _, by rw [hi.sim.sys]; exact hp, validUpTo_longest _, ?_, ?_⟩
  · rw [hk, h1, List.take_append_of_le_length (Nat.le_refl _), List.take_length, ← hcons, committedOf, hi.sim.segments]
    rfl
  · rw [hk, h1, List.length_append, hi.ok.kept]
    have := hi.ok.buffered
    omega

/-- C61: while the stream is valid so far, everything has been passed on. -/
theorem C61_whole {b : Build} {ms : List (ValidatedMove E)} {st : Validated E} (h : ReachesValidated b ms st) (hok : AllOk st.sys.log)
    (hv : Valid (acceptedOf st.sys.log)) : ∃ pend, Pending st.sys pend ∧ committedOf st.sys.log ++ pend = acceptedOf st.sys.log := by
  obtain ⟨pend, k, hp, hk, e, -⟩ := C62_exact h hok
  refine ⟨pend, hp, ?_⟩
  have : k = (acceptedOf st.sys.log).length :=
    Nat.le_antisymm hk.within (hk.longest _ (Nat.le_refl _) (by rw [List.take_length]; exact hv))
  rw [e, this, List.take_length]

/-- C61, C62: a load that hands over its items reports an error iff more than three bytes follow the longest valid prefix of
what has come so far. -/
theorem C62_reports {b : Build} {ms : List (ValidatedMove E)} {st st' : Validated E} {env : Env} {n : Nat}
    {ops : List (WriterOp UInt8)} {told : List UInt8} {r : Option (Except (Utf8Error E) LoadInfo)} {log : List (Obs UInt8 (Utf8Error E))}
    {k : Nat} (h : ReachesValidated b ms st) (hok : AllOk st.sys.log)
    (he : st.move b (.load env (.request n ops .advance)) = Run.ret st') (hl : st'.sys.log = log ++ [.loaded told r])
    (hk : LongestValid (acceptedOf st.sys.log ++ told) k) :
    (k + 3 < (acceptedOf st.sys.log ++ told).length → r = some (.error .invalidSequence)) ∧
    ((acceptedOf st.sys.log ++ told).length ≤ k + 3 → ∃ info, r = some (.ok info)) := by
  obtain ⟨s, hi⟩ := vinv_reaches h
  obtain ⟨ms', hr⟩ := hi.reaches
  obtain ⟨h1, h2, h3⟩ := hi.stream hok
  have hinv := inv_reaches hr
  obtain ⟨pend, hp⟩ := hinv.pending
  obtain ⟨-, s', script', told₂, told', r₂, new, hmove, -, hpass, hlog, hlog'⟩ := validated_load hi.sim hinv hi.ok he
  obtain ⟨r₁, told₁, hc, -, -, hcom⟩ := move_load hinv hp hmove
  have hlast : told₁ = told' ∧ r₁ = r₂ := by
    rcases hcom with ⟨-, -, e⟩ | ⟨-, e⟩ <;> rw [hlog'] at e <;> have := (List.append_inj' e rfl).2 <;> simp at this <;>
      exact ⟨this.1.symm, this.2.symm⟩
  obtain ⟨rfl, rfl⟩ := hlast
  have hlast : told₂ = told ∧ r₁ = r := by
    rw [hl] at hlog
    have := (List.append_inj' hlog rfl).2
    simp at this
    exact ⟨this.1.symm, this.2.symm⟩
  obtain ⟨rfl, rfl⟩ := hlast
  have ek : k = (acceptedOf s.log).length + validUpTo (st.validator.kept ++ told₂) := by
    rw [hk.unique (validUpTo_longest _), h1, List.append_assoc, validUpTo_append h2]
  have el : (acceptedOf st.sys.log ++ told₂).length = (acceptedOf s.log).length + (st.validator.kept ++ told₂).length := by
    rw [h1, List.append_assoc, List.length_append]
  rcases hpass.result hc with ⟨info, e, -, -, e1⟩ | ⟨_, -, -, -, -, e⟩ | ⟨e, -, e1⟩ | ⟨_, -, -, e⟩ | ⟨-, -, e⟩
  · exact ⟨fun hlt => by omega, fun _ => ⟨info, e⟩⟩
  · simp at e
  · exact ⟨fun _ => e, fun hle => by omega⟩
  · exact absurd rfl (e _ _)
  · exact absurd rfl (e _ _)

/-- C61: no error is reported while the stream can still become valid. -/
theorem C61_no_error {b : Build} {ms : List (ValidatedMove E)} {st st' : Validated E} {env : Env} {n : Nat} {ops : List (WriterOp UInt8)}
    {told more : List UInt8} {r : Option (Except (Utf8Error E) LoadInfo)} {log : List (Obs UInt8 (Utf8Error E))}
    (h : ReachesValidated b ms st) (hok : AllOk st.sys.log)
    (he : st.move b (.load env (.request n ops .advance)) = Run.ret st') (hl : st'.sys.log = log ++ [.loaded told r])
    (hv : Valid (acceptedOf st.sys.log ++ told ++ more)) : ∃ info, r = some (.ok info) :=
  (C62_reports h hok he hl (validUpTo_longest _)).2 (validUpTo_of_prefix hv)

/-- C61: when the source is done everything is visible. -/
theorem C61_finished {b : Build} {ms : List (ValidatedMove E)} {st : Validated E} (h : ReachesValidated b ms st) (hok : AllOk st.sys.log)
    (hv : Valid (acceptedOf st.sys.log)) {st' : Validated E} {env : Env} (he : st.move b (.load env .finish) = Run.ret st') :
    committedOf st'.sys.log = acceptedOf st.sys.log := by
  obtain ⟨s, hi⟩ := vinv_reaches h
  obtain ⟨ms', hr⟩ := hi.reaches
  have hinv := inv_reaches hr
  obtain ⟨pend, hp, e⟩ := C61_whole h hok hv
  have hp : Pending s pend := by rw [hi.sim.sys] at hp; exact hp
  obtain ⟨-, s', script', told₂, told', r₂, new, hmove, hsim, hpass, hlog, hlog'⟩ := validated_load hi.sim hinv hi.ok he
  obtain ⟨r₁, told₁, log₁, hc, -, -, hcom⟩ := move_load_committed hinv hp hmove
  rw [committedOf, hsim.segments, ← e, committedOf, hi.sim.segments]
  have hscript : script' = .finish := by
    generalize st'.validator = v' at hpass
    cases hpass; rfl
  subst hscript
  have hne : s'.cells ≠ s.cells := by
    generalize s'.loader = sl at hc
    generalize s'.cells = sc at hc ⊢
    cases hc with
    | finish h0 => exact commitTo_ne hinv.cells h0
  rcases hcom with ⟨h1, -⟩ | ⟨-, h1⟩
  · exact absurd h1 hne
  · exact h1

/-! ## Loads that write a chunk in one go -/

theorem generous_request {T : Type} {env : Env} (hg : Generous env) {buf : RawVec T} {pend : List T} (hb : Holds buf pend) (n : Nat) :
    ∃ w, Control.requestWriter env { buf := buf } n = Run.ret w := by
  unfold Control.requestWriter
  simp only [hb.len]
  rw [usizeSub_ret _ hb.fits, Run.ret_bind]
  by_cases hn : buf.cap - pend.length ≥ n
  · rw [if_pos hn]; exact ⟨_, rfl⟩
  · rw [if_neg hn]
    obtain ⟨c, g, h1, h2⟩ := hg.gives n
    rw [h1, Run.ret_bind, h2]
    exact ⟨_, rfl⟩

theorem usizeAdd_ret (b : Build) {x y : Nat} (h : x + y ≤ usizeMax) : usizeAdd b x y = Run.ret (x + y) := by
  unfold usizeAdd; rw [if_pos h]; rfl

/-- The writer a validator makes of its own. -/
theorem utf8_request_view {env : Env} {buf : RawVec UInt8} {v : Validator} {n room : Nat} {toAppend : RawVec UInt8} {pre : List UInt8}
    {req : Request UInt8} (hv : v.Ok) (hn : v.buffered + n ≤ usizeMax)
    (he : Control.requestWriter env { buf := buf } (v.buffered + n) = Run.ret req)
    (hview : RequestView toAppend pre req [] room) (hr : v.buffered ≤ room) :
    ∃ w, (utf8Control env.build (genericControl (E := Utf8Error E) env)).requestWriter
        { buffered := v.buffered, rest := v.rest, control := { buf } } n = Run.ret w ∧ w.buffered = v.kept.length ∧
      RequestView toAppend pre w.req (v.kept ++ []) room := by
  obtain ⟨req', hw, hview'⟩ := (request_lawful (E := Utf8Error E) env toAppend pre).fill v.kept hview (by
    rw [List.length_nil, hv.kept]; omega)
  refine ⟨⟨v.buffered, req'⟩, ?_, hv.kept.symm, by rw [List.append_nil]; exact hview'⟩
  have he' : (genericControl (E := Utf8Error E) env).requestWriter { buf := buf } (v.buffered + n) = Run.ret req := he
  show Utf8Control.requestWriter _ _ _ _ = _
  unfold Utf8Control.requestWriter
  simp only [usizeAdd_ret env.build hn, he', Run.ret_bind]
  rw [if_neg (by have := hv.rest; have := hv.buffered; omega)]
  simp only [List.length_nil, Nat.zero_add, hv.kept] at hw
  obtain ⟨req₁, h1, h2⟩ := Run.bind_eq_ret.mp hw
  have h1 : (genericControl (E := Utf8Error E) env).writer.writeMany req 0 (v.rest.take v.buffered) = Run.ret req₁ := h1
  have h2 : (genericControl (E := Utf8Error E) env).writer.setLen req₁ v.buffered = Run.ret req' := h2
  rw [h1, Run.ret_bind, h2]
  rfl

/-- The writer a validator gives for `n` items. -/
theorem utf8_request {env : Env} (hl : LawfulEnv env) {buf : RawVec UInt8} {pend : List UInt8} {v : Validator} {n : Nat}
    {req : Request UInt8} (hb : Holds buf pend) (hv : v.Ok) (hn : v.buffered + n ≤ usizeMax) (he : Control.requestWriter env { buf := buf } (v.buffered + n) = Run.ret req) :
    ∃ w toAppend pre room, (utf8Control env.build (genericControl (E := Utf8Error E) env)).requestWriter
        { buffered := v.buffered, rest := v.rest, control := { buf } } n = Run.ret w ∧ w.buffered = v.kept.length ∧
      RequestView toAppend pre w.req (v.kept ++ []) room ∧ v.buffered + n ≤ room := by
  obtain ⟨toAppend, pre, room, hview, hr⟩ := request_room hl hb he
  obtain ⟨w, h1, h2, h3⟩ := utf8_request_view (E := E) hv hn he hview (by omega)
  exact ⟨w, toAppend, pre, room, h1, h2, h3, hr⟩

/-- Such a load returns, and its source can assume to have written the chunk. (A slice has at most `isize::MAX` bytes.) -/
theorem validated_raw {b : Build} {ms : List (ValidatedMove E)} {st : Validated E} {env : Env} (h : ReachesValidated b ms st)
    (hg : Generous env) {n : Nat} {xs : List UInt8} (hn : xs.length ≤ n) (hmax : n + 3 ≤ usizeMax) (fin : WriterEnd E) :
    ∃ st' new r, st.move b (.load env (.request n [.raw xs] fin)) = Run.ret st' ∧
      st'.sys.log = st.sys.log ++ List.map .committed new ++ [.loaded xs r] := by
  obtain ⟨s, hi⟩ := vinv_reaches h
  obtain ⟨ms', hr⟩ := hi.reaches
  have hinv := inv_reaches hr
  obtain ⟨pend, hp⟩ := hinv.pending
  have hcells : st.sys.cells = s.cells := by rw [hi.sim.sys]
  have hloader : st.sys.loader = s.loader := by rw [hi.sim.sys]
  have hb : Holds s.loader.buf pend := hp
  obtain ⟨req, hreq⟩ := generous_request hg hb (st.validator.buffered + n)
  obtain ⟨w, toAppend, pre, room, hw, hwb, hview, hroom⟩ := utf8_request (E := E) hg.toLawfulEnv hb hi.ok (by have := hi.ok.buffered; omega) hreq
  have L := request_lawful (E := Utf8Error E) env toAppend pre
  have hlen := hi.ok.kept
  obtain ⟨req₁, hfill, hview₁⟩ := L.fill xs hview (by rw [List.length_append, List.length_nil]; omega)
  rw [List.append_nil] at hfill hview₁
  have hops : runOps env.build (utf8BufferWriter env.build (requestBufferWriter (E := Utf8Error E) env)) w [] [.raw xs] =
      Run.ret (⟨w.buffered, req₁⟩, xs) := by
    obtain ⟨req₂, h1, h2⟩ := Run.bind_eq_ret.mp hfill
    simp only [runOps, WriterOp.run, utf8_len L hview hwb, List.length_nil, Run.ret_bind, utf8_writeMany, hwb, Nat.add_zero, h1,
      Run.bind_assoc']
    have h3 : (utf8BufferWriter env.build (requestBufferWriter (E := Utf8Error E) env)).setLen ⟨st.validator.kept.length, req₂⟩ (0 + xs.length) =
        Run.ret ⟨st.validator.kept.length, req₁⟩ := by
      show ((requestBufferWriter env).setLen req₂ (0 + xs.length + st.validator.kept.length) >>= _) = _
      rw [show 0 + xs.length + st.validator.kept.length = st.validator.kept.length + xs.length by omega, h2]
      rfl
    rw [h3]
    rfl
  have hnext : ∃ out v', st.validator.next env.build (genericControl (E := Utf8Error E) env) { buf := s.loader.buf }
      (.request n [.raw xs] fin) = Run.ret ((out, xs), v') := by
    have hops' : runOps env.build (utf8Control env.build (genericControl (E := Utf8Error E) env)).writer w [] [.raw xs] =
      Run.ret (⟨w.buffered, req₁⟩, xs) := hops
    have drain : ∀ e : Utf8Error E, ∃ res, (requestBufferWriter env).cancel req₁ e = Run.ret res := by
      intro e
      have hd : req₁.buf.drain req₁.offset = Run.ret _ := if_pos (by rw [hview₁.offset, hview₁.holds.len, List.length_append]; omega)
      exact ⟨_, by simp only [requestBufferWriter, hd, Run.ret_bind]; rfl⟩
    unfold Validator.next
    simp only [Script.run, hw, Run.ret_bind, hops']
    cases fin with
    | advance =>
      have : ∃ res, Utf8Writer.advance (requestBufferWriter (E := Utf8Error E) env) ⟨w.buffered, req₁⟩ = Run.ret res := by
        unfold Utf8Writer.advance
        rw [L.asSlice hview₁, Run.ret_bind]
        have hlong := validUpTo_longest (st.validator.kept ++ xs)
        rw [if_neg (by have := hlong.within; omega)]
        simp only
        split
        · obtain ⟨res, e⟩ := drain .invalidSequence
          rw [e]; exact ⟨_, rfl⟩
        · obtain ⟨req₂, e, -⟩ := L.shrinkTo hview₁ hlong.within
          rw [e]; exact ⟨_, rfl⟩
      obtain ⟨res, e⟩ := this
      have e : (utf8Control env.build (genericControl (E := Utf8Error E) env)).writer.advance ⟨w.buffered, req₁⟩ = Run.ret res := e
      rw [e]
      cases res <;> exact ⟨_, _, rfl⟩
    | cancel e =>
      obtain ⟨res, e'⟩ := drain (.inner e)
      have e' : (utf8Control env.build (genericControl (E := Utf8Error E) env)).writer.cancel ⟨w.buffered, req₁⟩ e = Run.ret (.err res) := by
        show ((requestBufferWriter env).cancel req₁ (Utf8Error.inner e) >>= _) = _
        rw [e']; rfl
      simp only [e', Run.ret_bind]
      exact ⟨_, _, rfl⟩
    | drop => exact ⟨_, _, rfl⟩
  obtain ⟨out, v', hnext⟩ := hnext
  have hload : ∃ r cells loader, loadValidated env st.validator (.request n [.raw xs] fin) s.cells s.loader =
      Run.ret ((r, xs), v', cells, loader) := by
    unfold loadValidated
    rw [hnext, Run.ret_bind]
    cases out with
    | done r =>
      obtain ⟨res, buf⟩ := r
      cases res with
      | appended | cancel => exact ⟨_, _, _, rfl⟩
      | advance v _ _ | finish v =>
        simp only [finishLoad, commitTo_ret hinv.cells, Run.ret_bind, Run.pure_bind']
        exact ⟨_, _, _, rfl⟩
    | droppedWriter | droppedControl | droppedResult => exact ⟨_, _, _, rfl⟩
  obtain ⟨r, cells, loader, hload⟩ := hload
  obtain ⟨-, script', told', h3, -⟩ := loadValidated_load hp hi.ok hload
  have hc := load_cases hinv.cells.unset hp h3
  have hnew : ∃ new, newlyCommitted s.cells cells s.loader.tail = Run.ret new := by
    cases hc with
    | append | fresh | cancelWriter | cancelFresh | dropWriter | dropFresh | cancel | drop | lost =>
      exact ⟨_, newlyCommitted_same _ _ hinv.cells.unset⟩
    | switch _ _ _ e => exact ⟨_, newlyCommitted_commit hinv.cells e hp⟩
    | finish e => exact ⟨_, newlyCommitted_commit hinv.cells e hp⟩
  obtain ⟨new, hnew⟩ := hnew
  have hmove : st.move b (.load env (.request n [.raw xs] fin)) = Run.ret (.mk { st.sys with
      cells := cells, loader := loader, log := st.sys.log ++ new.map .committed ++ [.loaded xs r] } v') := by
    simp only [Validated.move, hcells, hloader, hload, Run.ret_bind, hnew]
    rfl
  exact ⟨_, new, r, hmove, rfl⟩

theorem reachesValidated_step {b : Build} {ms : List (ValidatedMove E)} {m : ValidatedMove E} {st st' : Validated E}
    (h : ReachesValidated b ms st) (he : st.move b m = Run.ret st') : ReachesValidated b (ms ++ [m]) st' := by
  obtain ⟨c, h⟩ := h
  refine ⟨c, ?_⟩
  revert h
  generalize Validated.init c = st₀
  intro h
  induction ms generalizing st₀ with
  | nil =>
    simp [Validated.run] at h
    subst h
    simp only [List.nil_append, Validated.run, he, Run.ret_bind]
    rfl
  | cons m' ms ih =>
    simp only [Validated.run] at h
    obtain ⟨st₁, h1, h2⟩ := Run.bind_eq_ret.mp h
    simp only [List.cons_append, Validated.run, h1, Run.ret_bind]
    exact ih st₁ h2

/-- Ending returns. -/
theorem validated_finish {b : Build} {ms : List (ValidatedMove E)} {st : Validated E} (env : Env) (h : ReachesValidated b ms st) :
    ∃ st', st.move b (.load env .finish) = Run.ret st' := by
  obtain ⟨s, hi⟩ := vinv_reaches h
  obtain ⟨ms', hr⟩ := hi.reaches
  have hinv := inv_reaches hr
  obtain ⟨pend, hp⟩ := hinv.pending
  have hcells : st.sys.cells = s.cells := by rw [hi.sim.sys]
  have hloader : st.sys.loader = s.loader := by rw [hi.sim.sys]
  have hcommit := commitTo_ret hinv.cells s.loader.buf
  have hload : ∃ cells loader, loadValidated env st.validator (.finish : Script UInt8 E) s.cells s.loader =
      Run.ret ((some (.ok (.done s.loader.buf.len)), []), st.validator, cells, loader) ∧
      ∃ new, newlyCommitted s.cells cells s.loader.tail = Run.ret new := by
    unfold loadValidated
    simp only [Validator.next, Script.run, utf8Control, genericControl, Run.pure_bind', finishLoad, hcommit, Run.ret_bind]
    exact ⟨_, _, rfl, _, newlyCommitted_commit hinv.cells hcommit hp⟩
  obtain ⟨cells, loader, hload, new, hnew⟩ := hload
  simp only [Validated.move, hcells, hloader, hload, Run.ret_bind, hnew]
  exact ⟨_, rfl⟩

/-- A source that writes its chunks one after the other. -/
def streamLoads (chunks : List (Env × List UInt8)) : List (ValidatedMove E) :=
  chunks.map fun (env, xs) => .load env (.request xs.length [.raw xs] .advance)

theorem stream_loads {b : Build} {chunks : List (Env × List UInt8)} (hg : ∀ c ∈ chunks, Generous c.1)
    (hs : ∀ c ∈ chunks, c.2.length + 3 ≤ usizeMax) {more : List UInt8} :
    ∀ {ms : List (ValidatedMove E)} {st : Validated E}, ReachesValidated b ms st → AllOk st.sys.log →
      Valid (acceptedOf st.sys.log ++ (chunks.map (·.2)).flatten ++ more) →
      ∃ st', st.run b (streamLoads chunks) = Run.ret st' ∧ ReachesValidated b (ms ++ streamLoads chunks) st' ∧ AllOk st'.sys.log ∧
        acceptedOf st'.sys.log = acceptedOf st.sys.log ++ (chunks.map (·.2)).flatten := by
  induction chunks with
  | nil =>
    intro ms st h hok _
    exact ⟨st, rfl, by simpa [streamLoads] using h, hok, by simp⟩
  | cons ch chunks ih =>
    intro ms st h hok hv
    obtain ⟨env, xs⟩ := ch
    obtain ⟨st₁, new, r, he, hl⟩ := validated_raw h (hg _ List.mem_cons_self) (Nat.le_refl xs.length) (hs _ List.mem_cons_self) (.advance : WriterEnd E)
    simp only [List.map_cons, List.flatten_cons] at hv ⊢
    obtain ⟨info, rfl⟩ := C61_no_error (more := (chunks.map (·.2)).flatten ++ more) h hok he hl (by
      simpa only [List.append_assoc] using hv)
    have ha : acceptedOf st₁.sys.log = acceptedOf st.sys.log ++ xs := by
      rw [hl, acceptedOf_append, acceptedOf_append, acceptedOf_quiet (committed_quiet new)]
      simp [acceptedOf]
    have hok₁ : AllOk st₁.sys.log := by
      intro t r hm
      rw [hl] at hm
      simp at hm
      rcases hm with hm | hm
      · exact hok t r hm
      · exact ⟨info, hm.2⟩
    obtain ⟨st', e, h1, h2, h3⟩ := ih (fun c hc => hg c (List.mem_cons_of_mem _ hc))
      (fun c hc => hs c (List.mem_cons_of_mem _ hc)) (reachesValidated_step h he) hok₁ (by
      rw [ha]; simpa only [List.append_assoc] using hv)
    refine ⟨st', ?_, ?_, h2, by rw [h3, ha, List.append_assoc]⟩
    · simp only [streamLoads, List.map_cons, Validated.run, he, Run.ret_bind]
      exact e
    · simpa [streamLoads] using h1

/-- C61, end to end: however a text is cut into chunks, when all are loaded and the source is done, exactly the text is
visible. (No chunk has more than `isize::MAX` bytes, so `hs` always holds.) -/
theorem C61_stream {b : Build} {chunks : List (Env × List UInt8)} (hg : ∀ c ∈ chunks, Generous c.1)
    (hs : ∀ c ∈ chunks, c.2.length + 3 ≤ usizeMax)
    (hv : Valid (chunks.map (·.2)).flatten) (c : Nat) (env : Env) :
    ∃ st st', (Validated.init c : Validated E).run b (streamLoads chunks) = Run.ret st ∧ AllOk st.sys.log ∧
      st.move b (.load env .finish) = Run.ret st' ∧ committedOf st'.sys.log = (chunks.map (·.2)).flatten := by
  obtain ⟨st, e, h, hok, ha⟩ := stream_loads (E := E) (b := b) (ms := []) (st := Validated.init c) (more := []) hg hs ⟨c, rfl⟩
    (fun _ _ h => nomatch h) (by simpa [Validated.init, Loading.init, acceptedOf] using hv)
  obtain ⟨st', e'⟩ := validated_finish env h
  have ha : acceptedOf st.sys.log = (chunks.map (·.2)).flatten := ha
  exact ⟨st, st', e, hok, e', by rw [← ha]; exact C61_finished h hok (by rw [ha]; exact hv) e'⟩

/-! ## Malformed input -/

/-- C62 in full: if everything was fine up to the end, then so was the stream. -/
def C62Statement : Prop := ∀ (E : Type) (b : Build) (ms : List (ValidatedMove E)) (st st' : Validated E) (env : Env),
  ReachesValidated b ms st → AllOk st.sys.log → st.move b (.load env .finish) = Run.ret st' → Valid (acceptedOf st.sys.log)

/-- C62, what is true: a stream with more than three bytes after its longest valid prefix is reported. Missing: malformed
bytes among the last three. -/
theorem C62_partial {b : Build} {ms : List (ValidatedMove E)} {st : Validated E} (h : ReachesValidated b ms st) {k : Nat}
    (hk : LongestValid (acceptedOf st.sys.log) k) (hlt : k + 3 < (acceptedOf st.sys.log).length) : ¬ AllOk st.sys.log := by
  intro hok
  obtain ⟨pend, k', hp, hk', e, hle⟩ := C62_exact h hok
  have := hk.unique hk'
  omega

theorem validUpTo_lone : validUpTo [0xC3] = 0 := by
  rw [validUpTo]
  have : firstChar [0xC3] = none := by decide
  rw [this]

theorem lone_invalid : ¬ Valid [0xC3] := by
  intro h
  have := validUpTo_of_valid h
  rw [validUpTo_lone] at this
  simp at this

/-- C62 is false: a stream that ends within a character. -/
theorem C62_false : ¬ C62Statement := by
  intro h
  have h0 : ReachesValidated .checked [] (Validated.init 0 : Validated Nat) := ⟨0, rfl⟩
  have hok0 : AllOk (Validated.init 0 : Validated Nat).sys.log := fun _ _ h => nomatch h
  obtain ⟨st, new, r, he, hl⟩ := validated_raw (n := 1) (xs := [0xC3]) h0 plainEnv_generous (Nat.le_refl 1) (by decide) .advance
  obtain ⟨info, rfl⟩ := (C62_reports h0 hok0 he hl (validUpTo_longest _)).2 (by
    show [0xC3].length ≤ validUpTo [0xC3] + 3
    simp)
  have h1 := reachesValidated_step h0 he
  obtain ⟨st', he'⟩ := validated_finish plainEnv h1
  have hl : st.sys.log = List.map .committed new ++ [.loaded [0xC3] (some (.ok info))] := hl
  have ha : acceptedOf st.sys.log = [0xC3] := by
    rw [hl, acceptedOf_append, acceptedOf_quiet (committed_quiet new)]
    simp [acceptedOf]
  have := h Nat .checked _ st st' plainEnv h1 (fun t r hm => by
    rw [hl] at hm; simp at hm; exact ⟨info, hm.2⟩) he'
  rw [ha] at this
  exact lone_invalid this

/-! ## Dropped loads -/

/-- C78 in full: whatever happens, only valid bytes become visible. -/
def C78Statement : Prop := ∀ (E : Type) (b : Build) (ms : List (ValidatedMove E)) (st : Validated E),
  ReachesValidated b ms st → Valid (committedOf st.sys.log)

/-- C78, exactly, for a dropped load after loads that went well: the bytes kept back and the unvalidated ones its source
wrote are now pending. They will become visible, and those kept back are written once more by the next load. -/
theorem C78_exact {b : Build} {ms : List (ValidatedMove E)} {st st' : Validated E} {env : Env} {n k : Nat} {ops : List (WriterOp UInt8)}
    {log : List (Obs UInt8 (Utf8Error E))} {told pend : List UInt8} (h : ReachesValidated b ms st) (hok : AllOk st.sys.log)
    (he : st.move b (.load env (.request n ops .drop)) = Run.ret st') (hl : st'.sys.log = log ++ [.loaded told none])
    (hp : Pending st.sys pend) (hk : LongestValid (acceptedOf st.sys.log) k) :
    committedOf st'.sys.log = committedOf st.sys.log ∧ st'.validator = st.validator ∧
    (Pending st'.sys (pend ++ ((acceptedOf st.sys.log).drop k ++ told)) ∨ Pending st'.sys ((acceptedOf st.sys.log).drop k ++ told)) := by
  obtain ⟨s, hi⟩ := vinv_reaches h
  obtain ⟨ms', hr⟩ := hi.reaches
  obtain ⟨h1, h2, h3⟩ := hi.stream hok
  have hinv := inv_reaches hr
  have hp : Pending s pend := by rw [hi.sim.sys] at hp; exact hp
  obtain ⟨-, s', script', told₂, told', r₂, new, hmove, hsim, hpass, hlog, hlog'⟩ := validated_load hi.sim hinv hi.ok he
  have hk' : (acceptedOf st.sys.log).drop k = st.validator.kept := by
    rw [hk.unique (validUpTo_longest _), h1, validUpTo_append h2, h3, Nat.add_zero, List.drop_left]
  have hlast : told₂ = told ∧ r₂ = none := by
    rw [hl] at hlog
    have := (List.append_inj' hlog rfl).2
    simp at this
    exact ⟨this.1.symm, this.2.symm⟩
  obtain ⟨rfl, rfl⟩ := hlast
  have hs : told' = st.validator.kept ++ told₂ ∧ st'.validator = st.validator ∧ ∃ m ops', script' = .request m ops' .drop := by
    generalize st'.validator = v' at hpass ⊢
    cases hpass
    exact ⟨rfl, rfl, _, _, rfl⟩
  have h4 := C77_exact hr hmove hlog' hp
  refine ⟨?_, hs.2.1, ?_⟩
  · rw [committedOf, hsim.segments, committedOf, hi.sim.segments]; exact h4.1
  · rw [hk', ← hs.1]
    obtain ⟨-, -, m, ops', rfl⟩ := hs
    have hback : Pending st'.sys (leftBehind s pend told' (.request m ops' .drop)) := by rw [hsim.sys]; exact h4.2
    rw [leftBehind] at hback
    split at hback
    · exact .inl hback
    · exact .inr hback

/-- C78, exactly, for a load that is dropped after its source has called `advance`: what is valid of the bytes kept back and
those written is pending as if the load had returned, if it did not ask for a new buffer, but the bytes kept back are
those from before, and the next load writes them once more. Those that are to be kept back now are lost. -/
theorem C78_lost {b : Build} {ms : List (ValidatedMove E)} {st st' : Validated E} {env : Env} {n k j : Nat} {ops : List (WriterOp UInt8)}
    {log : List (Obs UInt8 (Utf8Error E))} {told pend : List UInt8} (h : ReachesValidated b ms st) (hok : AllOk st.sys.log)
    (he : st.move b (.load env (.lost (.request n ops .advance))) = Run.ret st') (hl : st'.sys.log = log ++ [.loaded told none])
    (hp : Pending st.sys pend) (hk : LongestValid (acceptedOf st.sys.log) k)
    (hj : LongestValid ((acceptedOf st.sys.log).drop k ++ told) j) (hle : ((acceptedOf st.sys.log).drop k ++ told).length ≤ j + 3) :
    committedOf st'.sys.log = committedOf st.sys.log ∧ st'.validator = st.validator ∧
    (Pending st'.sys (pend ++ ((acceptedOf st.sys.log).drop k ++ told).take j) ∨
     Pending st'.sys (((acceptedOf st.sys.log).drop k ++ told).take j)) := by
  obtain ⟨s, hi⟩ := vinv_reaches h
  obtain ⟨ms', hr⟩ := hi.reaches
  obtain ⟨h1, h2, h3⟩ := hi.stream hok
  have hinv := inv_reaches hr
  have hp : Pending s pend := by rw [hi.sim.sys] at hp; exact hp
  obtain ⟨-, s', script', told₂, told', r₂, new, hmove, hsim, hpass, hlog, hlog'⟩ := validated_load hi.sim hinv hi.ok he
  have hk' : (acceptedOf st.sys.log).drop k = st.validator.kept := by
    rw [hk.unique (validUpTo_longest _), h1, validUpTo_append h2, h3, Nat.add_zero, List.drop_left]
  have hlast : told₂ = told ∧ r₂ = none := by
    rw [hl] at hlog
    have := (List.append_inj' hlog rfl).2
    simp at this
    exact ⟨this.1.symm, this.2.symm⟩
  obtain ⟨rfl, rfl⟩ := hlast
  rw [hk'] at hj hle ⊢
  have hj := hj.unique (validUpTo_longest _)
  subst hj
  have hs : told' = (st.validator.kept ++ told₂).take (validUpTo (st.validator.kept ++ told₂)) ∧ st'.validator = st.validator ∧
      ∃ m ops', script' = .lost (.request m ops' .advance) := by
    generalize st'.validator = v' at hpass ⊢
    cases hpass with
    | lost hpass =>
      cases hpass with
      | advance => exact ⟨rfl, rfl, _, _, rfl⟩
      | invalid hlt => omega
  have h4 := C77_exact hr hmove hlog' hp
  refine ⟨?_, hs.2.1, ?_⟩
  · rw [committedOf, hsim.segments, committedOf, hi.sim.segments]; exact h4.1
  · rw [← hs.1]
    obtain ⟨-, -, m, ops', rfl⟩ := hs
    have hback : Pending st'.sys (leftBehind s pend told' (.lost (.request m ops' .advance))) := by rw [hsim.sys]; exact h4.2
    rw [leftBehind, leftBehind] at hback
    split at hback
    · exact .inl hback
    · exact .inr hback

/-- C78, what is true: no load was dropped while its source had the writer. Missing: histories with such loads. -/
theorem C78_partial {b : Build} {ms : List (ValidatedMove E)} {st : Validated E} (h : ReachesValidated b ms st) (hd : AllHandBack ms) :
    Valid (committedOf st.sys.log) ∧ ∀ seg ∈ segmentsOf st.sys.log, Valid seg := by
  obtain ⟨s, hi⟩ := vinv_reaches h
  have hv := (hi.valid hd).1
  rw [committedOf, hi.sim.segments]
  exact ⟨valid_flatten hv, hv⟩

/-- C78 is false: what a dropped load wrote stays in the buffer. -/
theorem C78_false : ¬ C78Statement := by
  intro h
  have h0 : ReachesValidated .checked [] (Validated.init 0 : Validated Nat) := ⟨0, rfl⟩
  have hok0 : AllOk (Validated.init 0 : Validated Nat).sys.log := fun _ _ h => nomatch h
  obtain ⟨st, new, r, he, hl⟩ := validated_raw (n := 1) (xs := [0xC3]) h0 plainEnv_generous (Nat.le_refl 1) (by decide) .drop
  have hr : r = none := by
    simp only [Validated.move, loadValidated, Validator.next, Script.run] at he
    obtain ⟨⟨⟨r', told⟩, v, cells, loader⟩, h1, he⟩ := Run.bind_eq_ret.mp he
    obtain ⟨new', -, he⟩ := Run.bind_eq_ret.mp he
    simp only [Run.pure_eq_ret] at he
    subst he
    have := (List.append_inj' hl rfl).2
    simp at this
    rw [← this.2]
    obtain ⟨⟨⟨out, told₁⟩, v₁⟩, h2, h3⟩ := Run.bind_eq_ret.mp h1
    obtain ⟨⟨o, told₂⟩, h4, h5⟩ := Run.bind_eq_ret.mp h2
    obtain ⟨w, -, h4⟩ := Run.bind_eq_ret.mp h4
    obtain ⟨⟨w₁, told₃⟩, -, h4⟩ := Run.bind_eq_ret.mp h4
    simp at h4
    obtain ⟨rfl, rfl⟩ := h4
    simp at h5
    obtain ⟨⟨rfl, rfl⟩, rfl⟩ := h5
    simp at h3
    exact h3.1.1.symm
  subst hr
  have h1 := reachesValidated_step h0 he
  obtain ⟨hc, -, hpend⟩ := C78_exact h0 hok0 he hl (holds_empty 0) (validUpTo_longest _)
  have hp : Pending st.sys [0xC3] := by rcases hpend with hp | hp <;> simpa [Validated.init, Loading.init, acceptedOf] using hp
  obtain ⟨s, hi⟩ := vinv_reaches h1
  obtain ⟨ms', hr⟩ := hi.reaches
  have hps : Pending s [0xC3] := by rw [hi.sim.sys] at hp; exact hp
  obtain ⟨s₂, e, -, -, -, -, hlog₂⟩ := move_forceCommit (b := .checked) (env := plainEnv) (inv_reaches hr) hps
  obtain ⟨ls, hls, -, hall⟩ := move_other (by simp) e
  have hsys := hall st.sys.log
  have e0 : ({ s with log := st.sys.log } : Loading UInt8 (Utf8Error Nat)) = st.sys := hi.sim.sys.symm
  rw [e0] at hsys
  rw [hlog₂] at hls
  have hls := List.append_cancel_left hls
  have h2 := reachesValidated_step (m := .other (.forceCommit plainEnv)) h1 (by
    show (_ >>= _) = _
    rw [hsys]; rfl)
  have := h Nat .checked _ _ h2
  simp only [← hls, committedOf, segmentsOf_append, List.flatten_append] at this
  unfold committedOf at hc
  rw [hc] at this
  exact lone_invalid this

/-! ## Loading on after a failure -/

/-- C85 in full: if no load was dropped, every visible character was somewhere in what the source wrote. -/
def C85Statement : Prop := ∀ (E : Type) (b : Build) (ms : List (ValidatedMove E)) (st : Validated E),
  ReachesValidated b ms st → NoDrop st.sys.log → ∀ (before after : List Char) (c : Char),
  committedOf st.sys.log = (before ++ c :: after).flatMap String.utf8EncodeChar →
  String.utf8EncodeChar c <:+: writtenOf st.sys.log

theorem writtenOf_ok {T E : Type} {log : List (Obs T E)} (h : AllOk log) : writtenOf log = acceptedOf log := by
  induction log with
  | nil => rfl
  | cons o log ih =>
    have ih := ih fun t r hm => h t r (List.mem_cons_of_mem _ hm)
    cases o with
    | loaded t r =>
      obtain ⟨info, rfl⟩ := h t r List.mem_cons_self
      simp only [writtenOf, acceptedOf, ih]
    | _ => exact ih

theorem writtenOf_append {T E : Type} (l l' : List (Obs T E)) : writtenOf (l ++ l') = writtenOf l ++ writtenOf l' := by
  induction l with
  | nil => rfl
  | cons o l ih => cases o <;> simp [writtenOf, ih]

/-- C85, what is true: no load failed either. Missing: loading on after a load failed. -/
theorem C85_partial {b : Build} {ms : List (ValidatedMove E)} {st : Validated E} (h : ReachesValidated b ms st) (hok : AllOk st.sys.log)
    {before after : List Char} {c : Char} (hc : committedOf st.sys.log = (before ++ c :: after).flatMap String.utf8EncodeChar) :
    String.utf8EncodeChar c <:+: writtenOf st.sys.log := by
  obtain ⟨pend, k, -, -, e, -⟩ := C62_exact h hok
  rw [writtenOf_ok hok]
  refine ⟨before.flatMap String.utf8EncodeChar, after.flatMap String.utf8EncodeChar ++ pend ++ (acceptedOf st.sys.log).drop k, ?_⟩
  have := List.take_append_drop k (acceptedOf st.sys.log)
  rw [← e, hc] at this
  simpa using this

/-- A load that returns, as seen from the pending bytes. -/
theorem validated_step {b : Build} {ms : List (ValidatedMove E)} {st st' : Validated E} {env : Env} {n : Nat} {ops : List (WriterOp UInt8)}
    {log : List (Obs UInt8 (Utf8Error E))} {told pend : List UInt8} {r : Option (Except (Utf8Error E) LoadInfo)}
    (h : ReachesValidated b ms st) (hp : Pending st.sys pend) (he : st.move b (.load env (.request n ops .advance)) = Run.ret st')
    (hl : st'.sys.log = log ++ [.loaded told r]) {j : Nat} (hj : LongestValid (st.validator.kept ++ told) j) :
    (j + 3 < (st.validator.kept ++ told).length → r = some (.error .invalidSequence)) ∧
    ((st.validator.kept ++ told).length ≤ j + 3 → (∃ info, r = some (.ok info)) ∧ ∃ pend', Pending st'.sys pend' ∧
      committedOf st'.sys.log ++ pend' = committedOf st.sys.log ++ pend ++ (st.validator.kept ++ told).take j) := by
  obtain ⟨s, hi⟩ := vinv_reaches h
  obtain ⟨ms', hr⟩ := hi.reaches
  have hinv := inv_reaches hr
  have hp : Pending s pend := by rw [hi.sim.sys] at hp; exact hp
  obtain ⟨-, s', script', told₂, told', r₂, new, hmove, hsim, hpass, hlog, hlog'⟩ := validated_load hi.sim hinv hi.ok he
  have hlast : told₂ = told ∧ r₂ = r := by
    rw [hl] at hlog
    have := (List.append_inj' hlog rfl).2
    simp at this
    exact ⟨this.1.symm, this.2.symm⟩
  obtain ⟨rfl, rfl⟩ := hlast
  obtain ⟨r₁, told₁, log₁, hc, hlog₁, -, hcom⟩ := move_load_committed hinv hp hmove
  have hlast : told₁ = told' ∧ r₁ = r₂ := by
    rw [hlog'] at hlog₁
    have := (List.append_inj' hlog₁ rfl).2
    simp at this
    exact ⟨this.1.symm, this.2.symm⟩
  obtain ⟨rfl, rfl⟩ := hlast
  have hj := hj.unique (validUpTo_longest _)
  subst hj
  rcases hpass.result hc with ⟨info, e0, -, e2, e3⟩ | ⟨_, -, -, -, -, e⟩ | ⟨e, -, h1⟩ | ⟨_, -, -, e⟩ | ⟨-, -, e⟩
  · refine ⟨fun hlt => by omega, fun _ => ⟨⟨info, e0⟩, ?_⟩⟩
    rw [← e2, committedOf, hsim.segments, committedOf, hi.sim.segments]
    have hback : ∀ {xs}, Pending s' xs → Pending st'.sys xs := by
      intro xs hx; rw [hsim.sys]; exact hx
    suffices hs : ∃ pend', Pending s' pend' ∧ committedOf s'.log ++ pend' = committedOf s.log ++ pend ++ told₁ by
      obtain ⟨pend', h1, h2⟩ := hs
      exact ⟨pend', hback h1, h2⟩
    subst e0
    unfold Pending at hp ⊢
    clear hback hlog₁ hpass
    have hcells := hinv.cells
    generalize s'.loader = sl at hc ⊢
    generalize s'.cells = sc at hc hcom
    cases hc with
    | append _ hh _ =>
      rcases hcom with ⟨-, e⟩ | ⟨hne, -⟩
      · exact ⟨_, hh, by rw [e, List.append_assoc]⟩
      · exact absurd rfl hne
    | fresh _ h0 hh =>
      subst h0
      rcases hcom with ⟨-, e⟩ | ⟨hne, -⟩
      · exact ⟨_, hh, by rw [e, List.append_nil]⟩
      · exact absurd rfl hne
    | switch _ _ hh hcm =>
      rcases hcom with ⟨e, -⟩ | ⟨-, e⟩
      · exact absurd e (commitTo_ne hcells hcm)
      · exact ⟨_, hh, by rw [e]⟩
    | finish hcm =>
      rcases hcom with ⟨e, -⟩ | ⟨-, e⟩
      · exact absurd e (commitTo_ne hcells hcm)
      · exact ⟨[], holds_empty _, by rw [e]⟩
  · simp at e
  · exact ⟨fun _ => e, fun hle => by omega⟩
  · exact absurd rfl (e n ops)
  · exact absurd rfl (e n ops)

/-- C85, exactly: a load that fails, for whatever reason, leaves the bytes kept back from before, and the next load goes on as
if its bytes followed them immediately. -/
theorem C85_exact {b : Build} {ms : List (ValidatedMove E)} {st st₁ st₂ : Validated E} {env₁ env₂ : Env} {script : Script UInt8 E} {n k j : Nat}
    {ops : List (WriterOp UInt8)} {log₁ log₂ : List (Obs UInt8 (Utf8Error E))} {told₁ told₂ pend : List UInt8} {e : Utf8Error E}
    {r : Option (Except (Utf8Error E) LoadInfo)} (h : ReachesValidated b ms st) (hok : AllOk st.sys.log)
    (hk : LongestValid (acceptedOf st.sys.log) k)
    (he₁ : st.move b (.load env₁ script) = Run.ret st₁) (hl₁ : st₁.sys.log = log₁ ++ [.loaded told₁ (some (.error e))])
    (hp : Pending st₁.sys pend)
    (he₂ : st₁.move b (.load env₂ (.request n ops .advance)) = Run.ret st₂) (hl₂ : st₂.sys.log = log₂ ++ [.loaded told₂ r])
    (hj : LongestValid ((acceptedOf st.sys.log).drop k ++ told₂) j) :
    (j + 3 < ((acceptedOf st.sys.log).drop k ++ told₂).length → r = some (.error .invalidSequence)) ∧
    (((acceptedOf st.sys.log).drop k ++ told₂).length ≤ j + 3 → (∃ info, r = some (.ok info)) ∧ ∃ pend', Pending st₂.sys pend' ∧
      committedOf st₂.sys.log ++ pend' = committedOf st₁.sys.log ++ pend ++ ((acceptedOf st.sys.log).drop k ++ told₂).take j) := by
  obtain ⟨s, hi⟩ := vinv_reaches h
  obtain ⟨ms', hr⟩ := hi.reaches
  obtain ⟨h1, h2, h3⟩ := hi.stream hok
  have hinv := inv_reaches hr
  obtain ⟨pend₀, hp₀⟩ := hinv.pending
  obtain ⟨-, s', script', told, told', r₂, new, hmove, hsim, hpass, hlog, hlog'⟩ := validated_load hi.sim hinv hi.ok he₁
  obtain ⟨r₁, told₃, log₃, hc, hlog₃, -, -⟩ := move_load_committed hinv hp₀ hmove
  have hr₂ : r₂ = some (.error e) := by
    rw [hl₁] at hlog
    have := (List.append_inj' hlog rfl).2
    simp at this
    exact this.2.symm
  have hlast : told₃ = told' ∧ r₁ = r₂ := by
    rw [hlog'] at hlog₃
    have := (List.append_inj' hlog₃ rfl).2
    simp at this
    exact ⟨this.1.symm, this.2.symm⟩
  obtain ⟨rfl, rfl⟩ := hlast
  subst hr₂
  have hv : st₁.validator = st.validator := by
    rcases hpass.result hc with ⟨_, e0, -⟩ | ⟨_, e0, -⟩ | ⟨-, e0, -⟩ | ⟨_, -, e0, -⟩ | ⟨e0, -⟩
    · simp at e0
    · simp at e0
    · exact e0
    · exact e0
    · simp at e0
  have hk' : (acceptedOf st.sys.log).drop k = st₁.validator.kept := by
    rw [hk.unique (validUpTo_longest _), h1, validUpTo_append h2, h3, Nat.add_zero, List.drop_left, hv]
  rw [hk'] at hj ⊢
  exact validated_step (reachesValidated_step h he₁) hp he₂ hl₂ hj

theorem kana_valid : Valid [0xE3, 0x81, 0x82] := ⟨['あ'], by decide⟩

theorem validUpTo_kana (more : List UInt8) (h : firstChar (0xE3 :: more) = none) : validUpTo (0xE3 :: more) = 0 := by
  rw [validUpTo, h]

/-- C85 is false: the bytes E3, then "xyz", then 81 82: the second load fails, and after the third one "あ" is there. -/
theorem C85_false : ¬ C85Statement := by
  intro h
  have h0 : ReachesValidated .checked [] (Validated.init 0 : Validated Nat) := ⟨0, rfl⟩
  have hok0 : AllOk (Validated.init 0 : Validated Nat).sys.log := fun _ _ h => nomatch h
  -- E3
  obtain ⟨st, new, r, he, hl⟩ := validated_raw (n := 1) (xs := [0xE3]) h0 plainEnv_generous (Nat.le_refl 1) (by decide) .advance
  obtain ⟨⟨info, rfl⟩, pend₁, hp₁, hc₁⟩ := (validated_step h0 (holds_empty 0) he hl (validUpTo_longest _)).2 (by
    show [0xE3].length ≤ _ + 3
    simp)
  have h1 := reachesValidated_step h0 he
  have ha : acceptedOf st.sys.log = [0xE3] := by
    rw [hl, acceptedOf_append, acceptedOf_append, acceptedOf_quiet (committed_quiet new)]
    rfl
  have hok1 : AllOk st.sys.log := fun t r hm => by
    have hl : st.sys.log = List.map .committed new ++ [.loaded [0xE3] (some (.ok info))] := hl
    rw [hl] at hm; simp at hm; exact ⟨info, hm.2⟩
  have hnil : committedOf st.sys.log ++ pend₁ = [] := by
    rw [hc₁]
    show [] ++ [] ++ List.take (validUpTo [0xE3]) [0xE3] = []
    rw [validUpTo_kana [] (by decide)]
    rfl
  -- xyz
  obtain ⟨st₂, new₂, r₂, he₂, hl₂⟩ := validated_raw (n := 3) (xs := [0x78, 0x79, 0x7A]) h1 plainEnv_generous (Nat.le_refl 3) (by decide) .advance
  have h2 := reachesValidated_step h1 he₂
  have hr₂ : r₂ = some (.error .invalidSequence) := by
    refine (C62_reports h1 hok1 he₂ hl₂ (validUpTo_longest _)).1 ?_
    rw [ha]
    show validUpTo [0xE3, 0x78, 0x79, 0x7A] + 3 < 4
    rw [validUpTo_kana _ (by decide)]
    decide
  subst hr₂
  obtain ⟨s₂, hi₂⟩ := vinv_reaches h2
  obtain ⟨ms₂, hreach₂⟩ := hi₂.reaches
  obtain ⟨pend₂, hp₂⟩ := (inv_reaches hreach₂).pending
  have hp₂ : Pending st₂.sys pend₂ := by rw [hi₂.sim.sys]; exact hp₂
  -- 81 82
  obtain ⟨st₃, new₃, r₃, he₃, hl₃⟩ := validated_raw (n := 2) (xs := [0x81, 0x82]) h2 plainEnv_generous (Nat.le_refl 2) (by decide) .advance
  have h3 := reachesValidated_step h2 he₃
  have hk : LongestValid (acceptedOf st.sys.log) 0 := by
    have := validUpTo_longest (acceptedOf st.sys.log)
    rw [ha, validUpTo_kana [] (by decide)] at this
    rw [ha]; exact this
  have hj : LongestValid ((acceptedOf st.sys.log).drop 0 ++ [0x81, 0x82]) 3 := by
    rw [ha]
    have := validUpTo_longest ([0xE3] ++ [0x81, 0x82])
    rw [show ([0xE3] ++ [0x81, 0x82] : List UInt8) = [0xE3, 0x81, 0x82] from rfl, validUpTo_of_valid kana_valid] at this
    exact this
  obtain ⟨⟨info₃, rfl⟩, pend₃, hp₃, hc₃⟩ := (C85_exact h1 hok1 hk he₂ hl₂ hp₂ he₃ hl₃ hj).2 (by rw [ha]; decide)
  rw [ha] at hc₃
  -- everything becomes visible
  obtain ⟨s, hi⟩ := vinv_reaches h3
  obtain ⟨ms', hr⟩ := hi.reaches
  have hps : Pending s pend₃ := by rw [hi.sim.sys] at hp₃; exact hp₃
  obtain ⟨s₄, e, -, -, -, -, hlog₄⟩ := move_forceCommit (b := .checked) (env := plainEnv) (inv_reaches hr) hps
  obtain ⟨ls, hls, -, hall⟩ := move_other (by simp) e
  have hsys := hall st₃.sys.log
  have e0 : ({ s with log := st₃.sys.log } : Loading UInt8 (Utf8Error Nat)) = st₃.sys := hi.sim.sys.symm
  rw [e0] at hsys
  rw [hlog₄] at hls
  have hls := List.append_cancel_left hls
  subst hls
  have h4 := reachesValidated_step (m := .other (.forceCommit plainEnv)) h3 (by
    show (_ >>= _) = _
    rw [hsys]; rfl)
  have hlog₂ : st₂.sys.log = List.map .committed new ++ [.loaded [0xE3] (some (.ok info))] ++ List.map .committed new₂ ++
      [.loaded [0x78, 0x79, 0x7A] (some (.error .invalidSequence))] := by rw [hl₂, hl]; rfl
  have hd₂ : NoDrop st₂.sys.log := fun t hm => by rw [hlog₂] at hm; simp at hm
  obtain ⟨-, ⟨before₁, hb₁⟩, hvp⟩ := C60_valid h2 hd₂
  obtain ⟨before₂, hb₂⟩ := hvp pend₂ hp₂
  have hin := h Nat .checked _ _ h4 (fun t hm => by
      simp only [hl₃, hlog₂] at hm; simp at hm) (before₁ ++ before₂) [] 'あ' (by
    show committedOf (st₃.sys.log ++ [.committed pend₃]) = _
    rw [committedOf, segmentsOf_append, List.flatten_append, ← committedOf]
    show committedOf st₃.sys.log ++ (pend₃ ++ []) = _
    rw [List.append_nil, hc₃, hb₁, hb₂]
    simp only [List.flatMap_append, List.append_assoc]
    rfl)
  have hw : writtenOf (st₃.sys.log ++ [.committed pend₃]) = [0xE3, 0x78, 0x79, 0x7A, 0x81, 0x82] := by
    have hq : ∀ new : List (List UInt8), writtenOf (E := Utf8Error Nat) (List.map .committed new) = [] := by
      intro new
      induction new with
      | nil => rfl
      | cons x new ih => exact ih
    rw [hl₃, hlog₂]
    simp only [writtenOf_append, hq]
    rfl
  rw [hw] at hin
  exact absurd hin (by decide)

/-! ## The writer -/

/-- C63 in full: the writer for `n` items says that it has room for them. -/
def C63Statement : Prop := ∀ (E : Type) (env : Env) (buf : RawVec UInt8) (pend : List UInt8) (v : Validator) (n : Nat)
  (w : Utf8Writer (Request UInt8)), LawfulEnv env → Holds buf pend → v.Ok → n ≤ usizeMax →
  (utf8Control env.build (genericControl (E := Utf8Error E) env)).requestWriter
    { buffered := v.buffered, rest := v.rest, control := { buf } } n = Run.ret w →
  ∃ c, (utf8Control env.build (genericControl (E := Utf8Error E) env)).writer.capacity w = Run.ret c ∧ n ≤ c

/-- C63, exactly: with `b` bytes kept back, `j` written and room for `room` in all, where there is still room for
`room - b - j`, the writer says `room - 2b - j`, and that subtraction may fail. -/
theorem C63_exact (env : Env) {toAppend : RawVec UInt8} {pre kept told : List UInt8} {w : Utf8Writer (Request UInt8)} {room : Nat}
    (h : RequestView toAppend pre w.req (kept ++ told) room) (hb : w.buffered = kept.length) :
    (2 * kept.length + told.length ≤ room →
      (utf8BufferWriter env.build (requestBufferWriter (E := Utf8Error E) env)).capacity w = Run.ret (room - 2 * kept.length - told.length)) ∧
    (room < 2 * kept.length + told.length → env.build = .checked →
      (utf8BufferWriter env.build (requestBufferWriter (E := Utf8Error E) env)).capacity w = Run.fault .overflow) ∧
    (room < 2 * kept.length + told.length → env.build = .wrapping →
      (utf8BufferWriter env.build (requestBufferWriter (E := Utf8Error E) env)).capacity w =
        Run.ret (room - kept.length - told.length + (usizeMax + 1) - kept.length)) := by
  have hc : (utf8BufferWriter env.build (requestBufferWriter (E := Utf8Error E) env)).capacity w =
      usizeSub env.build (room - (kept ++ told).length) kept.length := by
    show (_ >>= _) = _
    rw [request_capacity env h, Run.ret_bind, hb]
  have hf := (request_lawful (E := Utf8Error E) env toAppend pre).fits h
  rw [List.length_append] at hf
  rw [hc, List.length_append]
  refine ⟨fun hle => ?_, fun hlt hbd => ?_, fun hlt hbd => ?_⟩
  · rw [usizeSub_ret _ (by omega)]; congr 1; omega
  · rw [hbd, usizeSub_checked (by omega)]
  · rw [hbd, usizeSub_wrapping (by omega), Nat.sub_add_eq]

/-- What `push_item` makes of it, with overflow checks: half of what it should accept, or a panic. -/
theorem C63_push (env : Env) {toAppend : RawVec UInt8} {pre kept told : List UInt8} {w : Utf8Writer (Request UInt8)} {room : Nat}
    (h : RequestView toAppend pre w.req (kept ++ told) room) (hb : w.buffered = kept.length) (hk : kept ≠ []) (hbd : env.build = .checked)
    (x : UInt8) :
    (room = 2 * (kept.length + told.length) →
      (utf8BufferWriter env.build (requestBufferWriter (E := Utf8Error E) env)).pushItem w x = Run.ret (some x, w)) ∧
    (room < 2 * kept.length + told.length →
      (utf8BufferWriter env.build (requestBufferWriter (E := Utf8Error E) env)).pushItem w x = Run.fault .overflow) ∧
    (2 * kept.length + told.length ≤ room → room ≠ 2 * (kept.length + told.length) →
      ∃ w', (utf8BufferWriter env.build (requestBufferWriter (E := Utf8Error E) env)).pushItem w x = Run.ret (none, w') ∧
        w'.buffered = kept.length ∧ RequestView toAppend pre w'.req (kept ++ (told ++ [x])) room) := by
  have L := request_lawful (E := Utf8Error E) env toAppend pre
  have hlen := utf8_len (b := env.build) L h hb
  obtain ⟨h1, h2, -⟩ := C63_exact (E := E) env h hb
  have hpos : 0 < kept.length := List.length_pos_iff.mpr hk
  unfold BufferWriter.pushItem
  rw [hlen, Run.ret_bind]
  refine ⟨fun hr => ?_, fun hr => ?_, fun hr hne => ?_⟩
  · rw [h1 (by omega), Run.ret_bind, if_pos (by omega)]; rfl
  · rw [h2 hr hbd]; rfl
  · rw [h1 hr, Run.ret_bind, if_neg (by omega)]
    obtain ⟨req', e, hview⟩ := (L.write h x).1 (by rw [List.length_append]; omega)
    obtain ⟨req₁, e1, e2⟩ := Run.bind_eq_ret.mp e
    refine ⟨⟨w.buffered, req'⟩, ?_, hb, by rw [← List.append_assoc]; exact hview⟩
    have e1 : (utf8BufferWriter env.build (requestBufferWriter (E := Utf8Error E) env)).write w told.length x = Run.ret ⟨w.buffered, req₁⟩ := by
      show (_ >>= _) = _
      rw [hb, ← List.length_append, e1]; rfl
    have e2 : (utf8BufferWriter env.build (requestBufferWriter (E := Utf8Error E) env)).setLen ⟨w.buffered, req₁⟩ (told.length + 1) =
        Run.ret ⟨w.buffered, req'⟩ := by
      show (_ >>= _) = _
      rw [show told.length + 1 + w.buffered = (kept ++ told).length + 1 by rw [List.length_append, hb]; omega, e2]; rfl
    show (_ >>= fun w => _ >>= fun w => _) = _
    rw [e1, Run.ret_bind, e2]
    rfl

/-- C63, what is true: nothing is kept back. Missing: kept back bytes with little room. -/
theorem C63_partial {env : Env} {buf : RawVec UInt8} {pend : List UInt8} {v : Validator} {n : Nat} {w : Utf8Writer (Request UInt8)}
    (hl : LawfulEnv env) (hb : Holds buf pend) (hv : v.Ok) (h0 : v.buffered = 0) (hn : n ≤ usizeMax)
    (he : (utf8Control env.build (genericControl (E := Utf8Error E) env)).requestWriter
      { buffered := v.buffered, rest := v.rest, control := { buf } } n = Run.ret w) :
    ∃ c, (utf8Control env.build (genericControl (E := Utf8Error E) env)).writer.capacity w = Run.ret c ∧ n ≤ c := by
  obtain ⟨total, ht, he'⟩ := Run.bind_eq_ret.mp he
  replace ht : usizeAdd env.build v.buffered n = Run.ret total := ht
  rw [usizeAdd_ret env.build (by omega)] at ht
  obtain rfl : v.buffered + n = total := by simpa using ht
  obtain ⟨req, hreq, -⟩ := Run.bind_eq_ret.mp he'
  obtain ⟨w', toAppend, pre, room, hw, hwb, hview, hr⟩ := utf8_request (E := E) hl hb hv (by omega) hreq
  rw [hw] at he
  simp at he
  subst he
  have hk := hv.kept
  refine ⟨_, (C63_exact (E := E) env hview hwb).1 (by simp; omega), by simp; omega⟩

/-- Three of the four bytes of a character are kept back. -/
def threeKept : Validator := { buffered := 3, rest := [0xF0, 0x9F, 0x98] }

theorem threeKept_request : ∃ w, (utf8Control .checked (genericControl (E := Utf8Error Nat) plainEnv)).requestWriter
      { buffered := threeKept.buffered, rest := threeKept.rest, control := { buf := .empty 0 } } 1 = Run.ret w ∧
    w.buffered = threeKept.kept.length ∧ RequestView (.empty 0) [] w.req (threeKept.kept ++ []) 4 :=
  utf8_request_view (env := plainEnv) (req := { toAppend := .empty 0, buf := .empty 4, offset := 0 }) ⟨rfl, by decide⟩ (by decide) rfl
    ⟨rfl, rfl, holds_empty 4, rfl⟩ (by decide)

/-- C63 is false: the fourth comes. -/
theorem C63_false : ¬ C63Statement := by
  intro h
  obtain ⟨w, hw, hwb, hview⟩ := threeKept_request
  obtain ⟨c, hc, -⟩ := h Nat plainEnv _ _ threeKept 1 w plainEnv_lawful (holds_empty 0) ⟨rfl, by decide⟩ (by decide) hw
  have := (C63_exact (E := Nat) plainEnv hview hwb).2.1 (by decide) rfl
  have hc : (utf8BufferWriter plainEnv.build (requestBufferWriter (E := Utf8Error Nat) plainEnv)).capacity w = Run.ret c := hc
  rw [this] at hc
  exact absurd hc (by simp)

/-- So `IteratorSource` panics when a character is split after its third byte. -/
theorem C63_panics : threeKept.next .checked (genericControl (E := Utf8Error Nat) plainEnv) { buf := .empty 0 }
    (IteratorSource.script [[0x80]]) = Run.fault .overflow := by
  obtain ⟨w, hw, hwb, hview⟩ := threeKept_request
  have hpush := (C63_push (E := Nat) plainEnv hview hwb (by decide) rfl 0x80).2.1 (by decide)
  have hpush : (utf8Control .checked (genericControl (E := Utf8Error Nat) plainEnv)).writer.pushItem w 0x80 = Run.fault .overflow := hpush
  unfold Validator.next
  simp only [IteratorSource.script, Script.run, List.map, List.length_cons, List.length_nil, Nat.zero_add, hw, Run.ret_bind, runOps,
    WriterOp.run, hpush, Run.fault_bind]

/-! ## A history -/

/-- The text "é" in two chunks: all of it arrives. -/
example : ∃ st st' : Validated Nat, (Validated.init 0).run .checked (streamLoads [(plainEnv, [0xC3]), (plainEnv, [0xA9])]) = Run.ret st ∧
    AllOk st.sys.log ∧ st.move .checked (.load plainEnv .finish) = Run.ret st' ∧ committedOf st'.sys.log = [0xC3, 0xA9] :=
  C61_stream (chunks := [(plainEnv, [0xC3]), (plainEnv, [0xA9])]) (by simp [plainEnv_generous]) (by decide) ⟨['é'], by decide⟩ 0 plainEnv

/-- In such a history the only visible character is one the source wrote. -/
example : ∃ (ms : List (ValidatedMove Nat)) (st : Validated Nat), ReachesValidated .checked ms st ∧ AllOk st.sys.log ∧
    committedOf st.sys.log = ([] ++ 'é' :: []).flatMap String.utf8EncodeChar ∧ String.utf8EncodeChar 'é' <:+: writtenOf st.sys.log := by
  obtain ⟨st, e, h, hok, ha⟩ := stream_loads (E := Nat) (b := .checked) (ms := []) (st := Validated.init 0) (more := [])
    (chunks := [(plainEnv, [0xC3]), (plainEnv, [0xA9])]) (by simp [plainEnv_generous]) (by decide) ⟨0, rfl⟩ (fun _ _ h => nomatch h) ⟨['é'], by decide⟩
  obtain ⟨st', he⟩ := validated_finish plainEnv h
  have hc := C61_finished h hok (by rw [ha]; exact ⟨['é'], by decide⟩) he
  have h' := reachesValidated_step h he
  have hok' : AllOk st'.sys.log := by
    obtain ⟨s, hi⟩ := vinv_reaches h
    obtain ⟨ms', hr⟩ := hi.reaches
    obtain ⟨pend, hp⟩ := (inv_reaches hr).pending
    obtain ⟨-, s', script', told, told', r, new, hmove, -, hpass, hlog, hlog'⟩ := validated_load hi.sim (inv_reaches hr) hi.ok he
    obtain ⟨r₁, told₁, log₁, hcase, hlog₁, -, -⟩ := move_load_committed (inv_reaches hr) hp hmove
    have : r₁ = r := by
      rw [hlog'] at hlog₁
      have := (List.append_inj' hlog₁ rfl).2
      simp at this
      exact this.2.symm
    subst this
    have hr₁ : ∃ info, r₁ = some (.ok info) := by
      generalize st'.validator = v' at hpass
      cases hpass
      generalize s'.loader = sl at hcase
      generalize s'.cells = sc at hcase
      cases hcase
      exact ⟨_, rfl⟩
    intro t r hm
    rw [hlog] at hm
    simp at hm
    rcases hm with hm | ⟨-, rfl⟩
    · exact hok t r hm
    · exact hr₁
  have hc : committedOf st'.sys.log = ([] ++ 'é' :: []).flatMap String.utf8EncodeChar := by rw [hc, ha]; decide
  exact ⟨_, st', h', hok', hc, C85_partial h' hok' hc⟩

end Parcom
