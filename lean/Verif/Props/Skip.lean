import Verif.Props.Runner
/-!
# C82: a parser that skips what it has been shown

The primitive parsers call `segments()`, look at what `next()` gives them, and then `advance` over some of it. C67 says that
`advance` may come to skip too little; used like this it does not.
-/
namespace Parcom.Runner
open Parcom Spec
variable {T E : Type} {b : Build} {st : State T E}

/-- While the position does not move, what was delivered is the beginning of what there is. -/
theorem delivered_prefix (h : Reachable b st) {l₀ m post : List (Event T E)} (hl : st.log = l₀ ++ .sys .iterates :: m ++ post)
    (hstay : consumedOf (sysLog m) = 0) : deliveredOf (l₀ ++ .sys .iterates :: m) <+: availableOf (l₀ ++ .sys .iterates :: m) := by
  obtain ⟨r, rfl⟩ : ∃ r, m = List.reverse r := ⟨m.reverse, by simp⟩
  induction r generalizing post with
  | nil =>
    have : deliveredOf (l₀ ++ [(.sys .iterates : Event T E)]) = [] := by simp [deliveredOf]
    simp only [List.reverse_nil]
    rw [this]
    exact List.nil_prefix
  | cons e r ih =>
    rw [List.reverse_cons] at hl hstay ⊢
    rw [sysLog_append, consumedOf_append] at hstay
    have hl' : st.log = l₀ ++ .sys .iterates :: r.reverse ++ ([e] ++ post) := by rw [hl]; simp
    have h1 := ih hl' (by omega)
    have h2 : availableOf (l₀ ++ .sys .iterates :: r.reverse ++ [e]) = availableOf (l₀ ++ .sys .iterates :: r.reverse) ++ committedOf (sysLog [e]) :=
      available_grows h (C := post) (by rw [hl]; simp) (by omega)
    have e1 : l₀ ++ .sys .iterates :: (r.reverse ++ [e]) = l₀ ++ .sys .iterates :: r.reverse ++ [e] := by simp
    rw [e1, h2]
    refine List.IsPrefix.trans ?_ (List.prefix_append _ _)
    by_cases hst : e.still = true
    · rw [deliveredOf_still (by simpa using hst)]
      exact h1
    · cases e with
      | nextReady k o =>
        cases o with
        | none => exact absurd rfl hst
        | some seg =>
          have := C64_in_order h (pre := l₀ ++ .sys .iterates :: r.reverse) (k := k) (seg := seg) (post := post) (by rw [hl']; simp)
          rw [deliveredOf_append]
          exact this
      | sys o =>
        cases o with
        | iterates => rw [deliveredOf_append]; exact List.nil_prefix
        | _ => exact absurd rfl hst
      | _ => exact absurd rfl hst

/-- Not the beginning or the end of an `advance`. -/
def Event.within : Event T E → Bool
  | .advanceCall _ => false
  | .advanceReady _ => false
  | _ => true

/-- An `advance` over items that are there, until it is ready. -/
def Task.Once (d : Nat) (l₂ : List (Event T E)) (reader : Reader) : Task → Prop
  | .advance fut remain => fut = none ∧ remain = d ∧ consumedOf (sysLog l₂) = 0
  | .advancePoll _ _ remain .makeWait => remain = d ∧ consumedOf (sysLog l₂) = 0
  | .advancePoll _ _ remain .replace => remain = d ∧ consumedOf (sysLog l₂) = 0
  | .advancePoll _ _ remain .advancing => remain = 0 ∧ consumedOf (sysLog l₂) = 0 ∧ ∃ m c, reader = .advancing d m c
  | .advancePoll _ _ remain (.check r) => remain = 0 ∧ r = 0 ∧ consumedOf (sysLog l₂) = d
  | _ => False

/-- What is added to the log without a call of `advance` is added after the last one. -/
theorem last_call {log new l₁ l₂ : List (Event T E)} {d : Nat} (h : log ++ new = l₁ ++ .advanceCall d :: l₂)
    (hw : ∀ e ∈ new, ∀ d, e ≠ .advanceCall d) : ∃ l, log = l₁ ++ .advanceCall d :: l ∧ l₂ = l ++ new := by
  rcases List.append_eq_append_iff.mp h with ⟨a, h1, h2⟩ | ⟨a, h1, h2⟩
  · exact absurd rfl (hw (.advanceCall d) (by rw [h2]; simp) d)
  · cases a with
    | nil =>
      simp at h2
      exact absurd rfl (hw (.advanceCall d) (by rw [← h2]; simp) d)
    | cons x a =>
      simp at h2
      obtain ⟨rfl, rfl⟩ := h2
      exact ⟨a, h1, rfl⟩

theorem once (h : Reachable b st) {l₁ l₂ : List (Event T E)} {d : Nat} (hl : st.log = l₁ ++ .advanceCall d :: l₂)
    (hw : ∀ e ∈ l₂, e.within = true) (hd : d ≤ (availableOf l₁).length) :
    (∀ k, .pollPending k ∉ l₂) ∧ st.task.Once d l₂ st.sys.reader := by
  induction h generalizing l₂ with
  | init c => simp [init] at hl
  | @step st st' hr hs ih =>
    have hi := inv hr
    have back : ∀ new, st'.log = st.log ++ new → (∀ e ∈ new, ∀ d, e ≠ .advanceCall d) →
        ∃ l, l₂ = l ++ new ∧ st.log = l₁ ++ .advanceCall d :: l ∧ (∀ k, .pollPending k ∉ l) ∧ st.task.Once d l st.sys.reader := by
      intro new h1 h2
      rw [h1] at hl
      obtain ⟨l, h3, rfl⟩ := last_call hl h2
      obtain ⟨h4, h5⟩ := ih h3 fun e he => hw e (by simp [he])
      exact ⟨l, rfl, h3, h4, h5⟩
    have env : ∀ new, (∀ e ∈ new, e.own = false) → st'.log = st.log ++ new → st'.task = st.task → st'.sys.reader = st.sys.reader →
        (∀ k, .pollPending k ∉ l₂) ∧ st'.task.Once d l₂ st'.sys.reader := by
      intro new h1 h2 h3 h4
      obtain ⟨l, rfl, -, h5, h6⟩ := back new h2 fun e he d h => by have := h1 e he; rw [h] at this; simp [Event.own] at this
      have hc : consumedOf (sysLog (l ++ new)) = consumedOf (sysLog l) := by
        rw [sysLog_append, consumedOf_append, consumedOf_quiet fun e he => Event.quiet_of_env (h1 e he)]; rfl
      refine ⟨fun k hk => ?_, ?_⟩
      · rcases List.mem_append.mp hk with hk | hk
        · exact h5 k hk
        · have := h1 _ hk; simp [Event.own] at this
      · rw [h3, h4]
        unfold Task.Once at h6 ⊢
        rw [hc]
        exact h6
    have quiet : ∀ {l new : List (Event T E)}, (∀ o, .sys o ∉ new) → consumedOf (sysLog (l ++ new)) = consumedOf (sysLog l) := by
      intro l new h
      have : sysLog new = [] := by
        rw [List.eq_nil_iff_forall_not_mem]
        intro o ho
        exact h o (mem_sysLog.mp ho)
      rw [sysLog_append, this, List.append_nil]
    cases hs with
    | loader m sys new hm he hl' =>
      obtain ⟨hrd, hnew⟩ := move_loader hm he hl'
      refine env (new.map .sys) (fun e he => ?_) rfl rfl hrd
      obtain ⟨o, ho, rfl⟩ := List.mem_map.mp he
      rcases hnew o ho with ⟨xs, rfl⟩ | ⟨t, r, rfl⟩ <;> rfl
    | setDone => exact env [.done] (by simp [Event.own]) rfl rfl rfl
    | signal signal new hstep hl' =>
      refine env (new.map .signal) (fun e he => ?_) rfl rfl rfl
      obtain ⟨o, -, rfl⟩ := List.mem_map.mp he
      rfl
    | advance delta ht =>
      rcases List.eq_nil_or_concat l₂ with rfl | ⟨l, x, rfl⟩
      · obtain ⟨rfl, h2⟩ := List.append_inj' (show st.log ++ [.advanceCall delta] = l₁ ++ [.advanceCall d] from hl) rfl
        simp at h2
        exact ⟨by simp, rfl, h2, rfl⟩
      · have h1 : st.log ++ [.advanceCall delta] = (l₁ ++ .advanceCall d :: l) ++ [x] := by
          rw [show (l₁ ++ .advanceCall d :: l) ++ [x] = l₁ ++ .advanceCall d :: l.concat x by simp]; exact hl
        have h2 := (List.append_inj' h1 rfl).2
        simp at h2
        have := hw x (by simp)
        rw [← h2] at this
        simp [Event.within] at this
    | advancePoll remain ht =>
      obtain ⟨l, rfl, -, h5, h6⟩ := back [.pollBegin .advance st.polls none] rfl (by simp)
      rw [ht] at h6
      refine ⟨fun k hk => h5 k (by simpa using hk), ?_⟩
      exact ⟨h6.2.1, by rw [quiet (by simp)]; exact h6.2.2⟩
    | advanceMakeWait k remain fut signal ht hsig =>
      obtain ⟨l, rfl, -, h5, h6⟩ := back _ rfl (by simp)
      rw [ht] at h6
      refine ⟨fun k hk => h5 k (by simpa using hk), ?_⟩
      exact ⟨h6.1, by rw [quiet (by simp)]; exact h6.2⟩
    | replace k remain fut sys ht he =>
      obtain ⟨l, rfl, -, h5, h6⟩ := back [] (by simp) (by simp)
      have hfits := hi.fits
      rw [ht] at hfits h6
      have hfits : st.sys.reader = .idle := hfits
      simp only [Loading.move, hfits, Run.pure_eq_ret] at he
      subst he
      obtain ⟨rfl, h6⟩ := h6
      exact ⟨by simpa using h5, rfl, by simpa using h6, _, _, rfl⟩
    | advancing k remain fut sys ht he hl' =>
      obtain ⟨l, rfl, -, h5, h6⟩ := back [] (by simp) (by simp)
      rw [ht] at h6
      obtain ⟨h6, h7, m, c, h8⟩ := h6
      refine ⟨by simpa using h5, ?_⟩
      simp only [ht]
      rcases move_get h8 he with ⟨⟨r', c', hr⟩, -⟩ | ⟨-, r', hl''⟩
      · exact ⟨h6, by simpa using h7, _, _, hr⟩
      · rw [hl'] at hl''
        simp at hl''
    | advanced k remain n r fut sys ht he hl' =>
      obtain ⟨l, rfl, h4, h5, h6⟩ := back [.sys (.advanced n r)] rfl (by simp)
      rw [ht] at h6
      obtain ⟨h6, h7, m, c, h8⟩ := h6
      refine ⟨fun k hk => h5 k (by simpa using hk), ?_⟩
      rcases move_get h8 he with ⟨-, hl''⟩ | ⟨-, r', hl''⟩
      · rw [hl'] at hl''
        simp at hl''
      · rw [hl'] at hl''
        simp at hl''
        obtain ⟨rfl, rfl⟩ := hl''
        obtain ⟨ms, hreach⟩ := reaches_move hi.sys he
        have hskip := (C58_skips (post := []) hreach hl').1
        have hg := available_grows hr (A := l₁ ++ [.advanceCall n]) (B := l) (C := []) (by rw [h4]; simp) h7
        have hg₁ : availableOf (l₁ ++ [.advanceCall n]) = availableOf l₁ := by
          rw [availableOf, sysLog_append]; simp [sysLog, availableOf]
        have hlen : n ≤ (availableOf st.log).length := by
          rw [h4, show l₁ ++ .advanceCall n :: l = l₁ ++ [.advanceCall n] ++ l by simp, hg, hg₁, List.length_append]
          omega
        rw [hi.sysLog] at hskip
        rw [availableOf, List.length_drop] at hlen
        have hr0 : r = 0 := by omega
        refine ⟨h6, hr0, ?_⟩
        rw [sysLog_append, consumedOf_append, h7]
        show 0 + ((n - r) + 0) = n
        omega
    | advanceReady k remain r fut ht hd' =>
      obtain ⟨l, rfl, -, -, -⟩ := back [.advanceReady k] rfl (by simp)
      have := hw (.advanceReady k) (by simp)
      simp [Event.within] at this
    | advancePending k remain r fut ht hne hd' =>
      obtain ⟨l, rfl, -, h5, h6⟩ := back _ rfl (by simp)
      rw [ht] at h6
      exact absurd (h6.2.1.trans h6.1.symm) hne
    | advancePollWait i remain signal ht hlt hsig =>
      obtain ⟨l, rfl, -, h5, h6⟩ := back _ rfl (by simp)
      rw [ht] at h6
      simp [Task.Once] at h6
    | advanceWaitReady k p remain fut ht hp =>
      obtain ⟨l, rfl, -, h5, h6⟩ := back [] (by simp) (by simp)
      rw [ht] at h6
      exact absurd h6 id
    | advanceWaitPending k p remain fut ht hp =>
      obtain ⟨l, rfl, -, h5, h6⟩ := back _ rfl (by simp)
      rw [ht] at h6
      exact absurd h6 id
    | nextWaitReady k p fut ht hp =>
      obtain ⟨l, rfl, -, h5, h6⟩ := back [] (by simp) (by simp)
      rw [ht] at h6
      exact absurd h6 id
    | dropStream sys ht he =>
      obtain ⟨l, rfl, -, h5, h6⟩ := back [] (by simp) (by simp)
      rw [ht] at h6
      exact absurd h6 id
    | _ =>
      obtain ⟨l, rfl, -, h5, h6⟩ := back _ rfl (by simp)
      simp_all [Task.Once]

/-- The moment an `advance` over items that are there is ready. -/
theorem once_ready (h : Reachable b st) {l₁ l₂ l₃ : List (Event T E)} {d k : Nat}
    (hl : st.log = l₁ ++ .advanceCall d :: l₂ ++ .advanceReady k :: l₃) (hw : ∀ e ∈ l₂, e.within = true)
    (hd : d ≤ (availableOf l₁).length) : (∀ k, .pollPending k ∉ l₂) ∧ consumedOf (sysLog l₂) = d := by
  obtain ⟨st₀, st₁, n₁, n₂, hr, hs, hn, hpre⟩ := moment h hl
  cases hs with
  | advanceReady k' remain r fut ht hd' =>
    replace hn := List.append_cancel_left hn
    rcases n₁ with _ | ⟨e₁, n₁⟩ <;> simp at hn
    obtain ⟨rfl, rfl⟩ := hn
    rw [List.append_nil] at hpre
    obtain ⟨h1, h2⟩ := once hr hpre.symm hw hd
    rw [ht] at h2
    exact ⟨h1, h2.2.2⟩
  | _ =>
    first
    | (replace hn := List.append_cancel_left hn; have := congrArg (Event.advanceReady k ∈ ·) hn; simp at this)
    | (simp at hn)

/-- C82: `advance` by no more than was delivered since `segments()` skips exactly that many items, the first that were delivered,
and leaves the rest and what was made visible meanwhile. -/
theorem C82_skips_what_was_shown (h : Reachable b st) {l₀ m l₂ l₃ : List (Event T E)} {n k : Nat}
    (hl : st.log = (l₀ ++ .sys .iterates :: m) ++ .advanceCall n :: l₂ ++ .advanceReady k :: l₃)
    (hstay : consumedOf (sysLog m) = 0) (hw : ∀ e ∈ l₂, e.within = true)
    (hn : n ≤ (deliveredOf (l₀ ++ .sys .iterates :: m)).length) :
    consumedOf (sysLog ((l₀ ++ .sys .iterates :: m) ++ .advanceCall n :: l₂)) = consumedOf (sysLog (l₀ ++ .sys .iterates :: m)) + n ∧
    (deliveredOf (l₀ ++ .sys .iterates :: m)).take n ++ availableOf ((l₀ ++ .sys .iterates :: m) ++ .advanceCall n :: l₂) =
      availableOf (l₀ ++ .sys .iterates :: m) ++ committedOf (sysLog l₂) := by
  have hpre := delivered_prefix h (l₀ := l₀) (m := m) (post := .advanceCall n :: l₂ ++ .advanceReady k :: l₃) (by rw [hl]; simp) hstay
  generalize hp : l₀ ++ .sys .iterates :: m = pre at *
  have hav : n ≤ (availableOf pre).length := Nat.le_trans hn hpre.length_le
  obtain ⟨-, h2⟩ := once_ready h hl hw hav
  have e1 : sysLog (pre ++ .advanceCall n :: l₂) = sysLog pre ++ sysLog l₂ := by rw [sysLog_append]; rfl
  have hle := consumed_le h (pre := pre) (post := .advanceCall n :: l₂ ++ .advanceReady k :: l₃) (by rw [hl]; simp)
  refine ⟨by rw [e1, consumedOf_append, h2], ?_⟩
  have e2 : availableOf (pre ++ .advanceCall n :: l₂) = (availableOf pre ++ committedOf (sysLog l₂)).drop n := by
    rw [availableOf, e1, committedOf_append, consumedOf_append, h2, ← List.drop_drop, List.drop_append_of_le_length hle]
    rfl
  have e3 : (deliveredOf pre).take n = (availableOf pre ++ committedOf (sysLog l₂)).take n := by
    obtain ⟨x, hx⟩ := hpre
    rw [List.take_append_of_le_length hav, ← hx, List.take_append_of_le_length hn]
  rw [e2, e3, List.take_append_drop]

/-- C82: and it is ready at its first poll. -/
theorem C82_at_once (h : Reachable b st) {l₀ m l₂ l₃ : List (Event T E)} {n k : Nat}
    (hl : st.log = (l₀ ++ .sys .iterates :: m) ++ .advanceCall n :: l₂ ++ l₃)
    (hstay : consumedOf (sysLog m) = 0) (hw : ∀ e ∈ l₂, e.within = true)
    (hn : n ≤ (deliveredOf (l₀ ++ .sys .iterates :: m)).length) : .pollPending k ∉ l₂ := by
  have hpre := delivered_prefix h (l₀ := l₀) (m := m) (post := .advanceCall n :: l₂ ++ l₃) (by rw [hl]; simp) hstay
  generalize hp : l₀ ++ .sys .iterates :: m = pre at *
  have hav : n ≤ (availableOf pre).length := Nat.le_trans hn hpre.length_le
  intro hk
  obtain ⟨a, c, rfl⟩ := List.append_of_mem hk
  obtain ⟨st₀, st₁, n₁, n₂, hr, hs, hlog, hpre'⟩ := moment h (pre := pre ++ .advanceCall n :: a) (e := .pollPending k) (post := c ++ l₃)
    (by rw [hl]; simp)
  have hwa : ∀ e ∈ a, e.within = true := fun e he => hw e (by simp [he])
  have key := once (hr.step hs) (l₁ := pre) (d := n) (l₂ := a ++ .pollPending k :: n₂)
    (by rw [hlog, ← List.append_assoc, ← hpre']; simp)
  have hn₂ : n₂ = [] := by
    have hx : ∀ {x y : Event T E}, (∀ k, x ≠ .pollPending k) → [x, y] = n₁ ++ .pollPending k :: n₂ → n₂ = [] := by
      intro x y hx hxy
      rcases n₁ with _ | ⟨e₁, _ | ⟨e₂, n₁⟩⟩ <;> simp at hxy
      · exact absurd hxy.1 (hx k)
      · exact hxy.2.2
    have hone : ∀ {x : Event T E}, [x] = n₁ ++ .pollPending k :: n₂ → n₂ = [] := by
      intro x hxy
      rcases n₁ with _ | ⟨e₁, n₁⟩ <;> simp at hxy
      exact hxy.2
    cases hs with
    | notDone k' i fut ht hd | advancePending k' remain r fut ht hne hd => exact hx (by simp) (List.append_cancel_left hlog)
    | nextWaitPending k' p fut ht hp | advanceWaitPending k' p remain fut ht hp => exact hone (List.append_cancel_left hlog)
    | _ =>
      first
      | (replace hlog := List.append_cancel_left hlog; have := congrArg (Event.pollPending k ∈ ·) hlog; simp at this)
      | (simp at hlog)
  subst hn₂
  exact (key (fun e he => by
    rcases List.mem_append.mp he with he | he
    · exact hwa e he
    · simp at he; rw [he]; rfl) hav).1 k (by simp)

/-! A run in which one item is loaded, delivered and skipped. -/

/-- One item is loaded, committed, delivered, and skipped. -/
theorem shown : ∃ st : State Nat Nat, Reachable .checked st ∧ st.log = ([.sys (.loaded [7] (some (.ok (.new 0 1 1)))),
    .sys (.committed [7])] ++ .sys .iterates :: [.nextCall, .pollBegin .next 0 none, .sys (.yielded [7]), .nextReady 0 (some [7])]) ++
    .advanceCall 1 :: [.pollBegin .advance 1 none, .signal (.waitMade 0), .sys (.advanced 1 0)] ++ .advanceReady 1 :: [] := by
  have h := Reachable.init (T := Nat) (E := Nat) (b := .checked) 0
  have h := h.step (.loader _ load7 _ [.loaded [7] (some (.ok (.new 0 1 1)))] (.inl ⟨_, _, rfl⟩) rfl rfl)
  have h := h.step (.loader _ (.forceCommit plainEnv) _ [.committed [7]] (.inr ⟨_, rfl⟩) rfl rfl)
  have h := h.step (.segments _ _ rfl rfl)
  have h := h.step (.next _ rfl)
  have h := h.step (.nextPoll _ rfl)
  have h := h.step (.firstSome _ 0 none _ [7] rfl rfl rfl)
  have h := h.step (.dropStream _ _ rfl rfl)
  have h := h.step (.advance _ 1 rfl)
  have h := h.step (.advancePoll _ 1 rfl)
  have h := h.step (.advanceMakeWait _ 1 1 none _ rfl rfl)
  have h := h.step (.replace _ 1 1 (some 0) _ rfl rfl)
  have h := h.step (.advancing _ 1 0 (some 0) _ rfl rfl rfl)
  have h := h.step (.advanced _ 1 0 1 0 (some 0) _ rfl rfl rfl)
  have h := h.step (.advanceReady _ 1 0 0 (some 0) rfl (.inl rfl))
  exact ⟨_, h, rfl⟩

example : consumedOf (sysLog ([.nextCall, .pollBegin .next 0 none, .sys (.yielded [7]), .nextReady 0 (some [7])] : List (Event Nat Nat))) = 0 ∧
    1 ≤ (deliveredOf ([.sys (.loaded [7] (some (.ok (.new 0 1 1)))), .sys (.committed [7]), .sys .iterates, .nextCall, .pollBegin .next 0 none,
      .sys (.yielded [7]), .nextReady 0 (some [7])] : List (Event Nat Nat))).length := by decide

end Parcom.Runner
