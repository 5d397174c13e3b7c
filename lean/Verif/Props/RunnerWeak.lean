import Verif.Lemmas.RunnerWeak
/-!
# The default runner's sequence with stale reads: C118

What C64, C65, C66 and C104 say of interleavings also holds if `get` and the load of `done_flag` may miss what was written, unless
the user has come to know of it.
-/
namespace Parcom.RunnerWeak
variable {T : Type} {st : State T}

theorem step_log {st st' : State T} (h : Step st st') : ∃ new, st'.log = st.log ++ new := by
  cases h <;> first | exact ⟨_, rfl⟩ | exact ⟨[], (List.append_nil _).symm⟩

/-- The step in which an event happened. -/
theorem moment (h : Reachable st) {pre post : List (Event T)} {e : Event T} (hl : st.log = pre ++ e :: post) :
    ∃ st₀ st₁ n₁ n₂, Reachable st₀ ∧ Step st₀ st₁ ∧ st₁.log = st₀.log ++ (n₁ ++ e :: n₂) ∧ pre = st₀.log ++ n₁ := by
  induction h generalizing post with
  | init => simp [init] at hl
  | @step st st' hr hs ih =>
    obtain ⟨new, hnew⟩ := step_log hs
    rw [hnew] at hl
    rcases List.append_eq_append_iff.mp hl with ⟨a, h1, h2⟩ | ⟨a, h1, h2⟩
    · exact ⟨st, st', a, post, hr, hs, by rw [hnew, h2], h1⟩
    · cases a with
      | nil => exact ⟨st, st', [], post, hr, hs, by rw [hnew]; simpa using h2.symm, by simpa using h1.symm⟩
      | cons x a =>
        simp at h2
        obtain ⟨rfl, -⟩ := h2
        exact ih h1

/-- C118 (C64): `next()` resolves to the items committed, in order, without gaps or duplicates. -/
theorem C118_in_order (h : Reachable st) {pre post : List (Event T)} {k : Nat} {seg : List T}
    (hl : st.log = pre ++ .nextReady k (some seg) :: post) :
    deliveredOf pre ++ seg <+: (committedOf pre).flatten.drop (consumedOf pre) := by
  obtain ⟨st₀, st₁, n₁, n₂, hr, hs, hn, rfl⟩ := moment h hl
  have hi := inv hr
  have key : ∀ {n o : Nat} {buf : List T}, At st₀ n o → st₀.nodes[n]? = some buf →
      deliveredOf st₀.log ++ buf.drop o <+: (committedOf st₀.log).flatten.drop (consumedOf st₀.log) := by
    rintro n o buf ⟨items, h1, h2⟩ hb
    obtain ⟨it, h3, h4⟩ := hi.head
    rw [h1.inj h3] at h4
    have := (h2.pass hb).prefix
    rw [hi.nodes, ← h4]
    obtain ⟨r, hr⟩ := this
    refine ⟨r, ?_⟩
    rw [← hr]
    simp [List.append_assoc]
  have ht := hi.task
  cases hs with
  | firstSome k' n o fut buf hi hb | secondSome k' n o i fut buf hi hb =>
    replace hn := List.append_cancel_left hn
    rcases n₁ with _ | ⟨e₁, n₁⟩ <;> simp at hn
    obtain ⟨⟨rfl, rfl⟩, -⟩ := hn
    rw [hi] at ht
    rw [List.append_nil]
    exact key ht.1 hb
  | _ =>
    first
    | (exfalso; have := congrArg List.length hn; simp at this; done)
    | (exfalso
       replace hn := List.append_cancel_left hn
       have := congrArg (Event.nextReady k (some seg) ∈ ·) hn
       simp at this)

/-- C118 (C65): the stream ends only once `done_flag` was set, and what the user knew of when the poll began has been delivered. -/
theorem C118_end (h : Reachable st) {pre post : List (Event T)} {k : Nat} (hl : st.log = pre ++ .nextReady k none :: post) :
    .done ∈ pre ∧ ∃ inner v, .pollBegin .next k inner v ∈ pre ∧ (told pre v).length ≤ consumedOf pre + (deliveredOf pre).length := by
  obtain ⟨st₀, st₁, n₁, n₂, hr, hs, hn, rfl⟩ := moment h hl
  have hi := inv hr
  have ht := hi.task
  cases hs with
  | isDone k' n o i fut hi' hd =>
    replace hn := List.append_cancel_left hn
    rcases n₁ with _ | ⟨e₁, n₁⟩ <;> simp at hn
    obtain ⟨rfl, -⟩ := hn
    rw [hi'] at ht
    rw [List.append_nil]
    obtain ⟨⟨items, h1, h2⟩, ⟨inner, v, h3, h4⟩, -⟩ := ht
    refine ⟨hi.done hd, inner, v, h3, ?_⟩
    obtain ⟨it, h5, h6⟩ := hi.head
    rw [h1.inj h5] at h6
    have := h2.beyond h4
    rw [told, hi.nodes]
    simp at this ⊢
    omega
  | _ =>
    first
    | (exfalso; have := congrArg List.length hn; simp at this; done)
    | (exfalso
       replace hn := List.append_cancel_left hn
       have := congrArg (Event.nextReady k none ∈ ·) hn
       simp at this)

/-- C118 (C65): so if the user knew of everything that has been committed, nothing is left out. -/
theorem C118_end_all (h : Reachable st) {pre post : List (Event T)} {k : Nat} (hl : st.log = pre ++ .nextReady k none :: post)
    (hk : ∀ inner v, .pollBegin .next k inner v ∈ pre → (committedOf pre).length ≤ v.nodes) :
    (committedOf pre).flatten.length ≤ consumedOf pre + (deliveredOf pre).length := by
  obtain ⟨-, inner, v, h1, h2⟩ := C118_end h hl
  rwa [told, List.take_of_length_le (hk inner v h1)] at h2

/-- C118: it does not suffice that `done_flag` was set before the poll began, as with interleavings (`C65_done_before`). -/
theorem C118_end_stale : ∃ st : State Nat, Reachable st ∧ st.log = [.committed [7], .done, .iterates, .nextCall,
    .pollBegin .next 0 none ⟨0, false⟩, .signal (.waitMade 0), .nextReady 0 none] := by
  have r := Reachable.step (T := Nat) .init (.commit _ [7])
  have r := Reachable.step r (.setDone _)
  have r := Reachable.step r (.segments _ rfl)
  have r := Reachable.step r (.next _ 0 0 rfl)
  have r := Reachable.step r (.nextPoll _ 0 0 rfl)
  have r := Reachable.step r (.firstNone _ 0 0 0 none rfl (Nat.le_refl _))
  have r := Reachable.step r (.makeWait _ 0 0 0 0 none _ rfl (.wait _ 0 (Nat.zero_le _)) rfl rfl rfl)
  have r := Reachable.step r (.secondNone _ 0 0 0 0 none rfl (Nat.le_refl _))
  have r := Reachable.step r (.isDone _ 0 0 0 0 none rfl rfl)
  exact ⟨_, r, rfl⟩

theorem woken {f : Fut} {fut : Option Nat} {n k s : Nat} {V : View} (hi : Inv st) (hs : Slept st f fut)
    (hseen : ∀ i, fut = some i → Seen st i n) (hlast : lastOwn st.log = some (.pollPending k)) (hr : .released s V ∈ st.log)
    (hV : n < V.nodes ∨ V.done = true) (he : .signal (.sendEnd s) ∈ st.log) (hfew : Notify.adds (signalLog st.log) < Notify.wrap) :
    Woken st.log k := by
  obtain ⟨i, h1, h2⟩ := hs k hlast
  rcases h2 with h2 | ⟨p, v, h2, h3, h4⟩
  · exact .inl h2
  · obtain ⟨x, h5, h6⟩ := hseen i h1
    obtain ⟨a, b, h7, h8⟩ := hi.released s V hr
    have hx : x < Notify.adds a + 1 := by
      apply Classical.byContradiction
      intro hn
      have := h6 V (List.mem_iff_getElem?.mpr ⟨Notify.adds a, by rw [List.getElem?_take, if_pos (by omega)]; exact h8⟩)
      rw [this.2] at hV
      simp at hV
      omega
    rw [← mem_signalLog, hi.signalLog] at he
    rw [hi.signalLog] at hfew
    obtain ⟨c, hc⟩ := Notify.C117_no_lost_wakeup hi.signal h5 h4 h3 h7 hx he (by omega)
    exact .inr ⟨f, p, v, c, h2, by rw [← mem_signalLog, hi.signalLog]; exact hc⟩

theorem lastOwn_split {pre post : List (Event T)} {e : Event T} (he : e.own = true) (hp : ∀ e ∈ post, e.own = false) :
    lastOwn (pre ++ e :: post) = some e := by
  rw [show pre ++ e :: post = (pre ++ [e]) ++ post by simp, lastOwn_others hp, lastOwn_own he]

/-- C118 (C66): no `Next` sleeps for ever. If its last poll returned `Pending`, and a `send` has returned of which the increment tells
of items that have not been delivered, or of the end, then the waker given to that poll has been woken. -/
theorem C118_next_woken (h : Reachable st) {pre post : List (Event T)} {k s n o : Nat} {fut : Option Nat} {V : View}
    (ht : st.task = .next n o fut) (hl : st.log = pre ++ .pollPending k :: post) (hpost : ∀ e ∈ post, e.own = false)
    (hr : .released s V ∈ st.log) (hV : consumedOf st.log + (deliveredOf st.log).length < (told st.log V).length ∨ V.done = true)
    (he : .signal (.sendEnd s) ∈ st.log) (hfew : Notify.adds (signalLog st.log) < Notify.wrap) : Woken st.log k := by
  have hi := inv h
  have hok := hi.task
  rw [ht] at hok
  refine woken hi hok.2.1 hok.2.2 (by rw [hl]; exact lastOwn_split rfl hpost) hr (hV.imp_left fun hlt => ?_) he hfew
  obtain ⟨items, h1, h2⟩ := hok.1
  obtain ⟨it, h3, h4⟩ := hi.head
  rw [h1.inj h3] at h4
  apply Classical.byContradiction
  intro hn
  have := h2.beyond (m := V.nodes) (by omega)
  rw [told, hi.nodes] at hlt
  simp at this hlt
  omega

/-- C118 (C104): nor does an `Advance`. -/
theorem C118_advance_woken (h : Reachable st) {pre post : List (Event T)} {k s remain : Nat} {fut : Option Nat} {V : View}
    (ht : st.task = .advance fut remain) (hl : st.log = pre ++ .pollPending k :: post) (hpost : ∀ e ∈ post, e.own = false)
    (hr : .released s V ∈ st.log) (hV : consumedOf st.log < (told st.log V).length ∨ V.done = true)
    (he : .signal (.sendEnd s) ∈ st.log) (hfew : Notify.adds (signalLog st.log) < Notify.wrap) : Woken st.log k := by
  have hi := inv h
  have hok := hi.task
  rw [ht] at hok
  refine woken hi hok.1 hok.2 (by rw [hl]; exact lastOwn_split rfl hpost) hr (hV.imp_left fun hlt => ?_) he hfew
  obtain ⟨items, h3, h4⟩ := hi.head
  apply Classical.byContradiction
  intro hn
  have := h3.beyond (m := V.nodes) (by omega)
  rw [told, hi.nodes] at hlt
  omega

/-- C118: what `buffer.advance` says it has skipped was there. -/
theorem C118_skips (h : Reachable st) {pre post : List (Event T)} {d r : Nat} (hl : st.log = pre ++ .advanced d r :: post) :
    r ≤ d ∧ consumedOf pre + (d - r) ≤ (committedOf pre).flatten.length := by
  obtain ⟨st₀, st₁, n₁, n₂, hr, hs, hn, rfl⟩ := moment h hl
  have hi := inv hr
  have ht := hi.task
  cases hs with
  | stop k left d' r' n o fut buf hi' hb hr' =>
    replace hn := List.append_cancel_left hn
    rcases n₁ with _ | ⟨e₁, n₁⟩ <;> simp at hn
    obtain ⟨⟨rfl, rfl⟩, -⟩ := hn
    rw [hi'] at ht
    rw [List.append_nil]
    obtain ⟨-, h2, -, items, items', h5, h6, h7⟩ := ht
    obtain ⟨it, h8, h9⟩ := hi.head
    rw [h5.inj h8] at h9
    have := (h7.stop hb hr').prefix.length_le
    rw [hi.nodes]
    simp only [List.length_append, List.length_take, List.length_drop] at this
    refine ⟨Nat.zero_le _, ?_⟩
    omega
  | short k left d' r' n o fut hi' hk =>
    replace hn := List.append_cancel_left hn
    rcases n₁ with _ | ⟨e₁, n₁⟩ <;> simp at hn
    obtain ⟨⟨rfl, rfl⟩, -⟩ := hn
    rw [hi'] at ht
    rw [List.append_nil]
    obtain ⟨-, h2, -, items, items', h5, h6, h7⟩ := ht
    obtain ⟨it, h8, h9⟩ := hi.head
    rw [h5.inj h8] at h9
    have := h7.prefix.length_le
    rw [hi.nodes]
    simp only [List.length_append] at this
    exact ⟨h2, by omega⟩
  | _ =>
    first
    | (exfalso; have := congrArg List.length hn; simp at this; done)
    | (exfalso
       replace hn := List.append_cancel_left hn
       have := congrArg (Event.advanced d r ∈ ·) hn
       simp at this)

/-- The hypotheses of `C118_next_woken` can be met, by stale reads: a node is set before anything else, but the user misses it in both
polls and sleeps, until the `send` that tells of it. -/
example : ∃ st : State Nat, Reachable st ∧ st.task = .next 0 0 (some 0) ∧
    st.log = [.committed [7], .iterates, .nextCall, .pollBegin .next 0 none ⟨0, false⟩, .signal (.waitMade 0), .wokeSelf 0,
      .pollPending 0, .pollBegin .next 1 (some 0) ⟨0, false⟩, .signal (.pollBegin 0 0), .signal (.pollChecked 0),
      .signal (.pollPending 0)] ++ .pollPending 1 :: [.signal (.sendBegin 1), .signal (.sendAdd 1), .released 1 ⟨1, false⟩,
      .signal (.sendLocked 1), .signal (.woke 1 0), .signal (.sendEnd 1)] := by
  have r := Reachable.step (T := Nat) .init (.commit _ [7])
  have r := Reachable.step r (.segments _ rfl)
  have r := Reachable.step r (.next _ 0 0 rfl)
  have r := Reachable.step r (.nextPoll _ 0 0 rfl)
  have r := Reachable.step r (.firstNone _ 0 0 0 none rfl (Nat.le_refl _))
  have r := Reachable.step r (.makeWait _ 0 0 0 0 none _ rfl (.wait _ 0 (Nat.zero_le _)) rfl rfl rfl)
  have r := Reachable.step r (.secondNone _ 0 0 0 0 none rfl (Nat.le_refl _))
  have r := Reachable.step r (.notDone _ 0 0 0 0 none rfl rfl)
  have r := Reachable.step r (.nextPollWait _ 0 0 0 _ rfl (.pollBegin _ 0 (by simp [Notify.State.emit, init, Notify.Weak.init, Notify.init])) rfl rfl)
  have r := Reachable.step r (.signal _ _ [] (.pollLoad _ 0 0 0 0 rfl rfl (Nat.le_refl _) (Nat.le_refl _) rfl) rfl
    (by simp [Notify.State.goto]))
  have r := Reachable.step r (.signal _ _ [] (.pollLock _ 0 0 rfl rfl) rfl (by simp [Notify.State.goto]))
  have r := Reachable.step r (.signal _ _ [] (.pollInsert _ 0 0 3 rfl (by simp [Notify.State.emit, Notify.State.goto, init, Notify.Weak.init, Notify.init])) rfl (by simp [Notify.State.goto]))
  have r := Reachable.step r (.signal _ _ [.pollChecked 0] (.pollRecheck _ 0 0 3 0 0 rfl rfl (Nat.le_refl _) (Nat.le_refl _)
    (Nat.le_refl _) rfl) rfl rfl)
  have r := Reachable.step r (.signal _ _ [.pollPending 0] (.pollUnlock _ 0 rfl) rfl rfl)
  have r := Reachable.step r (.nextWaitPending _ 1 0 0 0 (some 0) rfl
    (by simp [Notify.State.emit, Notify.State.goto, init, Notify.Weak.init, Notify.init]))
  have r := Reachable.step r (.signal _ _ [.sendBegin 1] (.sendBegin _) rfl rfl)
  have r := Reachable.step r (.add _ _ 1 ⟨1, false⟩ (.sendAdd _ 1 rfl) rfl rfl ⟨Nat.le_refl _, by simp⟩)
  have r := Reachable.step r (.signal _ _ [.sendLocked 1] (.sendLock _ 1 rfl rfl) rfl rfl)
  have r := Reachable.step r (.signal _ _ [.woke 1 0] (.sendWake _ 1 3 0 [] [] rfl rfl) rfl rfl)
  have r := Reachable.step r (.signal _ _ [.sendEnd 1] (.sendEnd _ 1 rfl rfl) rfl rfl)
  exact ⟨_, r, rfl, rfl⟩

end Parcom.RunnerWeak
