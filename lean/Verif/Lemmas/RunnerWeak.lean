import Verif.Spec.RunningWeak
import Verif.Props.NotifyWeak
/-!
# What holds in every state of the runner's sequence with stale reads
-/
namespace Parcom.RunnerWeak
variable {T : Type}

/-! ## Logs -/

theorem signalLog_append (a b : List (Event T)) : signalLog (a ++ b) = signalLog a ++ signalLog b := List.filterMap_append

theorem committedOf_append (a b : List (Event T)) : committedOf (a ++ b) = committedOf a ++ committedOf b := List.filterMap_append

theorem signalLog_signals (new : List Notify.Event) : signalLog (new.map (.signal : _ → Event T)) = new := by
  induction new with
  | nil => rfl
  | cons e new ih => exact congrArg (e :: ·) ih

theorem committedOf_signals (new : List Notify.Event) : committedOf (new.map (.signal : _ → Event T)) = [] := by
  simp [committedOf]

theorem mem_signalLog {log : List (Event T)} {e : Notify.Event} : e ∈ signalLog log ↔ .signal e ∈ log := by
  simp only [signalLog, List.mem_filterMap]
  constructor
  · rintro ⟨a, h1, h2⟩
    cases a <;> simp at h2
    subst h2
    exact h1
  · exact fun h => ⟨_, h, rfl⟩

/-- The last thing the user did. -/
def lastOwn (log : List (Event T)) : Option (Event T) := (log.filter Event.own).getLast?

theorem lastOwn_own {log : List (Event T)} {e : Event T} (h : e.own = true) : lastOwn (log ++ [e]) = some e := by
  simp [lastOwn, List.filter_append, h]

theorem lastOwn_others {log new : List (Event T)} (h : ∀ e ∈ new, e.own = false) : lastOwn (log ++ new) = lastOwn log := by
  have : new.filter Event.own = [] := by
    rw [List.filter_eq_nil_iff]
    intro e he
    simp [h e he]
  rw [lastOwn, List.filter_append, this, List.append_nil, lastOwn]

theorem consumedOf_others {log new : List (Event T)} (h : ∀ e ∈ new, e.own = false) : consumedOf (log ++ new) = consumedOf log := by
  rw [consumedOf, List.foldl_append]
  change new.foldl _ (consumedOf log) = _
  generalize consumedOf log = n
  induction new with
  | nil => rfl
  | cons e new ih =>
    have h1 := h e (by simp)
    have h2 := ih fun e he => h e (by simp [he])
    cases e <;> first | exact h2 | simp [Event.own] at h1

theorem deliveredOf_others {log new : List (Event T)} (h : ∀ e ∈ new, e.own = false) : deliveredOf (log ++ new) = deliveredOf log := by
  rw [deliveredOf, List.foldl_append]
  change new.foldl _ (deliveredOf log) = _
  generalize deliveredOf log = n
  induction new with
  | nil => rfl
  | cons e new ih =>
    have h1 := h e (by simp)
    have h2 := ih fun e he => h e (by simp [he])
    cases e <;> first | exact h2 | simp [Event.own] at h1

/-! ## Views -/

/-- To know of no more. -/
def View.Le (a b : View) : Prop := a.nodes ≤ b.nodes ∧ (a.done = true → b.done = true)

theorem View.Le.refl (a : View) : a.Le a := ⟨Nat.le_refl _, id⟩

theorem View.Le.trans {a b c : View} (h : a.Le b) (h' : b.Le c) : a.Le c := ⟨Nat.le_trans h.1 h'.1, fun x => h'.2 (h.2 x)⟩

theorem View.le_join (a b : View) : a.Le (a.join b) ∧ b.Le (a.join b) := by
  refine ⟨⟨Nat.le_max_left _ _, fun h => by simp [View.join, h]⟩, ⟨Nat.le_max_right _ _, fun h => by simp [View.join, h]⟩⟩

theorem View.joins_le (vs : List View) (a : View) : a.Le (a.joins vs) ∧ ∀ v ∈ vs, v.Le (a.joins vs) := by
  induction vs generalizing a with
  | nil => exact ⟨.refl a, by simp⟩
  | cons v vs ih =>
    obtain ⟨h1, h2⟩ := ih (a.join v)
    refine ⟨(View.le_join a v).1.trans h1, fun u hu => ?_⟩
    rcases List.mem_cons.mp hu with rfl | hu
    · exact (View.le_join a _).2.trans h1
    · exact h2 u hu

theorem State.All.join {st : State T} {a b : View} (ha : st.All a) (hb : st.All b) : st.All (a.join b) := by
  refine ⟨Nat.max_le.mpr ⟨ha.1, hb.1⟩, fun h => ?_⟩
  simp [View.join] at h
  exact h.elim ha.2 hb.2

theorem State.All.joins {st : State T} {vs : List View} {a : View} (ha : st.All a) (hb : ∀ v ∈ vs, st.All v) : st.All (a.joins vs) := by
  induction vs generalizing a with
  | nil => exact ha
  | cons v vs ih => exact ih (ha.join (hb v (by simp))) fun v hv => hb v (by simp [hv])

/-! ## Positions -/

/-- The items before a position. -/
def before (nodes : List (List T)) (n o : Nat) : List T := (nodes.take n).flatten ++ (nodes[n]?.getD []).take o

/-- A position, and the items before it. -/
structure Pos (nodes : List (List T)) (n o : Nat) (items : List T) : Prop where
  node : n ≤ nodes.length
  offset : o ≤ (nodes[n]?.getD []).length
  items : before nodes n o = items

theorem take_get {α : Type} {l : List α} {n : Nat} {x : α} (h : l[n]? = some x) : l.take (n + 1) = l.take n ++ [x] := by
  rw [List.take_add_one, h]
  rfl

variable {nodes : List (List T)} {n o : Nat} {items : List T}

theorem Pos.commit (h : Pos nodes n o items) (seg : List T) : Pos (nodes ++ [seg]) n o items := by
  obtain ⟨h1, h2, h3⟩ := h
  by_cases hn : n < nodes.length
  · refine ⟨by simp; omega, by rw [List.getElem?_append_left hn]; exact h2, ?_⟩
    rw [← h3, before, before, List.getElem?_append_left hn, List.take_append_of_le_length h1]
  · have hn : n = nodes.length := by omega
    have h4 : nodes[n]? = none := by rw [List.getElem?_eq_none_iff]; omega
    rw [h4] at h2
    have h5 : o = 0 := by simpa using h2
    subst h5
    refine ⟨by simp; omega, Nat.zero_le _, ?_⟩
    rw [← h3, before, before, List.take_append_of_le_length h1]
    simp

theorem Pos.pass (h : Pos nodes n o items) {buf : List T} (hb : nodes[n]? = some buf) : Pos nodes (n + 1) 0 (items ++ buf.drop o) := by
  obtain ⟨h1, h2, h3⟩ := h
  have hn : n < nodes.length := (List.getElem?_eq_some_iff.mp hb).1
  refine ⟨hn, Nat.zero_le _, ?_⟩
  rw [← h3, before, before, take_get hb, hb, List.flatten_append]
  simp

theorem Pos.stop (h : Pos nodes n o items) {buf : List T} (hb : nodes[n]? = some buf) {r : Nat} (hr : r < buf.length - o) :
    Pos nodes n (o + r) (items ++ (buf.drop o).take r) := by
  obtain ⟨h1, h2, h3⟩ := h
  rw [hb] at h2
  refine ⟨h1, by rw [hb]; simp; omega, ?_⟩
  rw [← h3, before, before, hb]
  simp [List.take_add]

theorem Pos.prefix (h : Pos nodes n o items) : items <+: nodes.flatten := by
  obtain ⟨h1, h2, h3⟩ := h
  subst h3
  rw [before]
  conv => rhs; rw [← List.take_append_drop n nodes, List.flatten_append]
  rw [List.prefix_append_right_inj]
  cases hn : nodes[n]? with
  | none => simp
  | some buf =>
    have : nodes.drop n = buf :: nodes.drop (n + 1) := by
      obtain ⟨h4, h5⟩ := List.getElem?_eq_some_iff.mp hn
      rw [List.drop_eq_getElem_cons h4, h5]
    rw [this, List.flatten_cons]
    exact (List.take_prefix _ _).trans (List.prefix_append _ _)

theorem Pos.beyond (h : Pos nodes n o items) {m : Nat} (hm : m ≤ n) : (nodes.take m).flatten.length ≤ items.length := by
  obtain ⟨h1, h2, h3⟩ := h
  subst h3
  have : (nodes.take m).flatten <+: (nodes.take n).flatten := by
    rw [show nodes.take m = (nodes.take n).take m by rw [List.take_take, Nat.min_eq_left hm]]
    conv => rhs; rw [← List.take_append_drop m (nodes.take n), List.flatten_append]
    exact List.prefix_append _ _
  have := this.length_le
  rw [before, List.length_append]
  omega

theorem Pos.inj (h : Pos nodes n o items) {items' : List T} (h' : Pos nodes n o items') : items' = items := by
  rw [← h.items, ← h'.items]

/-! ## What holds in every state -/

/-- The `i`th `Wait` saw increments that told of no more than `n` nodes, and not of the end. -/
def Seen (st : State T) (i n : Nat) : Prop :=
  ∃ v, st.signal.st.waits[i]? = some v ∧ ∀ V ∈ st.sent.take v, V.nodes ≤ n ∧ V.done = false

/-- Of what the increments that the `i`th `Wait` saw told, the user knows. -/
def Heard (st : State T) (i : Nat) : Prop := ∃ v, st.signal.st.waits[i]? = some v ∧ ∀ V ∈ st.sent.take v, V.Le st.known

/-- Of what the increments that the `i`th `Wait` saw told, the nodes are passed, and of the end the user knows. -/
def Passed (st : State T) (i n : Nat) : Prop :=
  ∃ v, st.signal.st.waits[i]? = some v ∧ ∀ V ∈ st.sent.take v, V.nodes ≤ n ∧ (V.done = true → st.known.done = true)

/-- If the user's last poll returned `Pending`, it called `wake_by_ref` or slept in a poll of its `Wait`. -/
def Slept (st : State T) (f : Fut) (fut : Option Nat) : Prop := ∀ k, lastOwn st.log = some (.pollPending k) →
  ∃ i, fut = some i ∧ (.wokeSelf k ∈ st.log ∨
    ∃ p v, .pollBegin f k (some p) v ∈ st.log ∧ .pollPending p ∈ st.signal.st.log ∧ .pollBegin p i ∈ st.signal.st.log)

/-- The user is in a poll of its `Wait`. -/
def InPoll (st : State T) (f : Fut) (k p i : Nat) : Prop :=
  (∃ v, .pollBegin f k (some p) v ∈ st.log) ∧ .pollBegin p i ∈ st.signal.st.log

/-- The stream is at a position of which the items before are those skipped and those delivered. -/
def At (st : State T) (n o : Nat) : Prop :=
  ∃ items, Pos st.nodes st.head st.offset items ∧ Pos st.nodes n o (items ++ deliveredOf st.log)

/-- What the user knew of when the poll began. -/
def Knew (st : State T) (k : Nat) (P : View → Prop) : Prop := ∃ inner v, .pollBegin .next k inner v ∈ st.log ∧ P v

def NextOk (st : State T) (k n : Nat) (fut : Option Nat) : NextPc → Prop
  | .wait p => Knew st k (·.Le st.known) ∧ ∃ i, fut = some i ∧ Seen st i n ∧ InPoll st .next k p i
  | .first => Knew st k (·.Le st.known)
  | .makeWait => Knew st k (·.Le st.known)
  | .second i => Knew st k (·.Le st.known) ∧ Heard st i
  | .loadDone i => Knew st k (·.nodes ≤ n) ∧ Passed st i n

def AdvanceOk (st : State T) (k : Nat) (fut : Option Nat) (remain : Nat) : AdvancePc → Prop
  | .wait p => ∃ i, fut = some i ∧ Seen st i st.head ∧ InPoll st .advance k p i
  | .makeWait => True
  | .replace => ∃ i, fut = some i ∧ Heard st i
  | .advancing d r n o => remain = 0 ∧ r ≤ d ∧ (∃ i, fut = some i ∧ Heard st i) ∧
      ∃ items items', Pos st.nodes st.head st.offset items ∧ items'.length = d - r ∧ Pos st.nodes n o (items ++ items')
  | .check r => remain = 0 ∧ (r ≠ 0 → ∃ i, fut = some i ∧ Passed st i st.head)

def TaskOk (st : State T) : Task → Prop
  | .idle => True
  | .stream n o => At st n o
  | .next n o fut => At st n o ∧ Slept st .next fut ∧ ∀ i, fut = some i → Seen st i n
  | .nextPoll k n o fut pc => At st n o ∧ NextOk st k n fut pc
  | .advance fut _ => Slept st .advance fut ∧ ∀ i, fut = some i → Seen st i st.head
  | .advancePoll k fut remain pc => AdvanceOk st k fut remain pc

structure Inv (st : State T) : Prop where
  signal : Notify.WReachable st.signal
  signalLog : signalLog st.log = st.signal.st.log
  nodes : committedOf st.log = st.nodes
  done : st.doneFlag = true → .done ∈ st.log
  count : st.sent.length = st.signal.st.version
  sent : ∀ v ∈ st.sent, st.All v
  known : st.All st.known
  released : ∀ s V, .released s V ∈ st.log → ∃ a b, st.signal.st.log = a ++ .sendAdd s :: b ∧ st.sent[Notify.adds a]? = some V
  head : ∃ items, Pos st.nodes st.head st.offset items ∧ items.length = consumedOf st.log
  task : TaskOk st st.task

/-! ## Steps -/

/-- What only grows. -/
structure Grow (st st' : State T) : Prop where
  nodes : st'.nodes = st.nodes ∨ ∃ seg, st'.nodes = st.nodes ++ [seg]
  sent : st.sent <+: st'.sent
  waits : st.signal.st.waits <+: st'.signal.st.waits
  known : st.known.Le st'.known
  signalLog : st.signal.st.log <+: st'.signal.st.log
  log : st.log <+: st'.log

section
variable {st st' : State T}

theorem Grow.pos (hg : Grow st st') {n o : Nat} {items : List T} (h : Pos st.nodes n o items) : Pos st'.nodes n o items := by
  rcases hg.nodes with h1 | ⟨seg, h1⟩ <;> rw [h1]
  · exact h
  · exact h.commit seg

theorem get_of_prefix {α : Type} {l l' : List α} (h : l <+: l') {i : Nat} {x : α} (hx : l[i]? = some x) : l'[i]? = some x := by
  obtain ⟨r, rfl⟩ := h
  rw [List.getElem?_append_left (List.getElem?_eq_some_iff.mp hx).1]
  exact hx

theorem take_of_prefix {α : Type} {l l' : List α} (h : l <+: l') {v : Nat} (hv : v ≤ l.length) : l'.take v = l.take v := by
  obtain ⟨r, rfl⟩ := h
  exact List.take_append_of_le_length hv

/-- A `Wait` sees no more increments than there are. -/
def Few (st : State T) : Prop := ∀ i v : Nat, st.signal.st.waits[i]? = some v → v ≤ st.sent.length

theorem Inv.few (h : Inv st) : Few st := by
  intro i v hv
  obtain ⟨v', h1, h2⟩ := Notify.weak_waits h.signal (List.getElem?_eq_some_iff.mp hv).1
  rw [hv] at h1
  injection h1 with h1
  rw [h.count, h1]
  exact h2

theorem Seen.mono (hg : Grow st st') (hf : Few st) {i n : Nat} (h : Seen st i n) : Seen st' i n := by
  obtain ⟨v, h1, h2⟩ := h
  exact ⟨v, get_of_prefix hg.waits h1, by rw [take_of_prefix hg.sent (hf i v h1)]; exact h2⟩

theorem Heard.mono (hg : Grow st st') (hf : Few st) {i : Nat} (h : Heard st i) : Heard st' i := by
  obtain ⟨v, h1, h2⟩ := h
  refine ⟨v, get_of_prefix hg.waits h1, ?_⟩
  rw [take_of_prefix hg.sent (hf i v h1)]
  exact fun V hV => (h2 V hV).trans hg.known

theorem Passed.mono (hg : Grow st st') (hf : Few st) {i n : Nat} (h : Passed st i n) : Passed st' i n := by
  obtain ⟨v, h1, h2⟩ := h
  refine ⟨v, get_of_prefix hg.waits h1, ?_⟩
  rw [take_of_prefix hg.sent (hf i v h1)]
  exact fun V hV => ⟨(h2 V hV).1, fun hd => hg.known.2 ((h2 V hV).2 hd)⟩

theorem Heard.passed {i n : Nat} (h : Heard st i) (hn : st.known.nodes ≤ n) : Passed st i n := by
  obtain ⟨v, h1, h2⟩ := h
  exact ⟨v, h1, fun V hV => ⟨Nat.le_trans (h2 V hV).1 hn, (h2 V hV).2⟩⟩

theorem Passed.seen {i n : Nat} (h : Passed st i n) (hd : st.known.done = false) : Seen st i n := by
  obtain ⟨v, h1, h2⟩ := h
  refine ⟨v, h1, fun V hV => ⟨(h2 V hV).1, ?_⟩⟩
  have := (h2 V hV).2
  rw [hd] at this
  simpa using this

theorem InPoll.mono (hg : Grow st st') {f : Fut} {k p i : Nat} (h : InPoll st f k p i) : InPoll st' f k p i := by
  obtain ⟨⟨v, h1⟩, h2⟩ := h
  exact ⟨⟨v, hg.log.subset h1⟩, hg.signalLog.subset h2⟩

theorem Knew.mono (hg : Grow st st') {k : Nat} {P Q : View → Prop} (hPQ : ∀ v, P v → Q v) (h : Knew st k P) : Knew st' k Q := by
  obtain ⟨inner, v, h1, h2⟩ := h
  exact ⟨inner, v, hg.log.subset h1, hPQ v h2⟩

theorem At.mono (hg : Grow st st') {n o : Nat} (hh : st'.head = st.head) (ho : st'.offset = st.offset)
    (hd : deliveredOf st'.log = deliveredOf st.log) (h : At st n o) : At st' n o := by
  obtain ⟨items, h1, h2⟩ := h
  exact ⟨items, by rw [hh, ho]; exact hg.pos h1, by rw [hd]; exact hg.pos h2⟩

theorem Slept.mono (hg : Grow st st') {f : Fut} {fut : Option Nat} (hl : lastOwn st'.log = lastOwn st.log) (h : Slept st f fut) :
    Slept st' f fut := by
  intro k hk
  rw [hl] at hk
  obtain ⟨i, h1, h2⟩ := h k hk
  refine ⟨i, h1, ?_⟩
  rcases h2 with h2 | ⟨p, v, h2, h3, h4⟩
  · exact .inl (hg.log.subset h2)
  · exact .inr ⟨p, v, hg.log.subset h2, hg.signalLog.subset h3, hg.signalLog.subset h4⟩

theorem NextOk.mono (hg : Grow st st') (hf : Few st) {k n : Nat} {fut : Option Nat} {pc : NextPc} (h : NextOk st k n fut pc) :
    NextOk st' k n fut pc := by
  cases pc with
  | wait p =>
    obtain ⟨h1, i, h2, h3, h4⟩ := h
    exact ⟨h1.mono hg fun v hv => hv.trans hg.known, i, h2, h3.mono hg hf, h4.mono hg⟩
  | first | makeWait => exact Knew.mono hg (fun v hv => hv.trans hg.known) h
  | second i => exact ⟨h.1.mono hg fun v hv => hv.trans hg.known, h.2.mono hg hf⟩
  | loadDone i => exact ⟨h.1.mono hg fun v hv => hv, h.2.mono hg hf⟩

theorem AdvanceOk.mono (hg : Grow st st') (hf : Few st) (hh : st'.head = st.head) (ho : st'.offset = st.offset) {k : Nat}
    {fut : Option Nat} {remain : Nat} {pc : AdvancePc} (h : AdvanceOk st k fut remain pc) : AdvanceOk st' k fut remain pc := by
  cases pc with
  | wait p =>
    obtain ⟨i, h1, h2, h3⟩ := h
    exact ⟨i, h1, by rw [hh]; exact h2.mono hg hf, h3.mono hg⟩
  | makeWait => trivial
  | replace =>
    obtain ⟨i, h1, h2⟩ := h
    exact ⟨i, h1, h2.mono hg hf⟩
  | advancing d r n o =>
    obtain ⟨h1, h2, ⟨i, h3, h4⟩, items, items', h5, h6, h7⟩ := h
    exact ⟨h1, h2, ⟨i, h3, h4.mono hg hf⟩, items, items', by rw [hh, ho]; exact hg.pos h5, h6, hg.pos h7⟩
  | check r =>
    refine ⟨h.1, fun hr => ?_⟩
    obtain ⟨i, h1, h2⟩ := h.2 hr
    exact ⟨i, h1, by rw [hh]; exact h2.mono hg hf⟩

/-- Nothing that the others do matters. -/
theorem TaskOk.mono (hg : Grow st st') (hf : Few st) (hh : st'.head = st.head) (ho : st'.offset = st.offset)
    (hl : ∃ new, st'.log = st.log ++ new ∧ ∀ e ∈ new, e.own = false) {t : Task} (h : TaskOk st t) : TaskOk st' t := by
  obtain ⟨new, hl, hn⟩ := hl
  have hd : deliveredOf st'.log = deliveredOf st.log := by rw [hl, deliveredOf_others hn]
  have hlast : lastOwn st'.log = lastOwn st.log := by rw [hl, lastOwn_others hn]
  cases t with
  | idle => trivial
  | stream n o => exact At.mono hg hh ho hd h
  | next n o fut => exact ⟨h.1.mono hg hh ho hd, h.2.1.mono hg hlast, fun i hi => (h.2.2 i hi).mono hg hf⟩
  | nextPoll k n o fut pc => exact ⟨h.1.mono hg hh ho hd, h.2.mono hg hf⟩
  | advance fut remain => exact ⟨h.1.mono hg hlast, fun i hi => by rw [hh]; exact (h.2 i hi).mono hg hf⟩
  | advancePoll k fut remain pc => exact AdvanceOk.mono hg hf hh ho h
end

theorem WStep.waits_grow {w w' : Notify.Weak} (h : Notify.WStep w w') : w.st.waits <+: w'.st.waits := by
  cases h <;> first | exact List.prefix_refl _ | exact List.prefix_append _ _

section
variable {st st' : State T}

/-- A step of the user on its own. -/
theorem Inv.alone (h : Inv st) {new : List (Event T)} (hs : st'.signal = st.signal) (hn : st'.nodes = st.nodes)
    (hd : st'.doneFlag = st.doneFlag) (he : st'.sent = st.sent) (hk : st.All st'.known) (hl : st'.log = st.log ++ new)
    (h1 : RunnerWeak.signalLog new = []) (h2 : committedOf new = []) (h3 : ∀ s V, .released s V ∉ new)
    (hh : ∃ items, Pos st.nodes st'.head st'.offset items ∧ items.length = consumedOf st'.log)
    (ht : TaskOk st' st'.task) : Inv st' := by
  have hall : ∀ {v}, st.All v → st'.All v := fun {v} hv => by rw [State.All, hn, hd]; exact hv
  refine ⟨by rw [hs]; exact h.signal, ?_, ?_, ?_, by rw [he, hs]; exact h.count, ?_, hall hk, ?_, by rw [hn]; exact hh, ht⟩
  · rw [hl, signalLog_append, h1, List.append_nil, hs, h.signalLog]
  · rw [hl, committedOf_append, h2, List.append_nil, hn, h.nodes]
  · intro x
    rw [hd] at x
    rw [hl]
    exact List.mem_append_left _ (h.done x)
  · intro v hv
    rw [he] at hv
    exact hall (h.sent v hv)
  · intro s V hm
    rw [hl, List.mem_append] at hm
    rw [hs, he]
    exact h.released s V (hm.resolve_right (h3 s V))

/-- A step of `append_signal`. -/
theorem Inv.signals (h : Inv st) {new : List (Event T)} {new' : List Notify.Event} (hs : Notify.WStep st.signal st'.signal)
    (hv : st'.signal.st.version = st.signal.st.version) (hn : st'.nodes = st.nodes)
    (hd : st'.doneFlag = st.doneFlag) (he : st'.sent = st.sent) (hk : st.All st'.known) (hl : st'.log = st.log ++ new)
    (hsl : st'.signal.st.log = st.signal.st.log ++ new')
    (h1 : RunnerWeak.signalLog new = new') (h2 : committedOf new = []) (h3 : ∀ s V, .released s V ∉ new)
    (hh : st'.head = st.head) (ho : st'.offset = st.offset) (hc : consumedOf st'.log = consumedOf st.log)
    (ht : TaskOk st' st'.task) : Inv st' := by
  have hall : ∀ {v}, st.All v → st'.All v := fun {v} hv => by rw [State.All, hn, hd]; exact hv
  refine ⟨.step h.signal hs, ?_, ?_, ?_, by rw [he, hv]; exact h.count, ?_, hall hk, ?_, by rw [hn, hh, ho, hc]; exact h.head, ht⟩
  · rw [hl, signalLog_append, h1, hsl, h.signalLog]
  · rw [hl, committedOf_append, h2, List.append_nil, hn, h.nodes]
  · intro x
    rw [hd] at x
    rw [hl]
    exact List.mem_append_left _ (h.done x)
  · intro v hv
    rw [he] at hv
    exact hall (h.sent v hv)
  · intro s V hm
    rw [hl, List.mem_append] at hm
    obtain ⟨a, b, h4, h5⟩ := h.released s V (hm.resolve_right (h3 s V))
    exact ⟨a, b ++ new', by rw [hsl, h4]; simp, by rw [he]; exact h5⟩
end

theorem Grow.alone {st st' : State T} {new : List (Event T)} (hs : st'.signal = st.signal) (hn : st'.nodes = st.nodes)
    (he : st'.sent = st.sent) (hk : st.known.Le st'.known) (hl : st'.log = st.log ++ new) : Grow st st' :=
  ⟨.inl hn, by rw [he]; exact List.prefix_refl _, by rw [hs]; exact List.prefix_refl _, hk, by rw [hs]; exact List.prefix_refl _,
    by rw [hl]; exact List.prefix_append _ _⟩

theorem Grow.signals {st st' : State T} {new : List (Event T)} {new' : List Notify.Event} (hs : Notify.WStep st.signal st'.signal)
    (hsl : st'.signal.st.log = st.signal.st.log ++ new') (hn : st'.nodes = st.nodes)
    (he : st'.sent = st.sent) (hk : st.known.Le st'.known) (hl : st'.log = st.log ++ new) : Grow st st' :=
  ⟨.inl hn, by rw [he]; exact List.prefix_refl _, WStep.waits_grow hs, hk, by rw [hsl]; exact List.prefix_append _ _,
    by rw [hl]; exact List.prefix_append _ _⟩

theorem consumedOf_snoc (log : List (Event T)) (e : Event T) : consumedOf (log ++ [e]) = match e with
    | .advanced d r => consumedOf log + (d - r)
    | _ => consumedOf log := by
  rw [consumedOf, List.foldl_append]
  rfl

theorem deliveredOf_snoc (log : List (Event T)) (e : Event T) : deliveredOf (log ++ [e]) = match e with
    | .iterates => []
    | .nextReady _ (some seg) => deliveredOf log ++ seg
    | _ => deliveredOf log := by
  rw [deliveredOf, List.foldl_append]
  rfl

theorem At.alone {st : State T} {n o : Nat} (h : At st n o) (known : View) (task : Task) (polls : Nat) (e : Event T)
    (hd : deliveredOf (st.log ++ [e]) = deliveredOf st.log) : At { st with known, task, polls, log := st.log ++ [e] } n o := by
  obtain ⟨items, h1, h2⟩ := h
  exact ⟨items, h1, by rw [hd]; exact h2⟩

theorem inv_step {st st' : State T} (h : Inv st) (hs : Step st st') : Inv st' := by
  have hf := h.few
  have ht := h.task
  cases hs with
  | commit seg =>
    have hg : Grow st { st with nodes := st.nodes ++ [seg], log := st.log ++ [.committed seg] } :=
      ⟨.inr ⟨seg, rfl⟩, List.prefix_refl _, List.prefix_refl _, .refl _, List.prefix_refl _, List.prefix_append _ _⟩
    have hall : ∀ {v}, st.All v → State.All { st with nodes := st.nodes ++ [seg], log := st.log ++ [.committed seg] } v :=
      fun {v} hv => ⟨by have := hv.1; simp; omega, hv.2⟩
    refine ⟨h.signal, ?_, ?_, fun hd => List.mem_append_left _ (h.done hd), h.count, fun v hv => hall (h.sent v hv), hall h.known,
      ?_, ?_, ht.mono hg hf rfl rfl ⟨_, rfl, by simp [Event.own]⟩⟩
    · rw [signalLog_append]; simpa [signalLog] using h.signalLog
    · rw [committedOf_append]; simp [committedOf, ← h.nodes]
    · intro s V hm; exact h.released s V (by simpa using hm)
    · obtain ⟨items, h1, h2⟩ := h.head
      exact ⟨items, h1.commit seg, by rw [consumedOf_snoc]; exact h2⟩
  | setDone =>
    have hg : Grow st { st with doneFlag := true, log := st.log ++ [.done] } :=
      ⟨.inl rfl, List.prefix_refl _, List.prefix_refl _, .refl _, List.prefix_refl _, List.prefix_append _ _⟩
    have hall : ∀ {v}, st.All v → State.All { st with doneFlag := true, log := st.log ++ [.done] } v := fun {v} hv => ⟨hv.1, fun _ => rfl⟩
    refine ⟨h.signal, ?_, ?_, fun _ => by simp, h.count, fun v hv => hall (h.sent v hv), hall h.known,
      ?_, ?_, ht.mono hg hf rfl rfl ⟨_, rfl, by simp [Event.own]⟩⟩
    · rw [signalLog_append]; simpa [signalLog] using h.signalLog
    · rw [committedOf_append]; simpa [committedOf] using h.nodes
    · intro s V hm; exact h.released s V (by simpa using hm)
    · obtain ⟨items, h1, h2⟩ := h.head
      exact ⟨items, h1, by rw [consumedOf_snoc]; exact h2⟩
  | signal w new hw hv hl =>
    have hn : ∀ e ∈ new.map (.signal : _ → Event T), e.own = false := by
      intro e he
      obtain ⟨x, -, rfl⟩ := List.mem_map.mp he
      rfl
    refine h.signals hw hv rfl rfl rfl h.known rfl hl (signalLog_signals _) (committedOf_signals _) (by simp) rfl rfl
      (consumedOf_others hn) ?_
    refine TaskOk.mono (st := st) (st' := { st with signal := w, log := st.log ++ new.map .signal }) ?_ hf rfl rfl ⟨_, rfl, hn⟩ ht
    exact ⟨.inl rfl, List.prefix_refl _, WStep.waits_grow hw, .refl _, by rw [hl]; exact List.prefix_append _ _, List.prefix_append _ _⟩
  | add w c v hw hl hv ha =>
    have hg : Grow st { st with signal := w, sent := st.sent ++ [v], log := st.log ++ [.signal (.sendAdd c), .released c v] } :=
      ⟨.inl rfl, List.prefix_append _ _, WStep.waits_grow hw, .refl _, by rw [hl]; exact List.prefix_append _ _, List.prefix_append _ _⟩
    refine ⟨.step h.signal hw, ?_, ?_, fun hd => List.mem_append_left _ (h.done hd), ?_, ?_, h.known,
      ?_, ?_, ht.mono hg hf rfl rfl ⟨_, rfl, by simp [Event.own]⟩⟩
    · rw [signalLog_append, h.signalLog, hl]; rfl
    · rw [committedOf_append]; simpa [committedOf] using h.nodes
    · simp [h.count, hv]
    · intro u hu
      rcases List.mem_append.mp hu with hu | hu
      · exact h.sent u hu
      · rw [List.mem_singleton.mp hu]; exact ha
    · intro s V hm
      rcases List.mem_append.mp hm with hm | hm
      · obtain ⟨a, b, h1, h2⟩ := h.released s V hm
        exact ⟨a, b ++ [.sendAdd c], by simp [hl, h1], get_of_prefix (List.prefix_append _ _) h2⟩
      · simp at hm
        obtain ⟨rfl, rfl⟩ := hm
        refine ⟨st.signal.st.log, [], hl, ?_⟩
        rw [← (Notify.numbers h.signal).version, ← h.count]
        simp
    · obtain ⟨items, h1, h2⟩ := h.head
      exact ⟨items, h1, by rw [consumedOf_others (by simp [Event.own])]; exact h2⟩
  | learn v ha =>
    have hg : Grow st { st with known := st.known.join v } :=
      ⟨.inl rfl, List.prefix_refl _, List.prefix_refl _, (View.le_join _ _).1, List.prefix_refl _, List.prefix_refl _⟩
    exact h.alone (new := []) rfl rfl rfl rfl (h.known.join ha) (by simp) rfl rfl (by simp) h.head
      (ht.mono hg hf rfl rfl ⟨[], by simp, by simp⟩)
  | segments hi =>
    refine h.alone (new := [.iterates]) rfl rfl rfl rfl h.known rfl rfl rfl (by simp) (by rw [consumedOf_snoc]; exact h.head) ?_
    obtain ⟨items, h1, -⟩ := h.head
    exact ⟨items, h1, by rw [deliveredOf_snoc]; simpa using h1⟩
  | dropStream n o hi => exact h.alone (new := []) rfl rfl rfl rfl h.known (by simp) rfl rfl (by simp) h.head trivial
  | next n o hi =>
    rw [hi] at ht
    refine h.alone (new := [.nextCall]) rfl rfl rfl rfl h.known rfl rfl rfl (by simp) (by rw [consumedOf_snoc]; exact h.head) ?_
    refine ⟨At.alone ht _ _ _ _ (by rw [deliveredOf_snoc]), ?_, by simp⟩
    intro k hk
    rw [lastOwn_own rfl] at hk
    simp at hk
  | nextDrop n o fut hi =>
    rw [hi] at ht
    refine h.alone (new := [.nextDrop]) rfl rfl rfl rfl h.known rfl rfl rfl (by simp) (by rw [consumedOf_snoc]; exact h.head) ?_
    exact At.alone ht.1 _ _ _ _ (by rw [deliveredOf_snoc])
  | nextPoll n o hi =>
    rw [hi] at ht
    refine h.alone (new := [.pollBegin .next st.polls none st.known]) rfl rfl rfl rfl h.known rfl rfl rfl (by simp)
      (by rw [consumedOf_snoc]; exact h.head) ?_
    refine ⟨At.alone ht.1 _ _ _ _ (by rw [deliveredOf_snoc]), ?_⟩
    exact ⟨none, st.known, by simp, .refl _⟩
  | nextPollWait n o i w hi hw hl hv =>
    rw [hi] at ht
    refine h.signals (new := [.pollBegin .next st.polls (some st.signal.st.calls) st.known, .signal (.pollBegin st.signal.st.calls i)])
      hw hv rfl rfl rfl h.known rfl hl rfl rfl (by simp) rfl rfl ?_ ?_
    · rw [show ∀ a b : Event T, [a, b] = [a] ++ [b] from fun _ _ => rfl, ← List.append_assoc, consumedOf_snoc, consumedOf_snoc]
    have hg := Grow.signals (st := st) (st' := { st with
        signal := w, task := .nextPoll st.polls n o (some i) (.wait st.signal.st.calls), polls := st.polls + 1
        log := st.log ++ [.pollBegin .next st.polls (some st.signal.st.calls) st.known, .signal (.pollBegin st.signal.st.calls i)] })
        hw hl rfl rfl (.refl _) rfl
    refine ⟨ht.1.mono hg rfl rfl ?_, ⟨_, st.known, List.mem_append_right _ (List.mem_cons_self ..), .refl _⟩, i, rfl, (ht.2.2 i rfl).mono hg hf,
      ⟨st.known, by simp⟩, by simp [hl]⟩
    rw [show ∀ a b : Event T, [a, b] = [a] ++ [b] from fun _ _ => rfl, ← List.append_assoc, deliveredOf_snoc, deliveredOf_snoc]
  | nextWaitReady k n o p fut hi hp =>
    rw [hi] at ht
    refine h.alone (new := []) rfl rfl rfl rfl h.known (by simp) rfl rfl (by simp) h.head ?_
    exact ⟨ht.1, ht.2.1⟩
  | nextWaitPending k n o p fut hi hp =>
    rw [hi] at ht
    refine h.alone (new := [.pollPending k]) rfl rfl rfl rfl h.known rfl rfl rfl (by simp) (by rw [consumedOf_snoc]; exact h.head) ?_
    obtain ⟨ha, hkn, i, h1, h2, ⟨v, h3⟩, h4⟩ := ht
    have hg := Grow.alone (st := st) (st' := { st with task := .next n o fut, log := st.log ++ [.pollPending k] }) rfl rfl rfl (.refl _) rfl
    refine ⟨ha.mono hg rfl rfl (by rw [deliveredOf_snoc]), ?_, ?_⟩
    · intro k' hk
      rw [lastOwn_own rfl] at hk
      simp at hk
      subst hk
      exact ⟨i, h1, .inr ⟨p, v, List.mem_append_left _ h3, hp, h4⟩⟩
    · intro j hj
      rw [h1] at hj
      injection hj with hj
      subst hj
      exact h2.mono hg hf
  | firstSome k n o fut buf hi hb =>
    rw [hi] at ht
    have hn : n < st.nodes.length := (List.getElem?_eq_some_iff.mp hb).1
    refine h.alone (new := [.nextReady k (some (buf.drop o))]) rfl rfl rfl rfl (h.known.join ⟨hn, by simp⟩) rfl rfl rfl (by simp)
      (by rw [consumedOf_snoc]; exact h.head) ?_
    obtain ⟨⟨items, h1, h2⟩, -⟩ := ht
    refine ⟨items, h1, ?_⟩
    rw [deliveredOf_snoc, ← List.append_assoc]
    exact h2.pass hb
  | firstNone k n o fut hi hk =>
    rw [hi] at ht
    exact h.alone (new := []) rfl rfl rfl rfl h.known (by simp) rfl rfl (by simp) h.head ⟨ht.1, ht.2⟩
  | makeWait k n o v fut w hi hw hl hwv hv =>
    rw [hi] at ht
    have hg := Grow.signals (st := st) (st' := { st with
        signal := w, known := st.known.joins (st.sent.take v), task := .nextPoll k n o fut (.second st.signal.st.waits.length)
        log := st.log ++ [.signal (.waitMade st.signal.st.waits.length)] }) hw hl rfl rfl (View.joins_le _ _).1 rfl
    refine h.signals (new := [.signal (.waitMade st.signal.st.waits.length)]) hw hv rfl rfl rfl
      (h.known.joins fun v hv => h.sent v (List.mem_of_mem_take hv)) rfl hl rfl rfl (by simp) rfl rfl (by rw [consumedOf_snoc]) ?_
    refine ⟨ht.1.mono hg rfl rfl (by rw [deliveredOf_snoc]), Knew.mono hg (fun v hv => hv.trans hg.known) ht.2, v, ?_, (View.joins_le _ _).2⟩
    simp [hwv]
  | secondSome k n o i fut buf hi hb =>
    rw [hi] at ht
    have hn : n < st.nodes.length := (List.getElem?_eq_some_iff.mp hb).1
    refine h.alone (new := [.nextReady k (some (buf.drop o))]) rfl rfl rfl rfl (h.known.join ⟨hn, by simp⟩) rfl rfl rfl (by simp)
      (by rw [consumedOf_snoc]; exact h.head) ?_
    obtain ⟨⟨items, h1, h2⟩, -⟩ := ht
    refine ⟨items, h1, ?_⟩
    rw [deliveredOf_snoc, ← List.append_assoc]
    exact h2.pass hb
  | secondNone k n o i fut hi hk =>
    rw [hi] at ht
    refine h.alone (new := []) rfl rfl rfl rfl h.known (by simp) rfl rfl (by simp) h.head ⟨ht.1, ?_⟩
    obtain ⟨-, ⟨inner, v, h1, h2⟩, h3⟩ := ht
    exact ⟨⟨inner, v, h1, Nat.le_trans h2.1 hk⟩, h3.passed hk⟩
  | isDone k n o i fut hi hd =>
    rw [hi] at ht
    refine h.alone (new := [.nextReady k none]) rfl rfl rfl rfl (h.known.join ⟨Nat.zero_le _, fun _ => hd⟩) rfl rfl rfl (by simp)
      (by rw [consumedOf_snoc]; exact h.head) ?_
    exact At.alone ht.1 _ _ _ _ (by rw [deliveredOf_snoc])
  | notDone k n o i fut hi hd =>
    rw [hi] at ht
    have hg := Grow.alone (st := st) (st' := { st with task := .next n o (some i), log := st.log ++ [.wokeSelf k, .pollPending k] })
      rfl rfl rfl (.refl _) rfl
    have hab : st.log ++ [.wokeSelf k, .pollPending k] = st.log ++ [.wokeSelf k] ++ [(.pollPending k : Event T)] := by simp
    refine h.alone (new := [.wokeSelf k, .pollPending k]) rfl rfl rfl rfl h.known rfl rfl rfl (by simp)
      (by rw [hab, consumedOf_snoc, consumedOf_snoc]; exact h.head) ?_
    refine ⟨ht.1.mono hg rfl rfl (by rw [hab, deliveredOf_snoc, deliveredOf_snoc]), ?_, ?_⟩
    · intro k' hk
      rw [hab, lastOwn_own rfl] at hk
      simp at hk
      subst hk
      exact ⟨i, rfl, .inl (by simp)⟩
    · intro j hj
      injection hj with hj
      subst hj
      exact (ht.2.2.seen hd).mono hg hf
  | advance delta hi =>
    refine h.alone (new := [.advanceCall delta]) rfl rfl rfl rfl h.known rfl rfl rfl (by simp) (by rw [consumedOf_snoc]; exact h.head) ?_
    refine ⟨?_, by simp⟩
    intro k hk
    rw [lastOwn_own rfl] at hk
    simp at hk
  | advancePoll remain hi =>
    exact h.alone (new := [.pollBegin .advance st.polls none st.known]) rfl rfl rfl rfl h.known rfl rfl rfl (by simp)
      (by rw [consumedOf_snoc]; exact h.head) trivial
  | advancePollWait i remain w hi hw hl hv =>
    rw [hi] at ht
    refine h.signals (new := [.pollBegin .advance st.polls (some st.signal.st.calls) st.known, .signal (.pollBegin st.signal.st.calls i)])
      hw hv rfl rfl rfl h.known rfl hl rfl rfl (by simp) rfl rfl ?_ ?_
    · rw [show ∀ a b : Event T, [a, b] = [a] ++ [b] from fun _ _ => rfl, ← List.append_assoc, consumedOf_snoc, consumedOf_snoc]
    have hg := Grow.signals (st := st) (st' := { st with
        signal := w, task := .advancePoll st.polls (some i) remain (.wait st.signal.st.calls), polls := st.polls + 1
        log := st.log ++ [.pollBegin .advance st.polls (some st.signal.st.calls) st.known, .signal (.pollBegin st.signal.st.calls i)] })
        hw hl rfl rfl (.refl _) rfl
    exact ⟨i, rfl, (ht.2 i rfl).mono hg hf, ⟨st.known, by simp⟩, by simp [hl]⟩
  | advanceWaitReady k p remain fut hi hp => exact h.alone (new := []) rfl rfl rfl rfl h.known (by simp) rfl rfl (by simp) h.head trivial
  | advanceWaitPending k p remain fut hi hp =>
    rw [hi] at ht
    refine h.alone (new := [.pollPending k]) rfl rfl rfl rfl h.known rfl rfl rfl (by simp) (by rw [consumedOf_snoc]; exact h.head) ?_
    obtain ⟨i, h1, h2, ⟨v, h3⟩, h4⟩ := ht
    have hg := Grow.alone (st := st) (st' := { st with task := .advance fut remain, log := st.log ++ [.pollPending k] })
      rfl rfl rfl (.refl _) rfl
    refine ⟨?_, ?_⟩
    · intro k' hk
      rw [lastOwn_own rfl] at hk
      simp at hk
      subst hk
      exact ⟨i, h1, .inr ⟨p, v, List.mem_append_left _ h3, hp, h4⟩⟩
    · intro j hj
      rw [h1] at hj
      injection hj with hj
      subst hj
      exact h2.mono hg hf
  | advanceMakeWait k remain v fut w hi hw hl hwv hv =>
    refine h.signals (new := [.signal (.waitMade st.signal.st.waits.length)]) hw hv rfl rfl rfl
      (h.known.joins fun v hv => h.sent v (List.mem_of_mem_take hv)) rfl hl rfl rfl (by simp) rfl rfl (by rw [consumedOf_snoc]) ?_
    exact ⟨_, rfl, v, by simp [hwv], (View.joins_le _ _).2⟩
  | replace k remain fut hi =>
    rw [hi] at ht
    obtain ⟨i, h1, h2⟩ := ht
    refine h.alone (new := []) rfl rfl rfl rfl h.known (by simp) rfl rfl (by simp) h.head ?_
    obtain ⟨items, h3, -⟩ := h.head
    exact ⟨rfl, Nat.le_refl _, ⟨i, h1, h2⟩, items, [], h3, by simp, by simpa using h3⟩
  | pass k left d r n o fut buf hi hb hr =>
    rw [hi] at ht
    have hn : n < st.nodes.length := (List.getElem?_eq_some_iff.mp hb).1
    refine h.alone (new := []) rfl rfl rfl rfl (h.known.join ⟨hn, by simp⟩) (by simp) rfl rfl (by simp) h.head ?_
    obtain ⟨h1, h2, ⟨i, h3, h4⟩, items, items', h5, h6, h7⟩ := ht
    obtain ⟨v, h8, h9⟩ := h4
    refine ⟨h1, by omega, ⟨i, h3, v, h8, fun V hV => (h9 V hV).trans (View.le_join _ _).1⟩, items, items' ++ buf.drop o, h5, ?_, ?_⟩
    · simp [h6]; omega
    · rw [← List.append_assoc]; exact h7.pass hb
  | stop k left d r n o fut buf hi hb hr =>
    rw [hi] at ht
    have hn : n < st.nodes.length := (List.getElem?_eq_some_iff.mp hb).1
    obtain ⟨h1, h2, ⟨i, h3, h4⟩, items, items', h5, h6, h7⟩ := ht
    refine h.alone (new := [.advanced d 0]) rfl rfl rfl rfl (h.known.join ⟨hn, by simp⟩) rfl rfl rfl (by simp) ?_ ⟨h1, by simp⟩
    obtain ⟨it, h8, h9⟩ := h.head
    rw [h5.inj h8] at h9
    refine ⟨_, h7.stop hb hr, ?_⟩
    rw [consumedOf_snoc]
    simp [h9, h6]
    omega
  | short k left d r n o fut hi hk =>
    rw [hi] at ht
    obtain ⟨h1, h2, ⟨i, h3, h4⟩, items, items', h5, h6, h7⟩ := ht
    refine h.alone (new := [.advanced d r]) rfl rfl rfl rfl h.known rfl rfl rfl (by simp) ?_ ⟨h1, fun _ => ⟨i, h3, ?_⟩⟩
    · obtain ⟨it, h8, h9⟩ := h.head
      rw [h5.inj h8] at h9
      refine ⟨_, h7, ?_⟩
      rw [consumedOf_snoc]
      simp [h9, h6]
    · exact h4.passed hk
  | skipped k r fut hi =>
    exact h.alone (new := [.advanceReady k]) rfl rfl rfl rfl h.known rfl rfl rfl (by simp) (by rw [consumedOf_snoc]; exact h.head) trivial
  | advanceDone k remain r fut hi hr hd =>
    exact h.alone (new := [.advanceReady k]) rfl rfl rfl rfl (h.known.join ⟨Nat.zero_le _, fun _ => hd⟩) rfl rfl rfl (by simp)
      (by rw [consumedOf_snoc]; exact h.head) trivial
  | advancePending k remain r fut hi hr hd =>
    rw [hi] at ht
    have hg := Grow.alone (st := st) (st' := { st with task := .advance fut remain, log := st.log ++ [.wokeSelf k, .pollPending k] })
      rfl rfl rfl (.refl _) rfl
    have hab : st.log ++ [.wokeSelf k, .pollPending k] = st.log ++ [.wokeSelf k] ++ [(.pollPending k : Event T)] := by simp
    refine h.alone (new := [.wokeSelf k, .pollPending k]) rfl rfl rfl rfl h.known rfl rfl rfl (by simp)
      (by rw [hab, consumedOf_snoc, consumedOf_snoc]; exact h.head) ?_
    obtain ⟨i, h1, h2⟩ := ht.2 (by rw [← ht.1]; exact hr)
    refine ⟨?_, ?_⟩
    · intro k' hk
      rw [hab, lastOwn_own rfl] at hk
      simp at hk
      subst hk
      exact ⟨i, h1, .inl (by simp)⟩
    · intro j hj
      rw [h1] at hj
      injection hj with hj
      subst hj
      exact (h2.seen hd).mono hg hf

theorem inv {st : State T} (h : Reachable st) : Inv st := by
  induction h with
  | init =>
    exact ⟨.init, rfl, rfl, by simp [init], rfl, by simp [init], ⟨Nat.le_refl _, by simp [init]⟩, by simp [init],
      ⟨[], ⟨Nat.le_refl _, Nat.zero_le _, rfl⟩, rfl⟩, trivial⟩
  | step _ hs ih => exact inv_step ih hs

end Parcom.RunnerWeak
