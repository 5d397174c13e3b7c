import Verif.Model.Notify
/-!
# Notify: the calls under way
-/
namespace Parcom.Notify

/-- The call holds the mutex. -/
def Pc.holds : Pc → Bool
  | .sendDrain | .pollInsert _ | .pollRecheck _ _ | .pollRemove _ | .pollUnlock => true
  | _ => false

theorem split_snoc {β : Type} {log l₁ l₂ : List β} {x e : β} (h : log ++ [x] = l₁ ++ e :: l₂) :
    (l₂ = [] ∧ l₁ = log ∧ e = x) ∨ ∃ l₂', l₂ = l₂' ++ [x] ∧ log = l₁ ++ e :: l₂' := by
  rcases List.eq_nil_or_concat l₂ with rfl | ⟨l₂', y, rfl⟩
  · have := List.append_inj' h rfl
    simp at this
    exact .inl ⟨rfl, this.1.symm, this.2.symm⟩
  · have h' : log ++ [x] = (l₁ ++ e :: l₂') ++ [y] := by simpa using h
    have := List.append_inj' h' rfl
    simp at this
    exact .inr ⟨l₂', by simp [this.2], this.1⟩

/-- After `a`, no `b` happens. -/
def NeverAfter (log : List Event) (a b : Event) : Prop := ∀ m₁ m₂, log = m₁ ++ m₂ → a ∈ m₁ → b ∉ m₂

theorem NeverAfter.snoc {log : List Event} {a b x : Event} (h : NeverAfter log a b) (hx : x = b → a ∉ log) :
    NeverAfter (log ++ [x]) a b := by
  intro m₁ m₂ he ha hb
  rcases List.eq_nil_or_concat m₂ with rfl | ⟨l, y, rfl⟩
  · simp at hb
  · have h' : log ++ [x] = (m₁ ++ l) ++ [y] := by simpa using he
    have := List.append_inj' h' rfl
    simp at this
    obtain ⟨rfl, rfl⟩ := this
    simp at hb
    rcases hb with hb | rfl
    · exact h m₁ l rfl ha hb
    · exact hx rfl (by simp [ha])

theorem NeverAfter.nil {a b : Event} : NeverAfter [] a b := by
  intro m₁ m₂ he ha
  simp at he
  simp [he.1] at ha

/-- The calls: where they are and what they have done. -/
structure Calls (st : State) : Prop where
  fresh : ∀ c, st.calls ≤ c → st.pc c = .absent
  lock : ∀ c, (st.pc c).holds = true ↔ st.lock = some c
  pollAt : ∀ p i, (st.pc p = .pollLoad i ∨ st.pc p = .pollLock i ∨ st.pc p = .pollInsert i ∨ ∃ k, st.pc p = .pollRecheck i k) →
    .pollBegin p i ∈ st.log
  pollOld : ∀ p i, .pollBegin p i ∈ st.log → p < st.calls ∧ i < st.waits.length
  pollOne : ∀ p i j, .pollBegin p i ∈ st.log → .pollBegin p j ∈ st.log → i = j
  checkedAt : ∀ p, .pollChecked p ∈ st.log → st.pc p = .pollUnlock ∨ st.pc p = .done
  unlockAt : ∀ p, st.pc p = .pollUnlock → .pollChecked p ∈ st.log
  readyAt : ∀ p, .pollReady p ∈ st.log → st.pc p = .done
  pending : ∀ p, .pollPending p ∈ st.log → .pollChecked p ∈ st.log
  sendOld : ∀ s, .sendBegin s ∈ st.log → s < st.calls
  sendAdded : ∀ s, .sendAdd s ∈ st.log → .sendBegin s ∈ st.log ∧ st.pc s ≠ .sendAdd
  sendLater : ∀ s, (st.pc s = .sendLock ∨ st.pc s = .sendDrain) → .sendAdd s ∈ st.log
  sendAt : ∀ s, st.pc s = .sendAdd → .sendBegin s ∈ st.log
  sendEnd : ∀ s, .sendEnd s ∈ st.log → st.pc s = .done ∧ .sendAdd s ∈ st.log ∧ .sendLocked s ∈ st.log
  lockedAt : ∀ s, .sendLocked s ∈ st.log → st.pc s = .sendDrain ∨ st.pc s = .done
  drainAt : ∀ s, st.pc s = .sendDrain → .sendLocked s ∈ st.log
  waitMade : ∀ i, .waitMade i ∈ st.log ↔ i < st.waits.length

theorem calls_init : Calls init := by
  constructor <;> simp [init, Pc.holds]

set_option maxHeartbeats 4000000 in
theorem calls_step {st st' : State} (h : Calls st) (hs : Step st st') : Calls st' := by
  obtain ⟨h1, h2, h3, h4, h5, h6, h7, h8, h9, h10, h11, h12, h13, h14, h15, h16, h17⟩ := h
  cases hs <;> constructor <;> simp only [State.goto, State.emit] <;> grind [Pc.holds]

theorem calls {st : State} (h : Reachable st) : Calls st := by
  induction h with
  | init => exact calls_init
  | step _ hs ih => exact calls_step ih hs

end Parcom.Notify
