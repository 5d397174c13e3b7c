import Verif.Props.Runner
/-!
# When `advance` on the default runner's sequence resolves

C67 says how much has been skipped when the future of `DefaultSequence::advance` (advance.rs:38-65) is ready. Here: what it
waits for.
-/
namespace Parcom.Runner
open Parcom.Spec
variable {T E : Type} {b : Build} {st : State T E}

/-- What the last call of `buffer.advance` could not skip. -/
def leftBy (log : List (Event T E)) : Option Nat :=
  log.foldl (fun o e => match e with
    | .sys (.advanced _ r) => some r
    | _ => o) none

theorem leftBy_quiet {log new : List (Event T E)} (h : ∀ e ∈ new, ∀ n r, e ≠ .sys (.advanced n r)) : leftBy (log ++ new) = leftBy log := by
  unfold leftBy
  rw [List.foldl_append]
  generalize List.foldl _ none log = o
  induction new generalizing o with
  | nil => rfl
  | cons e new ih =>
    rw [List.foldl_cons, ih (fun e he => h e (List.mem_cons_of_mem _ he))]
    have := h e List.mem_cons_self
    split
    · exact absurd rfl (this _ _)
    · rfl

theorem leftBy_advanced (log : List (Event T E)) (n r : Nat) : leftBy (log ++ [.sys (.advanced n r)]) = some r := by
  unfold leftBy
  rw [List.foldl_append]
  rfl

/-- While `poll` is before its check, what it checks is what `buffer.advance` returned. -/
theorem check_left (h : Reachable b st) : ∀ k fut remain r, st.task = .advancePoll k fut remain (.check r) → leftBy st.log = some r := by
  induction h with
  | init c => intro k fut remain r ht; cases ht
  | @step st st' hr hs ih =>
    intro k fut remain r ht
    cases hs with
    | loader m sys new hm he hl =>
      obtain ⟨-, hnew⟩ := move_loader hm he hl
      rw [leftBy_quiet, ih k fut remain r ht]
      intro e he n r' e'
      obtain ⟨o, ho, rfl⟩ := List.mem_map.mp he
      rcases hnew o ho with ⟨xs, rfl⟩ | ⟨t, r, rfl⟩ <;> cases e'
    | setDone =>
      rw [leftBy_quiet, ih k fut remain r ht]
      simp
    | signal signal new hstep hl =>
      rw [leftBy_quiet, ih k fut remain r ht]
      intro e he n r' e'
      obtain ⟨o, -, rfl⟩ := List.mem_map.mp he
      cases e'
    | advanced k' remain' n r' fut' sys ht' he hl =>
      simp only [Task.advancePoll.injEq, AdvancePc.check.injEq] at ht
      rw [leftBy_advanced, ht.2.2.2]
    | advancing k' remain' fut' sys ht' he hl => rw [ht'] at ht; cases ht
    | _ => cases ht

/-- C67: `advance(n)` resolves only if the last `buffer.advance` skipped all it was asked to, or the source has ended. -/
theorem C67_resolves (h : Reachable b st) {l₁ l₂ : List (Event T E)} {k : Nat} (hl : st.log = l₁ ++ .advanceReady k :: l₂) :
    leftBy l₁ = some 0 ∨ .done ∈ l₁ := by
  obtain ⟨st₀, st₁, n₁, n₂, hr, hs, hn, hpre⟩ := moment h hl
  cases hs with
  | advanceReady k' remain r fut ht hd =>
    replace hn := List.append_cancel_left hn
    rcases n₁ with _ | ⟨e₁, n₁⟩ <;> simp at hn
    rw [List.append_nil] at hpre
    have ha := adv hr
    rw [ht] at ha
    have hz : remain = 0 := ha.2
    rw [hpre]
    rcases hd with hd | hd
    · left
      rw [check_left hr _ _ _ _ ht, hd, hz]
    · exact .inr ((inv hr).done.mp hd)
  | _ =>
    first
    | (replace hn := List.append_cancel_left hn; have := congrArg (Event.advanceReady k ∈ ·) hn; simp at this)
    | (simp at hn)

/-- C67: if it resolves in its first poll, before the source has ended, exactly `n` items have been skipped. -/
theorem C67_first_poll (h : Reachable b st) {l₁ l₂ l₃ : List (Event T E)} {n k : Nat}
    (hl : st.log = l₁ ++ .advanceCall n :: l₂ ++ .advanceReady k :: l₃) (hone : ∀ m, .advanceCall m ∉ l₂)
    (hfirst : (l₂.filter fun e => match e with | .sys (.advanced ..) => true | _ => false).length ≤ 1)
    (hd : .done ∉ l₁ ++ .advanceCall n :: l₂) :
    consumedOf (sysLog (l₁ ++ .advanceCall n :: l₂)) = consumedOf (sysLog l₁) + n := by
  obtain ⟨a, r, c, rfl, h2, h3, h4, h5⟩ := C67_exact h hl hone
  have hc : ∀ m r', .sys (.advanced m r') ∉ c := by
    intro m r' hm
    rw [List.filter_append, List.filter_cons_of_pos rfl, List.length_append, List.length_cons] at hfirst
    have : 0 < (c.filter fun e => match e with | .sys (.advanced ..) => true | _ => false).length :=
      List.length_pos_of_mem (List.mem_filter.mpr ⟨hm, rfl⟩)
    omega
  have hleft : leftBy (l₁ ++ .advanceCall n :: (a ++ .sys (.advanced n r) :: c)) = some r := by
    rw [show l₁ ++ .advanceCall n :: (a ++ .sys (.advanced n r) :: c) = (l₁ ++ .advanceCall n :: a) ++ [.sys (.advanced n r)] ++ c by simp,
      leftBy_quiet (by intro e he m r' e'; subst e'; exact hc _ _ he), leftBy_advanced]
  rcases C67_resolves h hl with h6 | h6
  · rw [hleft] at h6
    injection h6 with h6
    rw [h5]
    omega
  · exact absurd h6 hd

/-- The case at the end of `Props/Runner` meets the hypotheses: an item is visible, and `advance(1)` skips it in its first poll. -/
example : let l₂ : List (Event Nat Nat) := .pollBegin .advance 0 none :: [.signal (.waitMade 0), .sys (.advanced 1 0)]
    (l₂.filter fun e => match e with | .sys (.advanced ..) => true | _ => false).length ≤ 1 ∧ leftBy l₂ = some 0 := ⟨by decide, rfl⟩

end Parcom.Runner
