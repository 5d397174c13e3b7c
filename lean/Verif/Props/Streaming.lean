import Verif.Lemmas.Streaming
import Verif.Lemmas.Clients
import Verif.Props.Primitive
/-!
# C91: parsing while the input is being loaded gives what parsing all of it would

A parser that reads the default runner's sequence while the loader is at work sees the input in whatever pieces happen to be
there. Stated for every program that uses a sequence; parsers are such programs (`Reifies`).
-/
namespace Parcom.Runner
open Parcom Spec Sequence
variable {T E O E' : Type} {b : Build} {st st₀ : State T E}

/-- C91: a program that only skips what it was shown, and was the user of a loaded sequence, returns what it would return on a
sequence that has all the items, and leaves the same items. -/
def C91Statement : Prop :=
  ∀ (T E O : Type) (b : Build) (c : Client T O) (st₀ st : State T E) (q : c.σ) (o : O) (all : List T), c.Modest →
    Reachable b st₀ → st₀.task = .idle → Reachable b st → Follows c st₀.log st.log (.idle q) → c.step q = .ret o →
    DoneIsLast st.log → Part st.log all →
    ∃ s s' : Planned T, s.content = all.drop (consumedOf (sysLog st₀.log)) ∧ c.Returns s o s' ∧
      s'.content = all.drop (consumedOf (sysLog st.log))

/-- C91, if `done_flag` is not set while a `Next` is being polled. What is missing: the poll during which it is set can say
that the stream has ended although the last items are there (C65). -/
theorem C91_partial {c : Client T O} (hm : c.Modest) (h₀ : Reachable b st₀) (hi : st₀.task = .idle) (h : Reachable b st) {q : c.σ} {o : O}
    {all : List T} (hf : Follows c st₀.log st.log (.idle q)) (hq : c.step q = .ret o) (hl : DoneIsLast st.log) (hp : Part st.log all)
    (hb : DoneBetweenPolls st.log) :
    ∃ s s' : Planned T, s.content = all.drop (consumedOf (sysLog st₀.log)) ∧ c.Returns s o s' ∧
      s'.content = all.drop (consumedOf (sysLog st.log)) := by
  have hs := said h₀
  rw [hi] at hs
  obtain ⟨n, -, -, hg⟩ := mirrors hm h hp hl hb hf hs (post := []) (by simp)
  obtain ⟨s, h1, h2⟩ := hg []
  exact ⟨s, _, h1, ⟨q, h2, hq⟩, rfl⟩

/-- C91 for a parser. -/
theorem C91_parser {c : Client T (Except E' O)} {p : ∀ (S : Type) [Sequence S (List T)], Parser S O E'} (hr : Reifies c p) (hm : c.Modest)
    (h₀ : Reachable b st₀) (hi : st₀.task = .idle) (h : Reachable b st) {q : c.σ} {o : Except E' O} {all : List T}
    (hf : Follows c st₀.log st.log (.idle q)) (hq : c.step q = .ret o) (hl : DoneIsLast st.log) (hp : Part st.log all)
    (hb : DoneBetweenPolls st.log) :
    ∃ s s' : Planned T, content s = all.drop (consumedOf (sysLog st₀.log)) ∧ (p (Planned T)).parse s = pure (outcome (o, s')) ∧
      content s' = all.drop (consumedOf (sysLog st.log)) := by
  obtain ⟨s, s', h1, h2, h3⟩ := C91_partial hm h₀ hi h hf hq hl hp hb
  exact ⟨s, s', h1, (hr.returns _ s o s').mp h2, h3⟩

/-- C91 for `any_item`: it returns the first item that was not skipped, of all that there will ever be, and fails only if there
is none. -/
theorem C91_any_item (h₀ : Reachable b st₀) (hi : st₀.task = .idle) (h : Reachable b st) {q : (anyItemScan T).client.σ}
    {o : Except (Miss Unit) T} {all : List T} (hf : Follows (anyItemScan T).client st₀.log st.log (.idle q))
    (hq : (anyItemScan T).client.step q = .ret o) (hl : DoneIsLast st.log) (hp : Part st.log all) (hb : DoneBetweenPolls st.log) :
    (∃ x, o = .ok x ∧ all.drop (consumedOf (sysLog st₀.log)) = x :: all.drop (consumedOf (sysLog st.log))) ∨
    (o = .error ⟨()⟩ ∧ all.drop (consumedOf (sysLog st₀.log)) = [] ∧ all.drop (consumedOf (sysLog st.log)) = []) := by
  obtain ⟨s, s', h1, h2, h3⟩ := C91_parser anyItem_reifies anyItem_modest h₀ hi h hf hq hl hp hb
  obtain ⟨c1, c2⟩ := C09_any_item s
  rw [h1] at c1 c2
  cases hd : all.drop (consumedOf (sysLog st₀.log)) with
  | nil =>
    obtain ⟨u, h4, h5⟩ := c2 hd
    rw [h2] at h4
    have h4 := Run.pure_inj'.mp h4
    cases o with
    | ok x => simp [outcome] at h4
    | error e =>
      simp [outcome] at h4
      refine .inr ⟨rfl, rfl, ?_⟩
      rw [← h3, show s' = u.val by rw [← h4], h5, hd]
  | cons x xs =>
    obtain ⟨s'', h4, h5⟩ := c1 x xs hd
    rw [h2] at h4
    have h4 := Run.pure_inj'.mp h4
    cases o with
    | error e => simp [outcome] at h4
    | ok y =>
      simp [outcome] at h4
      obtain ⟨rfl, rfl⟩ := h4
      exact .inl ⟨y, rfl, by rw [← h3, h5]⟩

/-! ## What can go wrong -/

theorem init_idle : ∃ st : State Nat Nat, Reachable .checked st ∧ st.task = .idle ∧ st.log = [] := ⟨_, .init 0, rfl, rfl⟩

/-- C91 is false: `any_item` fails although there was an item. -/
theorem C91_false : ¬ C91Statement := by
  intro hC
  obtain ⟨st₀, h₀, hi, hl₀⟩ := init_idle
  obtain ⟨st, h, hl⟩ := race
  let c := (anyItemScan Nat).client
  have hf : Follows c st₀.log st.log (.idle (.released none (.error ⟨()⟩))) := by
    rw [hl, hl₀]
    have f : Follows c ([] : List (Event Nat Nat)) [] (.idle .begin) := .start
    have f := f.segments (k := Scan.State.reading ()) rfl
    have f := f.next (n := 0) rfl
    have f := f.other (.pollBegin .next 0 none) rfl
    have f := f.other (.sys .exhausted) rfl
    have f := f.other (.signal (.waitMade 0)) rfl
    have f := f.other (.sys .exhausted) rfl
    have f := f.other (.sys (.loaded [7] (some (.ok (.new 0 1 1))))) rfl
    have f := f.other (.sys (.committed [7])) rfl
    have f := f.other .done rfl
    have f := f.nextReady 0 none
    exact f.release rfl
  obtain ⟨s, s', h1, h2, h3⟩ := hC Nat Nat _ .checked c st₀ st _ _ [7] anyItem_modest h₀ hi h hf rfl
    (by
      intro l₁ l₂ he xs hx
      rw [hl] at he
      have : l₁ = [.sys .iterates, .nextCall, .pollBegin .next 0 none, .sys .exhausted, .signal (.waitMade 0), .sys .exhausted,
        .sys (.loaded [7] (some (.ok (.new 0 1 1)))), .sys (.committed [7])] ∧ l₂ = [.nextReady 0 none] := by
        rcases l₁ with _ | ⟨_, _ | ⟨_, _ | ⟨_, _ | ⟨_, _ | ⟨_, _ | ⟨_, _ | ⟨_, _ | ⟨_, _ | ⟨_, _ | ⟨_, l₁⟩⟩⟩⟩⟩⟩⟩⟩⟩⟩ <;> simp at he ⊢ <;> grind
      rw [this.2] at hx
      simp at hx)
    (by rw [hl]; exact ⟨⟨[], rfl⟩, fun _ => rfl⟩)
  rw [hl₀] at h1
  obtain ⟨c1, -⟩ := C09_any_item s
  obtain ⟨s'', h4, h5⟩ := c1 7 [] h1
  rw [(anyItem_reifies.returns _ s _ s').mp h2] at h4
  simp [outcome] at h4

/-! The hypotheses are met by a run in which `any_item` returns the item that was loaded. -/
example : ∃ (st₀ st : State Nat Nat) (q : (anyItemScan Nat).client.σ), Reachable .checked st₀ ∧ st₀.task = .idle ∧ Reachable .checked st ∧
    Follows (anyItemScan Nat).client st₀.log st.log (.idle q) ∧ (anyItemScan Nat).client.step q = .ret (.ok 7) ∧
    DoneIsLast st.log ∧ Part st.log [7, 8] ∧ DoneBetweenPolls st.log := by
  obtain ⟨st₀, h₀, hi, hl₀⟩ := init_idle
  obtain ⟨st, h, hl⟩ := shown
  refine ⟨st₀, st, .over (.ok 7), h₀, hi, h, ?_, rfl, ?_, ?_, ?_⟩
  · rw [hl, hl₀]
    have f : Follows (anyItemScan Nat).client ([] : List (Event Nat Nat)) [] (.idle .begin) := .start
    have f := f.other (.sys (.loaded [7] (some (.ok (.new 0 1 1))))) rfl
    have f := f.other (.sys (.committed [7])) rfl
    have f := f.segments (k := Scan.State.reading ()) rfl
    have f := f.next (n := 0) rfl
    have f := f.other (.pollBegin .next 0 none) rfl
    have f := f.other (.sys (.yielded [7])) rfl
    have f := f.nextReady 0 (some [7])
    have f := f.release rfl
    have f := f.advance rfl
    have f := f.other (.pollBegin .advance 1 none) rfl
    have f := f.other (.signal (.waitMade 0)) rfl
    have f := f.other (.sys (.advanced 1 0)) rfl
    exact f.advanceReady 1
  · intro l₁ l₂ he
    rw [hl] at he
    have : (.done : Event Nat Nat) ∈ l₁ ++ .done :: l₂ := by simp
    rw [← he] at this
    simp at this
  · rw [hl]; exact ⟨⟨[8], rfl⟩, by simp⟩
  · intro l₁ l₂ l₃ k o he hd
    rw [hl] at he
    have : (.done : Event Nat Nat) ∈ l₁ ++ .pollBegin .next k o :: l₂ ++ .nextReady k none :: l₃ := by simp [hd]
    rw [← he] at this
    simp at this

/-! Two parsers, one after the other, are a program too. -/
example : Reifies ((anyItemScan Nat).client.join (atomScan [1, 2]).client) fun _ _ => anyItem.join (atom [1, 2]) :=
  join_reifies anyItem_reifies (atom_reifies _)

end Parcom.Runner
