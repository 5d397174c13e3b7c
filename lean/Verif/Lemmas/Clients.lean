import Verif.Spec.Streaming
import Verif.Model.Primitive
import Verif.Model.Combinator
import Verif.Lemmas.Run
/-!
# Parsers as programs
-/
namespace Parcom.Spec
open Parcom Sequence
variable {T O A E : Type}

/-! ## Running a program -/

section
variable {S : Type} [Sequence S (List T)]

/-- Does what a command says, and goes on. A program that does what the types do not allow is stuck. -/
def runCmd {σ : Type} (g : (S ⊕ Stream S) → σ → Run (O × S)) : Cmd T O σ → (S ⊕ Stream S) → Run (O × S)
  | .segments k, .inl s => g (.inr (segments s)) k
  | .next n k, .inr st => do
    let r ← next st n
    g (.inr r.2) (k r.1)
  | .release k, .inr st => g (.inl (release st)) k
  | .advance n k, .inl s => do
    let s' ← advance s n
    g (.inl s') k
  | .goOn k, .inl s => g (.inl s) k
  | .ret o, .inl s => pure (o, s)
  | _, _ => Run.diverge

/-- Runs a program. -/
def Client.exec (c : Client T O) (p : S ⊕ Stream S) (q : c.σ) : Run (O × S) :=
  match c.step q, p with
  | .segments k, .inl s => Client.exec c (.inr (segments s)) k
  | .next n k, .inr st => do
    let r ← next st n
    Client.exec c (.inr r.2) (k r.1)
  | .release k, .inr st => Client.exec c (.inl (release st)) k
  | .advance n k, .inl s => do
    let s' ← advance s n
    Client.exec c (.inl s') k
  | .goOn k, .inl s => Client.exec c (.inl s) k
  | .ret o, .inl s => pure (o, s)
  | _, _ => Run.diverge
partial_fixpoint

theorem Client.exec_eq (c : Client T O) (p : S ⊕ Stream S) (q : c.σ) : c.exec p q = runCmd c.exec (c.step q) p := by
  rw [Client.exec.eq_def]
  cases c.step q <;> cases p <;> rfl

theorem Client.exec_induct (c : Client T O) (P : (S ⊕ Stream S) → c.σ → Run (O × S) → Prop) (h₀ : ∀ p q, P p q Run.diverge)
    (h : ∀ g, (∀ p q, P p q (g p q)) → ∀ p q, P p q (runCmd g (c.step q) p)) (p : S ⊕ Stream S) (q : c.σ) : P p q (c.exec p q) := by
  revert p q
  refine Client.exec.fixpoint_induct (c := c) (S := S) (motive := fun g => ∀ p q, P p q (g p q)) (Run.admissible_fun₂ P h₀) ?_
  intro g ih p q
  have := h g ih p q
  revert this
  dsimp only
  cases c.step q <;> cases p <;> exact id

theorem Client.exec_gets (c : Client T O) {p p' : S ⊕ Stream S} {q q' : c.σ} (h : c.Gets p q p' q') : c.exec p q = c.exec p' q' := by
  induction h with
  | refl => rfl
  | segments _ hq ih => rw [ih, Client.exec_eq, hq]; rfl
  | next _ hq hn ih => rw [ih, Client.exec_eq, hq]; simp only [runCmd, hn, Run.pure_bind']
  | release _ hq ih => rw [ih, Client.exec_eq, hq]; rfl
  | advance _ hq hn ih => rw [ih, Client.exec_eq, hq]; simp only [runCmd, hn, Run.pure_bind']
  | goOn _ hq ih => rw [ih, Client.exec_eq, hq]; rfl

theorem Client.gets_trans (c : Client T O) {p p' p'' : S ⊕ Stream S} {q q' q'' : c.σ} (h : c.Gets p q p' q') (h' : c.Gets p' q' p'' q'') :
    c.Gets p q p'' q'' := by
  induction h' with
  | refl => exact h
  | segments _ hq ih => exact .segments ih hq
  | next _ hq hn ih => exact .next ih hq hn
  | release _ hq ih => exact .release ih hq
  | advance _ hq hn ih => exact .advance ih hq hn
  | goOn _ hq ih => exact .goOn ih hq

theorem Client.exec_returns (c : Client T O) (p : S ⊕ Stream S) (q : c.σ) :
    Run.Ensures (c.exec p q) fun r => ∃ q', c.Gets p q (.inl r.2) q' ∧ c.step q' = .ret r.1 := by
  refine c.exec_induct (fun p q x => Run.Ensures x fun r => ∃ q', c.Gets p q (.inl r.2) q' ∧ c.step q' = .ret r.1)
    (fun _ _ => Run.ensures_diverge) (fun g ih p q => ?_) p q
  have go : ∀ {p' : S ⊕ Stream S} {q' : c.σ}, c.Gets p q p' q' →
      Run.Ensures (g p' q') fun r => ∃ q', c.Gets p q (.inl r.2) q' ∧ c.step q' = .ret r.1 := by
    intro p' q' hg r hr
    obtain ⟨q'', h1, h2⟩ := ih p' q' r hr
    exact ⟨q'', c.gets_trans hg h1, h2⟩
  cases hq : c.step q with
  | segments k => cases p with
    | inl s => exact go (.segments (.refl _ _) hq)
    | inr st => exact Run.ensures_diverge
  | next n k => cases p with
    | inl s => exact Run.ensures_diverge
    | inr st => exact Run.ensures_bind fun r hr => go (.next (o := r.1) (st' := r.2) (.refl _ _) hq hr)
  | release k => cases p with
    | inl s => exact Run.ensures_diverge
    | inr st => exact go (.release (.refl _ _) hq)
  | advance n k => cases p with
    | inl s => exact Run.ensures_bind fun r hr => go (.advance (.refl _ _) hq hr)
    | inr st => exact Run.ensures_diverge
  | goOn k => cases p with
    | inl s => exact go (.goOn (.refl _ _) hq)
    | inr st => exact Run.ensures_diverge
  | ret o => cases p with
    | inl s => exact Run.ensures_pure.mpr ⟨q, .refl _ _, hq⟩
    | inr st => exact Run.ensures_diverge

/-- A program returns what running it gives. -/
theorem Client.returns_iff (c : Client T O) (s : S) (o : O) (s' : S) : c.Returns s o s' ↔ c.exec (.inl s) c.start = pure (o, s') := by
  constructor
  · rintro ⟨q, h1, h2⟩
    rw [c.exec_gets h1, Client.exec_eq, h2]
    rfl
  · intro h
    exact c.exec_returns (.inl s) c.start (o, s') h

end

/-! ## Going on with the result of a program -/

/-- The same command, in a larger program. -/
def Cmd.inside {σ τ : Type} (f : σ → τ) (r : O → Cmd T A τ) : Cmd T O σ → Cmd T A τ
  | .segments k => .segments (f k)
  | .next n k => .next n fun o => f (k o)
  | .release k => .release (f k)
  | .advance n k => .advance n (f k)
  | .goOn k => .goOn (f k)
  | .ret o => r o

/-- Runs `c`, then what `f` says. -/
@[reducible] def Client.bind (c : Client T O) (f : O → Client T A) : Client T A where
  σ := c.σ ⊕ (Σ o, (f o).σ)
  start := .inl c.start
  step
    | .inl q => (c.step q).inside .inl fun o => .goOn (.inr ⟨o, (f o).start⟩)
    | .inr ⟨o, q⟩ => ((f o).step q).inside (fun q => .inr ⟨o, q⟩) .ret

/-- Returns at once. -/
@[reducible] def Client.pure (o : O) : Client T O where
  σ := Unit
  start := ()
  step _ := .ret o

section
variable {S : Type} [Sequence S (List T)]

theorem Client.exec_pure (o : O) (s : S) : (Client.pure (T := T) o).exec (.inl s) () = Pure.pure (o, s) := by
  rw [Client.exec_eq]
  rfl

/-- What running `c` and going on gives, from a place in the larger program. -/
def Client.bindFrom (c : Client T O) (f : O → Client T A) (p : S ⊕ Stream S) : (c.bind f).σ → Run (A × S)
  | .inl q => c.exec p q >>= fun r => (f r.1).exec (.inl r.2) (f r.1).start
  | .inr ⟨o, q⟩ => (f o).exec p q

theorem Client.exec_bind_below (c : Client T O) (f : O → Client T A) (p : S ⊕ Stream S) (q : (c.bind f).σ) :
    Run.Below ((c.bind f).exec p q) (c.bindFrom f p q) := by
  refine (c.bind f).exec_induct (fun p q x => Run.Below x (c.bindFrom f p q)) (fun _ _ => Run.below_diverge) (fun g ih p q => ?_) p q
  rcases q with q | ⟨o, q⟩
  · show Run.Below (runCmd g ((c.step q).inside _ _) p) (c.exec p q >>= _)
    rw [Client.exec_eq]
    cases c.step q <;> cases p <;>
      first
      | exact ih _ (.inl _)
      | (simp only [Cmd.inside, runCmd, Run.pure_bind']; exact ih _ (.inr ⟨_, _⟩))
      | (simp only [Cmd.inside, runCmd, Run.bind_assoc']; exact Run.below_bind fun _ _ => ih _ (.inl _))
      | exact Run.below_diverge
  · show Run.Below (runCmd g (((f o).step q).inside _ _) p) ((f o).exec p q)
    rw [Client.exec_eq]
    cases (f o).step q <;> cases p <;>
      first
      | exact ih _ (.inr ⟨_, _⟩)
      | exact Run.below_bind fun _ _ => ih _ (.inr ⟨_, _⟩)
      | exact Run.below_refl

theorem Client.exec_below_right (c : Client T O) (f : O → Client T A) (o : O) (p : S ⊕ Stream S) (q : (f o).σ) :
    Run.Below ((f o).exec p q) ((c.bind f).exec p (.inr ⟨o, q⟩)) := by
  refine (f o).exec_induct (fun p q x => Run.Below x ((c.bind f).exec p (.inr ⟨o, q⟩))) (fun _ _ => Run.below_diverge) (fun g ih p q => ?_) p q
  rw [Client.exec_eq]
  show Run.Below _ (runCmd _ (((f o).step q).inside _ _) p)
  cases (f o).step q <;> cases p <;>
    first
    | exact ih _ _
    | exact Run.below_bind fun _ _ => ih _ _
    | exact Run.below_refl

theorem Client.exec_right (c : Client T O) (f : O → Client T A) (o : O) (p : S ⊕ Stream S) (q : (f o).σ) :
    (c.bind f).exec p (.inr ⟨o, q⟩) = (f o).exec p q :=
  Run.below_antisymm (c.exec_bind_below f p (.inr ⟨o, q⟩)) (c.exec_below_right f o p q)

theorem Client.exec_below_left (c : Client T O) (f : O → Client T A) (p : S ⊕ Stream S) (q : c.σ) :
    Run.Below (c.exec p q >>= fun r => (f r.1).exec (.inl r.2) (f r.1).start) ((c.bind f).exec p (.inl q)) := by
  refine c.exec_induct (fun p q x => Run.Below (x >>= fun r => (f r.1).exec (.inl r.2) (f r.1).start) ((c.bind f).exec p (.inl q)))
    (fun _ _ => Run.below_diverge) (fun g ih p q => ?_) p q
  rw [Client.exec_eq (c.bind f)]
  show Run.Below _ (runCmd _ ((c.step q).inside _ _) p)
  cases c.step q <;> cases p <;>
    first
    | exact ih _ _
    | (simp only [Cmd.inside, runCmd, Run.pure_bind', Client.exec_right]; exact Run.below_refl)
    | (simp only [Cmd.inside, runCmd, Run.bind_assoc']; exact Run.below_bind fun _ _ => ih _ _)
    | exact Run.below_diverge

/-- Running a program and going on. -/
theorem Client.exec_bind (c : Client T O) (f : O → Client T A) (p : S ⊕ Stream S) (q : c.σ) :
    (c.bind f).exec p (.inl q) = c.exec p q >>= fun r => (f r.1).exec (.inl r.2) (f r.1).start :=
  Run.below_antisymm (c.exec_bind_below f p (.inl q)) (c.exec_below_left f p q)

end

/-- Where the larger program can be. -/
theorem Client.sees_bind (c : Client T O) (f : O → Client T A) {q : (c.bind f).σ} {n : Nat} (h : (c.bind f).Sees q n) :
    match q with
    | .inl q => c.Sees q n
    | .inr ⟨o, q⟩ => ∃ m ≤ n, (f o).Sees q m := by
  induction h with
  | start => exact .start
  | @segments q k n h hq ih =>
    rcases q with q | ⟨o, q⟩
    · replace hq : (c.step q).inside _ _ = _ := hq
      cases hs : c.step q <;> simp only [hs, Cmd.inside, reduceCtorEq, Cmd.segments.injEq] at hq
      subst hq
      exact .segments ih hs
    · replace hq : ((f o).step q).inside _ _ = _ := hq
      cases hs : (f o).step q <;> simp only [hs, Cmd.inside, reduceCtorEq, Cmd.segments.injEq] at hq
      subst hq
      obtain ⟨m, -, h2⟩ := ih
      exact ⟨0, Nat.le_refl _, .segments h2 hs⟩
  | @next q n m k o' h hq ih =>
    rcases q with q | ⟨o, q⟩
    · replace hq : (c.step q).inside _ _ = _ := hq
      cases hs : c.step q <;> simp only [hs, Cmd.inside, reduceCtorEq, Cmd.next.injEq] at hq
      obtain ⟨rfl, rfl⟩ := hq
      exact .next o' ih hs
    · replace hq : ((f o).step q).inside _ _ = _ := hq
      cases hs : (f o).step q <;> simp only [hs, Cmd.inside, reduceCtorEq, Cmd.next.injEq] at hq
      obtain ⟨rfl, rfl⟩ := hq
      obtain ⟨m, h1, h2⟩ := ih
      exact ⟨_, by omega, .next o' h2 hs⟩
  | @release q k n h hq ih =>
    rcases q with q | ⟨o, q⟩
    · replace hq : (c.step q).inside _ _ = _ := hq
      cases hs : c.step q <;> simp only [hs, Cmd.inside, reduceCtorEq, Cmd.release.injEq] at hq
      subst hq
      exact .release ih hs
    · replace hq : ((f o).step q).inside _ _ = _ := hq
      cases hs : (f o).step q <;> simp only [hs, Cmd.inside, reduceCtorEq, Cmd.release.injEq] at hq
      subst hq
      obtain ⟨m, h1, h2⟩ := ih
      exact ⟨m, h1, .release h2 hs⟩
  | @advance q k n m h hq ih =>
    rcases q with q | ⟨o, q⟩
    · replace hq : (c.step q).inside _ _ = _ := hq
      cases hs : c.step q <;> simp only [hs, Cmd.inside, reduceCtorEq, Cmd.advance.injEq] at hq
      obtain ⟨rfl, rfl⟩ := hq
      exact .advance ih hs
    · replace hq : ((f o).step q).inside _ _ = _ := hq
      cases hs : (f o).step q <;> simp only [hs, Cmd.inside, reduceCtorEq, Cmd.advance.injEq] at hq
      obtain ⟨rfl, rfl⟩ := hq
      obtain ⟨m, h1, h2⟩ := ih
      exact ⟨_, by omega, .advance h2 hs⟩
  | @goOn q k n h hq ih =>
    rcases q with q | ⟨o, q⟩
    · replace hq : (c.step q).inside _ _ = _ := hq
      cases hs : c.step q <;> simp only [hs, Cmd.inside, reduceCtorEq, Cmd.goOn.injEq] at hq
      · subst hq
        exact .goOn ih hs
      · subst hq
        exact ⟨0, Nat.zero_le _, .start⟩
    · replace hq : ((f o).step q).inside _ _ = _ := hq
      cases hs : (f o).step q <;> simp only [hs, Cmd.inside, reduceCtorEq, Cmd.goOn.injEq] at hq
      subst hq
      obtain ⟨m, h1, h2⟩ := ih
      exact ⟨m, h1, .goOn h2 hs⟩

theorem Client.modest_bind {c : Client T O} {f : O → Client T A} (hc : c.Modest) (hf : ∀ o, (f o).Modest) : (c.bind f).Modest := by
  intro q n m k h hq
  have := c.sees_bind f h
  rcases q with q | ⟨o, q⟩
  · replace hq : (c.step q).inside _ _ = _ := hq
    cases hs : c.step q <;> simp only [hs, Cmd.inside, reduceCtorEq, Cmd.advance.injEq] at hq
    obtain ⟨rfl, -⟩ := hq
    exact hc _ _ _ _ this hs
  · replace hq : ((f o).step q).inside _ _ = _ := hq
    cases hs : (f o).step q <;> simp only [hs, Cmd.inside, reduceCtorEq, Cmd.advance.injEq] at hq
    obtain ⟨rfl, -⟩ := hq
    obtain ⟨m, h1, h2⟩ := this
    exact Nat.le_trans (hf _ _ _ _ _ h2 hs) h1

theorem Client.modest_pure (o : O) : (Client.pure (T := T) o).Modest := by
  intro q n m k _ h
  simp [Client.pure] at h

/-! ## Scanning -/

/-- A parser that reads segments until it has seen enough, and then skips some items, or none, and returns. -/
structure Scan (T O : Type) where
  ρ : Type
  start : ρ
  hint : ρ → Nat
  feed : ρ → Option (List T) → ρ ⊕ (Option Nat × O)

/-- Where a scan is. -/
inductive Scan.State (ρ O : Type) where
  | begin
  | reading (r : ρ)
  | found (skip : Option Nat) (o : O)
  | released (skip : Option Nat) (o : O)
  | over (o : O)

/-- A scan as a program. -/
@[reducible] def Scan.client (a : Scan T O) : Client T O where
  σ := Scan.State a.ρ O
  start := .begin
  step
    | .begin => .segments (.reading a.start)
    | .reading r => .next (a.hint r) fun o => match a.feed r o with
      | .inl r => .reading r
      | .inr (skip, o) => .found skip o
    | .found skip o => .release (.released skip o)
    | .released (some n) o => .advance n (.over o)
    | .released none o => .ret o
    | .over o => .ret o

/-- A scan that skips no more than the length of the last segment is modest. -/
theorem Scan.modest (a : Scan T O) (h : ∀ r s n o, a.feed r s = .inr (some n, o) → n ≤ (s.getD []).length) : a.client.Modest := by
  have key : ∀ q n, a.client.Sees q n → match q with
      | .found (some m) _ => m ≤ n
      | .released (some m) _ => m ≤ n
      | _ => True := by
    intro q n hs
    induction hs with
    | start => trivial
    | @segments q k n _ hq ih =>
      cases q with
      | begin => simp [Scan.client] at hq; subst hq; trivial
      | released skip o => cases skip <;> simp [Scan.client] at hq
      | _ => simp [Scan.client] at hq
    | @next q n m k o _ hq ih =>
      cases q with
      | reading r =>
        simp [Scan.client] at hq
        obtain ⟨rfl, rfl⟩ := hq
        cases hf : a.feed r o with
        | inl r => simp only [hf]
        | inr x =>
          obtain ⟨_ | i, o⟩ := x
          · simp only [hf]
          · simp only [hf]
            have := h _ _ _ _ hf
            omega
      | released skip o => cases skip <;> simp [Scan.client] at hq
      | _ => simp [Scan.client] at hq
    | @release q k n _ hq ih =>
      cases q with
      | found skip o => simp [Scan.client] at hq; subst hq; cases skip <;> exact ih
      | released skip o => cases skip <;> simp [Scan.client] at hq
      | _ => simp [Scan.client] at hq
    | @advance q k n m _ hq ih =>
      cases q with
      | released skip o => cases skip <;> simp [Scan.client] at hq; obtain ⟨-, rfl⟩ := hq; trivial
      | _ => simp [Scan.client] at hq
    | @goOn q k n _ hq ih =>
      cases q with
      | released skip o => cases skip <;> simp [Scan.client] at hq
      | _ => simp [Scan.client] at hq
  intro q n m k hs hq
  have := key q n hs
  cases q with
  | released skip o => cases skip <;> simp [Scan.client] at hq; obtain ⟨rfl, -⟩ := hq; exact this
  | _ => simp [Scan.client] at hq

section
variable {S : Type} [Sequence S (List T)]

/-- What a scan does with the outcome. -/
def Scan.finish (st : Stream S) : Option Nat × O → Run (O × S)
  | (none, o) => pure (o, release st)
  | (some n, o) => do
    let s ← advance (release st) n
    pure (o, s)

theorem Scan.exec_found (a : Scan T O) (st : Stream S) (x : Option Nat × O) :
    a.client.exec (.inr st) (.found x.1 x.2) = Scan.finish st x := by
  obtain ⟨_ | n, o⟩ := x
  · rw [Client.exec_eq]
    show a.client.exec (.inl (release st)) (.released none o) = _
    rw [Client.exec_eq]
    rfl
  · rw [Client.exec_eq]
    show a.client.exec (.inl (release st)) (.released (some n) o) = _
    rw [Client.exec_eq]
    show (advance (release st) n >>= fun s => a.client.exec (.inl s) (.over o)) = _
    unfold Scan.finish
    congr 1
    funext s
    rw [Client.exec_eq]
    rfl

theorem Scan.exec_reading (a : Scan T O) (st : Stream S) (r : a.ρ) :
    a.client.exec (.inr st) (.reading r) = next st (a.hint r) >>= fun x => match a.feed r x.1 with
      | .inl r => a.client.exec (.inr x.2) (.reading r)
      | .inr y => Scan.finish x.2 y := by
  rw [Client.exec_eq]
  show (next st (a.hint r) >>= fun x => a.client.exec (.inr x.2) (match a.feed r x.1 with
      | .inl r => .reading r
      | .inr (skip, o) => .found skip o)) = _
  congr 1
  funext x
  cases a.feed r x.1 with
  | inl r => rfl
  | inr y => exact a.exec_found x.2 y

/-- Reading does no more than any loop that does the same. -/
theorem Scan.exec_below {β : Type} (a : Scan T O) (out : O × S → β) (loop : a.ρ → Stream S → Run β)
    (h : ∀ r st, loop r st = next st (a.hint r) >>= fun x => (a.feed r x.1).elim (fun r => loop r x.2) fun y => Scan.finish x.2 y >>= fun r => pure (out r)) (r : a.ρ) (st : Stream S) :
    Run.Below (a.client.exec (.inr st) (.reading r) >>= fun r => pure (out r)) (loop r st) := by
  refine a.client.exec_induct (fun p q x => match p, q with
    | .inr st, .reading r => Run.Below (x >>= fun r => pure (out r)) (loop r st)
    | .inr st, .found skip o => Run.Below x (Scan.finish st (skip, o))
    | .inl s, .released none o => Run.Below x (pure (o, s))
    | .inl s, .released (some n) o => Run.Below x (advance s n >>= fun s => pure (o, s))
    | .inl s, .over o => Run.Below x (pure (o, s))
    | _, _ => True) ?_ ?_ (.inr st) (.reading r)
  · intro p q
    cases p <;> cases q <;> first | trivial | exact Run.below_diverge | skip
    rename_i skip o
    cases skip <;> exact Run.below_diverge
  · intro g ih p q
    cases p with
    | inl s =>
      cases q with
      | released skip o =>
        cases skip with
        | none => exact Run.below_refl
        | some n => exact Run.below_bind fun s _ => ih (.inl s) (.over o)
      | over o => exact Run.below_refl
      | _ => trivial
    | inr st =>
      cases q with
      | reading r =>
        show Run.Below ((next st (a.hint r) >>= fun x => g (.inr x.2) (match a.feed r x.1 with
          | .inl r => .reading r
          | .inr (skip, o) => .found skip o)) >>= fun r => pure (out r)) (loop r st)
        rw [h, Run.bind_assoc']
        refine Run.below_bind fun x _ => ?_
        cases a.feed r x.1 with
        | inl r => exact ih (.inr x.2) (.reading r)
        | inr y =>
          rcases ih (.inr x.2) (.found y.1 y.2) with h | h
          · exact .inl (by show (g (.inr x.2) (.found y.1 y.2) >>= _) = _; rw [h]; rfl)
          · exact .inr (by show (g (.inr x.2) (.found y.1 y.2) >>= _) = _; rw [h]; rfl)
      | found skip o =>
        have := ih (.inl (release st)) (.released skip o)
        cases skip <;> exact this
      | _ => trivial

end

/-! ## Parsers -/

/-- What a parser returns. -/
def outcome {S : Type} : Except E O × S → PResult S O E
  | (.ok o, s) => .ok o s
  | (.error e, s) => .err e ⟨s⟩

theorem outcome_inj {S : Type} {x y : Except E O × S} (h : outcome x = outcome y) : x = y := by
  obtain ⟨_ | _, _⟩ := x <;> obtain ⟨_ | _, _⟩ := y <;> simp_all [outcome]

/-- The program does, on every sequence, exactly what the parser does: what it returns, and whether and how it fails to. -/
def Reifies (c : Client T (Except E O)) (p : ∀ (S : Type) [Sequence S (List T)], Parser S O E) : Prop :=
  ∀ (S : Type) [Sequence S (List T)] (s : S), (p S).parse s = c.exec (.inl s) c.start >>= fun r => pure (outcome r)

/-- Then it returns what the parser returns. -/
theorem Reifies.returns {c : Client T (Except E O)} {p : ∀ (S : Type) [Sequence S (List T)], Parser S O E} (h : Reifies c p)
    (S : Type) [Sequence S (List T)] (s : S) (o : Except E O) (s' : S) :
    c.Returns s o s' ↔ (p S).parse s = pure (outcome (o, s')) := by
  rw [c.returns_iff, h S s, Run.bind_eq_pure]
  constructor
  · intro h
    exact ⟨_, h, rfl⟩
  · rintro ⟨r, h1, h2⟩
    rw [h1, outcome_inj (Run.pure_inj'.mp h2)]
    rfl

theorem Scan.reifies (a : Scan T (Except E O)) (p : ∀ (S : Type) [Sequence S (List T)], Parser S O E)
    (loop : ∀ (S : Type) [Sequence S (List T)], a.ρ → Stream S → Run (PResult S O E))
    (hp : ∀ (S : Type) [Sequence S (List T)] (s : S), (p S).parse s = loop S a.start (segments s))
    (hl : ∀ (S : Type) [Sequence S (List T)] r st, loop S r st = next st (a.hint r) >>= fun x => (a.feed r x.1).elim (fun r => loop S r x.2) fun y => Scan.finish x.2 y >>= fun r => pure (outcome r))
    (hb : ∀ (S : Type) [Sequence S (List T)] (f : a.ρ → Stream S → Run (PResult S O E)),
      (∀ r st, f r st = next st (a.hint r) >>= fun x => (a.feed r x.1).elim (fun r => f r x.2) fun y => Scan.finish x.2 y >>= fun r => pure (outcome r)) → ∀ r st, Run.Below (loop S r st) (f r st)) : Reifies a.client p := by
  intro S _ s
  rw [hp S s, Client.exec_eq]
  show _ = a.client.exec (.inr (segments s)) (.reading a.start) >>= _
  refine Run.below_antisymm ?_ (a.exec_below outcome (loop S) (hl S) _ _)
  refine hb S (fun r st => a.client.exec (.inr st) (.reading r) >>= fun r => pure (outcome r)) (fun r st => ?_) _ _
  rw [a.exec_reading, Run.bind_assoc']
  congr 1
  funext x
  cases a.feed r x.1 <;> rfl

theorem Scan.finish_fail {S : Type} [Sequence S (List T)] (st : Stream S) (e : E) :
    (pure (failAt e (release st)) : Run (PResult S O E)) = Scan.finish st (none, .error e) >>= fun r => pure (outcome r) := by
  simp only [Scan.finish, Run.pure_bind']
  rfl

theorem Scan.finish_done {S : Type} [Sequence S (List T)] (st : Stream S) (n : Nat) (o : O) :
    (advance (release st) n >>= fun s => pure (done o s) : Run (PResult S O E)) =
      Scan.finish st (some n, .ok o) >>= fun r => pure (outcome r) := by
  simp only [Scan.finish, Run.bind_assoc', Run.pure_bind']
  rfl

/-- `any_item()`. -/
def anyItemScan (T : Type) : Scan T (Except (Miss Unit) T) where
  ρ := Unit
  start := ()
  hint _ := 0
  feed _
    | some [] => .inl ()
    | some (x :: _) => .inr (some 1, .ok x)
    | none => .inr (none, .error ⟨()⟩)

theorem anyItem_reifies : Reifies (anyItemScan T).client fun _ => anyItem := by
  refine Scan.reifies _ _ (fun S _ _ st => anyItemLoop st) (fun _ _ _ => rfl) (fun S _ r st => ?_) fun S _ f hf r st => ?_
  · rw [anyItemLoop]
    congr 1
    funext x
    rcases x with ⟨_ | _ | ⟨y, ys⟩, st⟩
    · exact Scan.finish_fail (S := S) st _
    · rfl
    · exact Scan.finish_done (S := S) st _ _
  · revert st
    refine anyItemLoop.fixpoint_induct (motive := fun g => ∀ st, Run.Below (g st) (f r st)) ?_ ?_
    · exact Run.admissible_fun (fun st x => Run.Below x (f r st)) fun _ => Run.below_diverge
    · intro g ih st
      rw [hf]
      refine Run.below_bind fun x _ => ?_
      rcases x with ⟨_ | _ | ⟨y, ys⟩, st⟩
      · exact .inr (Scan.finish_fail (S := S) st _)
      · exact ih _
      · exact .inr (Scan.finish_done (S := S) st _ _)

theorem anyItem_modest : (anyItemScan T).client.Modest := by
  refine Scan.modest _ fun r s n o h => ?_
  rcases s with _ | _ | ⟨y, ys⟩ <;> simp [anyItemScan] at h ⊢
  omega

/-- `the_item(x)`. -/
def theItemScan [BEq T] (x : T) : Scan T (Except (Miss Unit) Unit) where
  ρ := Unit
  start := ()
  hint _ := 1
  feed _
    | some [] => .inl ()
    | some (y :: _) => if y == x then .inr (some 1, .ok ()) else .inr (none, .error ⟨()⟩)
    | none => .inr (none, .error ⟨()⟩)

theorem theItem_reifies [BEq T] (x : T) : Reifies (theItemScan x).client fun _ => theItem x := by
  refine Scan.reifies _ _ (fun S _ _ st => theItemLoop x st) (fun _ _ _ => rfl) (fun S _ r st => ?_) fun S _ f hf r st => ?_
  · rw [theItemLoop]
    congr 1
    funext y
    rcases y with ⟨_ | _ | ⟨y, ys⟩, st⟩
    · exact Scan.finish_fail (S := S) st _
    · rfl
    · simp only [theItemScan]
      split
      · exact Scan.finish_done (S := S) st _ _
      · exact Scan.finish_fail (S := S) st _
  · revert st
    refine theItemLoop.fixpoint_induct (x := x) (motive := fun g => ∀ st, Run.Below (g st) (f r st)) ?_ ?_
    · exact Run.admissible_fun (fun st x => Run.Below x (f r st)) fun _ => Run.below_diverge
    · intro g ih st
      rw [hf]
      refine Run.below_bind fun y _ => ?_
      rcases y with ⟨_ | _ | ⟨y, ys⟩, st⟩
      · exact .inr (Scan.finish_fail (S := S) st _)
      · exact ih _
      · simp only [theItemScan]
        split
        · exact .inr (Scan.finish_done (S := S) st _ _)
        · exact .inr (Scan.finish_fail (S := S) st _)

theorem theItem_modest [BEq T] (x : T) : (theItemScan x).client.Modest := by
  refine Scan.modest _ fun r s n o h => ?_
  rcases s with _ | _ | ⟨y, ys⟩ <;> simp [theItemScan] at h ⊢
  split at h <;> simp at h
  omega

/-- `atom(pattern)`. -/
def atomScan [BEq T] (pattern : List T) : Scan T (Except (Miss Unit) Unit) where
  ρ := List T
  start := pattern
  hint r := r.length
  feed r
    | some seg =>
      if seg.length ≥ r.length then
        if seg.take r.length == r then .inr (some r.length, .ok ()) else .inr (none, .error ⟨()⟩)
      else if seg != r.take seg.length then .inr (none, .error ⟨()⟩)
      else .inl (r.drop seg.length)
    | none => .inr (none, .error ⟨()⟩)

theorem atom_reifies [BEq T] (pattern : List T) : Reifies (atomScan pattern).client fun _ => atom pattern := by
  refine Scan.reifies _ _ (fun S _ (r : List T) st => atomLoop r st) (fun _ _ _ => rfl) (fun S _ r st => ?_) fun S _ f hf r st => ?_
  · change List T at r
    show atomLoop r st = _
    rw [atomLoop]
    congr 1
    funext y
    rcases y with ⟨_ | seg, st⟩
    · exact Scan.finish_fail (S := S) st _
    · simp only [atomScan, SequenceSegment.len, SequenceSegment.splitAt, listSplitAt]
      by_cases h : seg.length ≥ r.length
      · simp only [if_pos h, Run.pure_bind']
        split
        · exact Scan.finish_done (S := S) st _ _
        · exact Scan.finish_fail (S := S) st _
      · simp only [if_neg h, if_pos (Nat.le_of_lt (Nat.lt_of_not_le h)), Run.pure_bind']
        split
        · exact Scan.finish_fail (S := S) st _
        · rfl
  · revert r st
    change List T → Stream S → Run _ at f
    show ∀ (r : List T) st, Run.Below (atomLoop r st) (f r st)
    refine atomLoop.fixpoint_induct (Seg := List T) (motive := fun g => ∀ r st, Run.Below (g r st) (f r st)) ?_ ?_
    · exact Run.admissible_fun₂ (fun r st x => Run.Below x (f r st)) fun _ _ => Run.below_diverge
    · intro g ih r st
      rw [show f r st = _ from hf r st]
      refine Run.below_bind fun y _ => ?_
      rcases y with ⟨_ | seg, st⟩
      · exact .inr (Scan.finish_fail (S := S) st _)
      · simp only [atomScan, SequenceSegment.len, SequenceSegment.splitAt, listSplitAt]
        by_cases h : seg.length ≥ r.length
        · simp only [if_pos h, Run.pure_bind']
          split
          · exact .inr (Scan.finish_done (S := S) st _ _)
          · exact .inr (Scan.finish_fail (S := S) st _)
        · simp only [if_neg h, if_pos (Nat.le_of_lt (Nat.lt_of_not_le h)), Run.pure_bind']
          split
          · exact .inr (Scan.finish_fail (S := S) st _)
          · exact ih _ _

theorem atom_modest [BEq T] (pattern : List T) : (atomScan pattern).client.Modest := by
  refine Scan.modest _ fun r s n o h => ?_
  rcases s with _ | seg <;> simp [atomScan] at h ⊢
  split at h
  · split at h <;> simp at h
    omega
  · split at h <;> simp at h

/-! ## Combinators -/

variable {O₀ O₁ E₀ E₁ : Type}

/-- `join`. -/
@[reducible] def Client.join (c₀ : Client T (Except E₀ O₀)) (c₁ : Client T (Except E₁ O₁)) : Client T (Except (Either E₀ E₁) (O₀ × O₁)) :=
  c₀.bind fun
    | .error e => .pure (.error (.first e))
    | .ok a => c₁.bind fun
      | .error e => .pure (.error (.last e))
      | .ok b => .pure (.ok (a, b))

theorem join_reifies {c₀ : Client T (Except E₀ O₀)} {c₁ : Client T (Except E₁ O₁)}
    {p₀ : ∀ (S : Type) [Sequence S (List T)], Parser S O₀ E₀} {p₁ : ∀ (S : Type) [Sequence S (List T)], Parser S O₁ E₁}
    (h₀ : Reifies c₀ p₀) (h₁ : Reifies c₁ p₁) : Reifies (c₀.join c₁) fun S _ => (p₀ S).join (p₁ S) := by
  intro S _ s
  show (p₀ S).parse s >>= _ = (c₀.join c₁).exec (.inl s) (.inl c₀.start) >>= _
  rw [h₀ S s, Client.exec_bind, Run.bind_assoc', Run.bind_assoc']
  congr 1
  funext x
  obtain ⟨_ | a, s⟩ := x
  · simp only [outcome, Run.pure_bind', Client.exec_pure]
  · simp only [outcome, Run.pure_bind']
    rw [h₁ S s]
    erw [Client.exec_bind]
    rw [Run.bind_assoc', Run.bind_assoc']
    congr 1
    funext x
    obtain ⟨_ | b, s⟩ := x
    · simp only [outcome, Run.pure_bind', Client.exec_pure]
    · simp only [outcome, Run.pure_bind', Client.exec_pure, done]

theorem join_modest {c₀ : Client T (Except E₀ O₀)} {c₁ : Client T (Except E₁ O₁)} (h₀ : c₀.Modest) (h₁ : c₁.Modest) : (c₀.join c₁).Modest := by
  refine Client.modest_bind h₀ fun
    | .error e => Client.modest_pure _
    | .ok a => Client.modest_bind h₁ fun
      | .error e => Client.modest_pure _
      | .ok b => Client.modest_pure _

/-- Goes on with the outcome alone: `map`, `map_err`, `and_then`. -/
@[reducible] def Client.post (c : Client T O) (f : O → A) : Client T A := c.bind fun o => .pure (f o)

theorem post_exec {S : Type} [Sequence S (List T)] (c : Client T O) (f : O → A) (s : S) :
    (c.post f).exec (.inl s) (c.post f).start = c.exec (.inl s) c.start >>= fun r => pure (f r.1, r.2) := by
  show (c.post f).exec (.inl s) (.inl c.start) = _
  rw [Client.exec_bind]
  congr 1
  funext x
  exact Client.exec_pure _ _

theorem post_modest {c : Client T O} (h : c.Modest) (f : O → A) : (c.post f).Modest := Client.modest_bind h fun _ => Client.modest_pure _

theorem map_reifies {c : Client T (Except E O)} {p : ∀ (S : Type) [Sequence S (List T)], Parser S O E} (h : Reifies c p) (f : O → A) :
    Reifies (c.post (Except.map f)) fun S _ => (p S).map f := by
  intro S _ s
  show (p S).parse s >>= _ = _
  rw [post_exec, h S s, Run.bind_assoc', Run.bind_assoc']
  congr 1
  funext x
  obtain ⟨_ | a, s⟩ := x <;> simp only [outcome, Except.map, Run.pure_bind']

theorem mapErr_reifies {c : Client T (Except E O)} {p : ∀ (S : Type) [Sequence S (List T)], Parser S O E} (h : Reifies c p) (f : E → A) :
    Reifies (c.post (Except.mapError f)) fun S _ => (p S).mapErr f := by
  intro S _ s
  show (p S).parse s >>= _ = _
  rw [post_exec, h S s, Run.bind_assoc', Run.bind_assoc']
  congr 1
  funext x
  obtain ⟨_ | a, s⟩ := x <;> simp only [outcome, Except.mapError, Run.pure_bind']

theorem andThen_reifies {c : Client T (Except E O)} {p : ∀ (S : Type) [Sequence S (List T)], Parser S O E} (h : Reifies c p) (into : E → E₁)
    (f : O → Except E₁ A) : Reifies (c.post fun r => (r.mapError into).bind f) fun S _ => (p S).andThen into f := by
  intro S _ s
  show (p S).parse s >>= _ = _
  rw [post_exec, h S s, Run.bind_assoc', Run.bind_assoc']
  congr 1
  funext x
  obtain ⟨_ | a, s⟩ := x
  · simp only [outcome, Except.mapError, Except.bind, Run.pure_bind']
  · simp only [outcome, Except.mapError, Except.bind, Run.pure_bind']
    cases f a <;> rfl

end Parcom.Spec
