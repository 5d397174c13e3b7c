/-!
# Computations

The result of running a piece of Rust code: it may return, panic, run into undefined behaviour, or never return.
-/
namespace Parcom

/-- The ways a Rust computation stops abnormally.
`ub` is not a Rust outcome but marks that the code reached a point where Rust gives no meaning to the program. -/
inductive Fault where
  /-- slice index / range out of bounds (`&s[a..b]`), `split_at` out of bounds -/
  | bounds
  /-- a `str` is cut inside a character -/
  | charBoundary
  /-- `panic!("the anchor is not an anchor of this stream.")` -/
  | foreignAnchor
  /-- `unreachable!()` -/
  | unreachable
  /-- failed `assert!` / `unwrap` on a wrong value -/
  | assertion
  /-- arithmetic overflow (panics in debug builds, wraps in release builds) -/
  | overflow
  /-- `offset_from` on pointers to a zero-sized type panics -/
  | zeroSized
  /-- the process aborts (`handle_alloc_error`) -/
  | abort
  /-- undefined behaviour -/
  | ub
  deriving DecidableEq, Repr

/-- A computation: `none` never returns, `some (.error f)` stops with fault `f`, `some (.ok a)` returns `a`. -/
abbrev Run (α : Type) := ExceptT Fault Option α

namespace Run
variable {α β : Type}

/-- Stop with a fault. -/
def fault (f : Fault) : Run α := (some (Except.error f) : Option (Except Fault α))
/-- Never return. -/
def diverge : Run α := (none : Option (Except Fault α))
/-- Return a value (same as `pure`). -/
def ret (a : α) : Run α := (some (Except.ok a) : Option (Except Fault α))

theorem pure_eq (a : α) : (pure a : Run α) = ret a := rfl

@[simp] theorem ret_bind (a : α) (f : α → Run β) : (ret a >>= f) = f a := rfl
@[simp] theorem pure_bind' (a : α) (f : α → Run β) : ((pure a : Run α) >>= f) = f a := rfl
@[simp] theorem fault_bind (e : Fault) (f : α → Run β) : ((fault e : Run α) >>= f) = fault e := rfl
@[simp] theorem diverge_bind (f : α → Run β) : ((diverge : Run α) >>= f) = diverge := rfl

@[simp] theorem map_ret (f : α → β) (a : α) : f <$> (ret a) = ret (f a) := rfl
@[simp] theorem map_pure' (f : α → β) (a : α) : f <$> (pure a : Run α) = pure (f a) := rfl
@[simp] theorem map_fault (f : α → β) (e : Fault) : f <$> (fault e : Run α) = fault e := rfl
@[simp] theorem map_diverge (f : α → β) : f <$> (diverge : Run α) = diverge := rfl

@[simp] theorem ret_inj {a b : α} : (ret a = ret b) ↔ a = b := by
  constructor
  · intro h; injection h with h; injection h
  · rintro rfl; rfl
@[simp] theorem pure_eq_ret {a b : α} : ((pure a : Run α) = ret b) ↔ a = b := ret_inj
@[simp] theorem ret_eq_pure {a b : α} : (ret a = (pure b : Run α)) ↔ a = b := ret_inj
@[simp] theorem pure_inj' {a b : α} : ((pure a : Run α) = pure b) ↔ a = b := ret_inj
@[simp] theorem fault_inj {e f : Fault} : ((fault e : Run α) = fault f) ↔ e = f := by
  constructor
  · intro h; injection h with h; injection h
  · rintro rfl; rfl
@[simp] theorem ret_ne_fault {a : α} {e : Fault} : ret a ≠ fault e := by
  intro h; injection h with h; injection h
@[simp] theorem fault_ne_ret {a : α} {e : Fault} : fault e ≠ ret a := by
  intro h; injection h with h; injection h
@[simp] theorem pure_ne_fault {a : α} {e : Fault} : (pure a : Run α) ≠ fault e := ret_ne_fault
@[simp] theorem fault_ne_pure {a : α} {e : Fault} : fault e ≠ (pure a : Run α) := fault_ne_ret
@[simp] theorem ret_ne_diverge {a : α} : ret a ≠ diverge := by intro h; injection h
@[simp] theorem diverge_ne_ret {a : α} : diverge ≠ ret a := by intro h; injection h
@[simp] theorem pure_ne_diverge {a : α} : (pure a : Run α) ≠ diverge := ret_ne_diverge
@[simp] theorem diverge_ne_pure {a : α} : diverge ≠ (pure a : Run α) := diverge_ne_ret
@[simp] theorem fault_ne_diverge {e : Fault} : (fault e : Run α) ≠ diverge := by intro h; injection h
@[simp] theorem diverge_ne_fault {e : Fault} : (diverge : Run α) ≠ fault e := by intro h; injection h

/-- Every computation returns, faults or diverges. -/
theorem trichotomy (x : Run α) : (∃ a, x = ret a) ∨ (∃ f, x = fault f) ∨ x = diverge := by
  match x with
  | (none : Option (Except Fault α)) => exact .inr (.inr rfl)
  | (some (.error e) : Option (Except Fault α)) => exact .inr (.inl ⟨e, rfl⟩)
  | (some (.ok a) : Option (Except Fault α)) => exact .inl ⟨a, rfl⟩

theorem bind_eq_ret {x : Run α} {f : α → Run β} {b : β} :
    (x >>= f) = ret b ↔ ∃ a, x = ret a ∧ f a = ret b := by
  rcases trichotomy x with ⟨a, rfl⟩ | ⟨e, rfl⟩ | rfl <;> simp

theorem bind_eq_pure {x : Run α} {f : α → Run β} {b : β} :
    (x >>= f) = pure b ↔ ∃ a, x = ret a ∧ f a = ret b := bind_eq_ret

/-- Case analysis on a computation, as an eliminator. -/
@[elab_as_elim] theorem casesRun {motive : Run α → Prop} (x : Run α)
    (ret : ∀ a, motive (Run.ret a)) (fault : ∀ f, motive (Run.fault f)) (diverge : motive Run.diverge) :
    motive x := by
  rcases trichotomy x with ⟨a, rfl⟩ | ⟨e, rfl⟩ | rfl
  · exact ret a
  · exact fault e
  · exact diverge

theorem bind_assoc' {γ : Type} (x : Run α) (f : α → Run β) (g : β → Run γ) :
    ((x >>= f) >>= g) = (x >>= fun a => f a >>= g) := by
  cases x using casesRun <;> simp

@[simp] theorem bind_pure' (x : Run α) : (x >>= fun a => (pure a : Run α)) = x := by
  cases x using casesRun <;> simp [pure_eq]
@[simp] theorem bind_ret' (x : Run α) : (x >>= fun a => ret a) = x := by
  cases x using casesRun <;> simp

/-- Fixpoint induction applies to every property that holds of `diverge`. -/
theorem admissible_of_diverge (P : Run α → Prop) (h : P diverge) : Lean.Order.admissible P :=
  Lean.Order.admissible_flatOrder (b := (none : Option (Except Fault α))) (fun x => P x) h

/-- The same, for functions of one argument. -/
theorem admissible_fun {ι : Type} (P : ι → Run α → Prop) (h : ∀ i, P i diverge) :
    Lean.Order.admissible (fun f : ι → Run α => ∀ i, P i (f i)) :=
  Lean.Order.admissible_pi_apply (fun i (x : Run α) => P i x) (fun i => admissible_of_diverge _ (h i))

/-- The same, for functions of two arguments. -/
theorem admissible_fun₂ {ι κ : Type} (P : ι → κ → Run α → Prop) (h : ∀ i k, P i k diverge) :
    Lean.Order.admissible (fun f : ι → κ → Run α => ∀ i k, P i k (f i k)) :=
  Lean.Order.admissible_pi_apply (fun i (x : κ → Run α) => ∀ k, P i k (x k))
    (fun i => admissible_fun _ (h i))

/-- The same, for functions of three arguments. -/
theorem admissible_fun₃ {ι κ l : Type} (P : ι → κ → l → Run α → Prop) (h : ∀ i k j, P i k j diverge) :
    Lean.Order.admissible (fun f : ι → κ → l → Run α => ∀ i k j, P i k j (f i k j)) :=
  Lean.Order.admissible_pi_apply (fun i (x : κ → l → Run α) => ∀ k j, P i k j (x k j))
    (fun i => admissible_fun₂ _ (h i))

end Run
end Parcom
