import Verif.Model.Prelude
/-!
# Computations on a state

Code that works on memory reachable through `&mut`: unlike in `Run`, the state survives a panic, so that what a caught
panic leaves behind can be observed. None of the code modelled this way loops for ever.
-/
namespace Parcom

/-- A computation on a state `W`: a result or a fault, and the state afterwards. -/
def Act (W β : Type) := W → Except Fault β × W

namespace Act
variable {W β γ : Type}

instance : Monad (Act W) where
  pure a w := (.ok a, w)
  bind x f w := match x w with
    | (.ok a, w) => f a w
    | (.error e, w) => (.error e, w)

/-- Stop with a fault. -/
def throw (e : Fault) : Act W β := fun w => (.error e, w)
/-- The state. -/
def get : Act W W := fun w => (.ok w, w)
/-- Change the state. -/
def modify (f : W → W) : Act W Unit := fun w => (.ok (), f w)
/-- Clean up when `x` panics (unwinding runs destructors); undefined behaviour and aborts do not unwind. -/
def onUnwind (x : Act W β) (cleanup : W → W) : Act W β := fun w =>
  match x w with
  | (.error e, w) => if e = .ub ∨ e = .abort then (.error e, w) else (.error e, cleanup w)
  | r => r

@[simp] theorem pure_run (a : β) (w : W) : (pure a : Act W β) w = (.ok a, w) := rfl
@[simp] theorem throw_run (e : Fault) (w : W) : (throw e : Act W β) w = (.error e, w) := rfl
@[simp] theorem get_run (w : W) : (get : Act W W) w = (.ok w, w) := rfl
@[simp] theorem modify_run (f : W → W) (w : W) : modify f w = (.ok (), f w) := rfl

theorem bind_ok {x : Act W β} {f : β → Act W γ} {w w' : W} {a : β} (h : x w = (.ok a, w')) : (x >>= f) w = f a w' := by
  show (match x w with | (.ok a, w) => f a w | (.error e, w) => (.error e, w)) = _
  rw [h]
theorem bind_error {x : Act W β} {f : β → Act W γ} {w w' : W} {e : Fault} (h : x w = (.error e, w')) :
    (x >>= f) w = (.error e, w') := by
  show (match x w with | (.ok a, w) => f a w | (.error e, w) => (.error e, w)) = _
  rw [h]
@[simp] theorem pure_bind_run (a : β) (f : β → Act W γ) (w : W) : ((pure a : Act W β) >>= f) w = f a w := rfl
@[simp] theorem throw_bind_run (e : Fault) (f : β → Act W γ) (w : W) : ((throw e : Act W β) >>= f) w = (.error e, w) := rfl
@[simp] theorem get_bind_run (f : W → Act W γ) (w : W) : (get >>= f) w = f w w := rfl
@[simp] theorem modify_bind_run (g : W → W) (f : Unit → Act W γ) (w : W) : (modify g >>= f) w = f () (g w) := rfl

end Act
end Parcom
