import Verif.Model.Prelude
/-!
# Observers and option futures

`crates/parcom-internals/src/reactive.rs`, `reactive/predicate.rs`, `reactive/extension.rs`,
`reactive/extension/filter.rs`, `future/option_future.rs`, `future/pin_option.rs`.
-/
namespace Parcom

/-- `trait IObserver<T>` (reactive.rs:13-15): what `next` does to the observer's state `σ`. -/
structure IObserver (T σ : Type) where
  next : T → σ → Run σ

/-- `trait IObservable<T>` (reactive.rs:8-11). Subscribing runs `subscribe` with the observer, which may call it any
number of times; the subscription is the state it leaves. -/
structure IObservable (T : Type) where
  subscribe : {σ : Type} → IObserver T σ → σ → Run σ

/-- `struct Filter` (filter.rs:5-9); `Filter::new` (12-18) and `ObservableExtensions::filter` (extension.rs:8-10) build it.
`Predicate` (predicate.rs) is a function; its evaluation has no effect. -/
structure Filter (T : Type) where
  observable : IObservable T
  predicate : T → Bool

/-- `impl IObserver for Observer` (filter.rs:27-33). -/
def filterObserver {T σ : Type} (observer : IObserver T σ) (predicate : T → Bool) : IObserver T σ where
  next item s := if predicate item then observer.next item s else pure s

/-- `impl IObservable for Filter` (filter.rs:39-51). -/
def Filter.toObservable {T : Type} (f : Filter T) : IObservable T where
  subscribe observer s := f.observable.subscribe (filterObserver observer f.predicate) s

/-- `std::task::Poll`. -/
inductive Poll (α : Type) where
  | ready (a : α)
  | pending
deriving DecidableEq

/-- `Poll::map` (std). -/
def Poll.map {α β : Type} (f : α → β) : Poll α → Poll β
  | .ready a => .ready (f a)
  | .pending => .pending

/-- `Future` (std): polling in a state. -/
structure Future (σ α : Type) where
  poll : σ → Run (Poll α × σ)

/-- `OptionFuture` (option_future.rs:5-9) over `PinOption` (pin_option.rs:3-7): its state is that of the inner future, if
any. `poll` is option_future.rs:28-36; `some` (12-16) and `none` (18-22) are the states `some s` and `none`. -/
def optionFuture {σ α : Type} (fut : Future σ α) : Future (Option σ) (Option α) where
  poll
    | some s => do
      let (p, s) ← fut.poll s
      return (p.map some, some s)
    | none => pure (.ready none, none)

end Parcom
