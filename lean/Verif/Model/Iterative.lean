import Verif.Model.Core
/-!
# Iterative adaptors and consumers

`crates/parcom-parsers/src/iterative/*.rs`. Every adaptor has one `IterationState` type, built both by `parse_iterative`
(over `parser.parse_iterative()`) and by `parse_iterative_once` (over `parser.parse_iterative_once()`).
-/
namespace Parcom

variable {σ σ₁ S O E E₁ A C T St : Type}

/-! ## Consumers -/

/-- The free function `parse` of iterative/fold.rs:74-91. -/
def foldLoop (st : IterState σ S O E) (f : A → O → A) (state : σ) (acc : A) (rest : S) : Run (PResult S A E) := do
  match ← st.next state rest with
  | (.err e r, _) => return .err e r
  | (.ok (some v) r, state) => foldLoop st f state (f acc v) r
  | (.ok none r, _) => return done acc r
partial_fixpoint

/-- `Fold` (iterative/fold.rs): `parse_once` (46-51), `parse` (61-71). -/
def IterParser.fold (p : IterParser σ σ₁ S O E) (init : A) (f : A → O → A) : Parser S A E where
  parse input := foldLoop p.iter f p.iter.init init input
  parseOnce input := foldLoop p.once f p.once.init init input

/-- The free function `parse` of iterative/collect.rs:43-65. `extend` is `Extend::extend` with one item. -/
def collectLoop [RewindSequence S] (st : IterState σ S O E) (extend : C → O → C) (state : σ) (collection : C)
    (rest : S) : Run (PResult S (C × Option E) E) := do
  let anchor := anchor rest
  match ← st.next state rest with
  | (.ok none r, _) => return done (collection, none) (← RewindSequence.rewind r anchor)
  | (.ok (some v) r, state) => collectLoop st extend state (extend collection v) r
  | (.err e r, _) => return done (collection, some e) (← r.rewind anchor)
partial_fixpoint

/-- `Collect` (iterative/collect.rs): `parse_once` (30-32), `parse` (38-40). `dflt` is `C::default()`. -/
def IterParser.collect [RewindSequence S] (dflt : C) (extend : C → O → C) (p : IterParser σ σ₁ S O E) :
    Parser S (C × Option E) E where
  parse input := collectLoop p.iter extend p.iter.init dflt input
  parseOnce input := collectLoop p.once extend p.once.init dflt input

/-- `collect::<Vec<_>>()`: `Vec::default()` and `Vec::extend`. -/
def IterParser.collectVec [RewindSequence S] (p : IterParser σ σ₁ S O E) : Parser S (List O × Option E) E :=
  p.collect [] (fun c v => c ++ [v])

/-! ## Adaptors -/

/-- `IterationState` of `MapEach` (iterative/map_each.rs:54-76). -/
def IterState.mapEach (st : IterState σ S O E) (map : O → T) : IterState σ S T E where
  init := st.init
  next state input := do
    match ← st.next state input with
    | (.ok v r, state) => return (.ok (v.map map) r, state)
    | (.err e r, state) => return (.err e r, state)

/-- `MapEach` (iterative/map_each.rs:21-52). -/
def IterParser.mapEach (p : IterParser σ σ₁ S O E) (map : O → T) : IterParser σ σ₁ S T E where
  iter := p.iter.mapEach map
  once := p.once.mapEach map

/-- `IterationState` of `MapWhile` (iterative/map_while.rs:62-83). -/
def IterState.mapWhile (st : IterState σ S O E) (f : O → Option T) : IterState σ S T E where
  init := st.init
  next state input := do
    match ← st.next state input with
    | (.ok v r, state) => return (.ok (v.bind f) r, state)
    | (.err e r, state) => return (.err e r, state)

/-- `MapWhile` (iterative/map_while.rs:23-60). -/
def IterParser.mapWhile (p : IterParser σ σ₁ S O E) (f : O → Option T) : IterParser σ σ₁ S T E where
  iter := p.iter.mapWhile f
  once := p.once.mapWhile f

/-- `IterationState` of `Scan` (iterative/scan.rs:76-105). `f(&mut state, v)` returns the output and the new state. -/
def IterState.scan (st : IterState σ S O E) (initial : St) (f : St → O → T × St) : IterState (σ × St) S T E where
  init := (st.init, initial)
  next := fun (ps, state) input => do
    match ← st.next ps input with
    | (.err e r, ps) => return (.err e r, (ps, state))
    | (.ok (some v) r, ps) =>
      let (o, state) := f state v
      return (done (some o) r, (ps, state))
    | (.ok none r, ps) => return (done none r, (ps, state))

/-- `Scan` (iterative/scan.rs:34-74). -/
def IterParser.scan (p : IterParser σ σ₁ S O E) (initial : St) (f : St → O → T × St) :
    IterParser (σ × St) (σ₁ × St) S T E where
  iter := p.iter.scan initial f
  once := p.once.scan initial f

/-- `IterationState` of `Take` (iterative/take.rs:52-76). -/
def IterState.take (st : IterState σ S O E) (count : Nat) : IterState (σ × Nat) S O E where
  init := (st.init, count)
  next := fun (state, left) input => do
    if left = 0 then return (done none input, (state, left))
    else
      match ← st.next state input with
      | (.err e r, state) => return (.err e r, (state, left))
      | (.ok (some v) r, state) => return (done (some v) r, (state, left - 1))
      | (.ok none r, state) => return (done none r, (state, left))

/-- `Take` (iterative/take.rs:23-50). -/
def IterParser.take (p : IterParser σ σ₁ S O E) (count : Nat) : IterParser (σ × Nat) (σ₁ × Nat) S O E where
  iter := p.iter.take count
  once := p.once.take count

/-- `IterationState` of `TryMapEach` (iterative/try_map_each.rs:76-112). `into` is `From<P::Error>`. -/
def IterState.tryMapEach [ParseError E₁] (st : IterState σ S O E) (into : E → E₁) (f : O → Except E₁ T) :
    IterState σ S T E₁ where
  init := st.init
  next state input := do
    match ← st.next state input with
    | (.ok (some v) r, state) =>
      match f v with
      | .ok v => return (done (some v) r, state)
      | .error e => if shouldTerminate e then return (failAt e r, state) else return (done none r, state)
    | (.ok none r, state) => return (done none r, state)
    | (.err e r, state) => return (.err (into e) r, state)

/-- `TryMapEach` (iterative/try_map_each.rs:35-74). -/
def IterParser.tryMapEach [ParseError E₁] (p : IterParser σ σ₁ S O E) (into : E → E₁) (f : O → Except E₁ T) :
    IterParser σ σ₁ S T E₁ where
  iter := p.iter.tryMapEach into f
  once := p.once.tryMapEach into f

end Parcom
