import Verif.Model.Core
/-!
# Combinators

`crates/parcom-parsers/src/combinator/*.rs`, `crates/parcom-parsers/src/util.rs`.
`?` on a `Result` is a `match` that returns the error; `Vec::push` is `++ [v]`.
-/
namespace Parcom

variable {S O O₀ O₁ E E₀ E₁ T T₀ T₁ : Type}

/-! ## join -/

/-- `Join` (combinator/join.rs): `parse_once` (26-40), `parse` (44-57). -/
def Parser.join (p₀ : Parser S O₀ E₀) (p₁ : Parser S O₁ E₁) : Parser S (O₀ × O₁) (Either E₀ E₁) where
  parse input := do
    match ← p₀.parse input with
    | .err e r => return .err (.first e) r
    | .ok item0 rest =>
      match ← p₁.parse rest with
      | .err e r => return .err (.last e) r
      | .ok item1 rest => return done (item0, item1) rest
  parseOnce input := do
    match ← p₀.parseOnce input with
    | .err e r => return .err (.first e) r
    | .ok item0 rest =>
      match ← p₁.parseOnce rest with
      | .err e r => return .err (.last e) r
      | .ok item1 rest => return done (item0, item1) rest

/-! ## or -/

/-- `Or` (combinator/or.rs): `parse_once` (26-43), `parse` (47-65). -/
def Parser.or [RewindSequence S] [ParseError E₀] [ParseError E₁]
    (p₀ : Parser S O₀ E₀) (p₁ : Parser S O₁ E₁) : Parser S (Either O₀ O₁) (EitherBoth E₀ E₁) where
  parse input := do
    let anchor := anchor input
    match ← p₀.parse input with
    | .ok v r => return done (.first v) r
    | .err err0 rest =>
      if ¬ shouldTerminate err0 then
        let input ← rest.rewind anchor
        match ← p₁.parse input with
        | .ok v r => return done (.last v) r
        | .err err1 rest =>
          if ¬ shouldTerminate err1 then return fail (.both err0 err1) rest
          else return fail (.last err1) rest
      else return fail (.first err0) rest
  parseOnce input := do
    let anchor := anchor input
    match ← p₀.parseOnce input with
    | .ok v r => return done (.first v) r
    | .err err0 rest =>
      if ¬ shouldTerminate err0 then
        let input ← rest.rewind anchor
        match ← p₁.parseOnce input with
        | .ok v r => return done (.last v) r
        | .err err1 rest =>
          if ¬ shouldTerminate err1 then return fail (.both err0 err1) rest
          else return fail (.last err1) rest
      else return fail (.first err0) rest

/-! ## optional -/

/-- `Optional` as a parser (combinator/optional.rs): `parse_once` (26-33), `parse` (37-44).
`Result<O, E>` is `Except E O`. -/
def Parser.optional [RewindSequence S] [ParseError E] (p : Parser S O E) : Parser S (Except E O) E where
  parse input := do
    let anchor := anchor input
    match ← p.parse input with
    | .ok v r => return done (.ok v) r
    | .err e r =>
      if ¬ shouldTerminate e then return done (.error e) (← r.rewind anchor)
      else return fail e r
  parseOnce input := do
    let anchor := anchor input
    match ← p.parseOnce input with
    | .ok v r => return done (.ok v) r
    | .err e r =>
      if ¬ shouldTerminate e then return done (.error e) (← r.rewind anchor)
      else return fail e r

/-- `IterationState::parse_next` of `Optional` (combinator/optional.rs:102-116) and
`IterationStateOnce::parse_next` (76-90): the same code around `parse` and `parse_once`. The state is whether `me` is
still there. -/
def optionalNext [RewindSequence S] [ParseError E] (parse : S → Run (PResult S O E)) (me : Bool) (input : S) :
    Run (PResult S (Option O) E × Bool) := do
  if ¬ me then return (done none input, false)
  else
    let anchor := anchor input
    match ← parse input with
    | .ok v r => return (done (some v) r, false)
    | .err e r =>
      if shouldTerminate e then return (.err e r, false)
      else return (done none (← r.rewind anchor), false)

/-- `Optional` as an iterative parser (combinator/optional.rs:47-117). -/
def Parser.optionalIter [RewindSequence S] [ParseError E] (p : Parser S O E) : IterParser Bool Bool S O E where
  iter := { init := true, next := optionalNext p.parse }
  once := { init := true, next := optionalNext p.parseOnce }

/-! ## repeat -/

/-- The loop of `Repeat::parse` (combinator/repeat.rs:39-57). -/
def repeatLoop [RewindSequence S] [ParseError E] (parse : S → Run (PResult S O E)) (buf : List O) (rest : S) :
    Run (PResult S (List O × E) E) := do
  let anchor := anchor rest
  match ← parse rest with
  | .ok v r => repeatLoop parse (buf ++ [v]) r
  | .err e r =>
    if shouldTerminate e then return fail e r
    else
      let rest ← r.rewind anchor
      return done (buf, e) rest
partial_fixpoint

/-- `Repeat` as a parser (combinator/repeat.rs:25-59). `parse_once` calls `parse`. -/
def Parser.repeat [RewindSequence S] [ParseError E] (p : Parser S O E) : Parser S (List O × E) E where
  parse input := repeatLoop p.parse [] input
  parseOnce input := repeatLoop p.parse [] input

/-- `IterationState::parse_next` of `Repeat` (combinator/repeat.rs:97-109); its state never changes. -/
def repeatNext [RewindSequence S] [ParseError E] (parse : S → Run (PResult S O E)) (_ : Unit) (input : S) :
    Run (PResult S (Option O) E × Unit) := do
  let anchor := anchor input
  match ← parse input with
  | .ok v r => return (done (some v) r, ())
  | .err e r =>
    if shouldTerminate e then return (fail e r, ())
    else return (done none (← r.rewind anchor), ())

/-- `Repeat` as an iterative parser (combinator/repeat.rs:61-110). Both iterations call the inner `parse`. -/
def Parser.repeatIter [RewindSequence S] [ParseError E] (p : Parser S O E) : IterParser Unit Unit S O E where
  iter := { init := (), next := repeatNext p.parse }
  once := { init := (), next := repeatNext p.parse }

/-! ## map, map_err, and_then, unify, unify_err, as_ref, boxed -/

/-- `Map` (combinator/map.rs): `parse_once` (27-32), `parse` (35-40). -/
def Parser.map (p : Parser S O E) (mapping : O → T) : Parser S T E where
  parse input := do
    match ← p.parse input with
    | .ok v r => return .ok (mapping v) r
    | .err e r => return .err e r
  parseOnce input := do
    match ← p.parseOnce input with
    | .ok v r => return .ok (mapping v) r
    | .err e r => return .err e r

/-- `MapErr` (combinator/map.rs): `parse_once` (66-71), `parse` (77-82). -/
def Parser.mapErr (p : Parser S O E) (mapping : E → T) : Parser S O T where
  parse input := do
    match ← p.parse input with
    | .ok v r => return .ok v r
    | .err e r => return .err (mapping e) r
  parseOnce input := do
    match ← p.parseOnce input with
    | .ok v r => return .ok v r
    | .err e r => return .err (mapping e) r

/-- `AndThen` (combinator/and_then.rs): `parse_once` (44-54), `parse` (64-74). `into` is `From<P::Error>`. -/
def Parser.andThen (p : Parser S O E) (into : E → E₁) (map : O → Except E₁ T) : Parser S T E₁ where
  parse input := do
    match ← p.parse input with
    | .err e r => return .err (into e) r
    | .ok v r =>
      match map v with
      | .ok v => return done v r
      | .error e => return failAt e r
  parseOnce input := do
    match ← p.parseOnce input with
    | .err e r => return .err (into e) r
    | .ok v r =>
      match map v with
      | .ok v => return done v r
      | .error e => return failAt e r

/-- `Unify` (combinator/unify.rs): `parse_once` (42-47), `parse` (57-61). -/
def Parser.unify (into0 : T₀ → T) (into1 : T₁ → T) (p : Parser S (Either T₀ T₁) E) : Parser S T E where
  parse input := do
    match ← p.parse input with
    | .err e r => return .err e r
    | .ok e r => return done (e.unify into0 into1) r
  parseOnce input := do
    match ← p.parseOnce input with
    | .err e r => return .err e r
    | .ok (.first v) r => return done (into0 v) r
    | .ok (.last v) r => return done (into1 v) r

/-- `UnifyErr` (combinator/unify.rs): `parse_once` (101-109), `parse` (120-125). -/
def Parser.unifyErr (into0 : T₀ → T) (into1 : T₁ → T) (p : Parser S O (Either T₀ T₁)) : Parser S O T where
  parse input := do
    match ← p.parse input with
    | .ok v r => return .ok v r
    | .err e r => return .err (e.unify into0 into1) r
  parseOnce input := do
    match ← p.parseOnce input with
    | .ok v r => return .ok v r
    | .err (.first e) r => return .err (into0 e) r
    | .err (.last e) r => return .err (into1 e) r

/-- `Ref`, made by `as_ref` (combinator/reference.rs:29-41). -/
def Parser.asRef (p : Parser S O E) : Parser S O E where
  parse input := p.parse input
  parseOnce input := p.parse input

/-- `Boxed` (parcom-parsers/src/util.rs:18-39). Boxing the future does not change its result. -/
def Parser.boxed (p : Parser S O E) : Parser S O E where
  parse input := p.parse input
  parseOnce input := p.parseOnce input

end Parcom
