import Verif.Props.Combinator
import Verif.Props.Primitive
/-!
# C98: laws of the combinators

Rewritings of a grammar that change nothing but the shape of results and errors. Where the two sides have different types, a
function between them is written down first.
-/
namespace Parcom
open Spec

variable {S O O₀ O₁ O₂ E E₀ E₁ E₂ T T₀ T₁ U U₀ U₁ : Type}

/-! ## The other shape -/

/-- `((a, b), c)` as `(a, (b, c))`. -/
def pairsRight : (O₀ × O₁) × O₂ → O₀ × (O₁ × O₂)
  | ((a, b), c) => (a, (b, c))

/-- The same for alternatives. -/
def eitherRight : Either (Either O₀ O₁) O₂ → Either O₀ (Either O₁ O₂)
  | .first (.first a) => .first a
  | .first (.last b) => .last (.first b)
  | .last c => .last (.last c)

/-- The same for the errors of alternatives. -/
def bothRight : EitherBoth (EitherBoth E₀ E₁) E₂ → EitherBoth E₀ (EitherBoth E₁ E₂)
  | .first (.first a) => .first a
  | .first (.last b) => .last (.first b)
  | .first (.both a b) => .both a (.first b)
  | .last c => .last (.last c)
  | .both (.first a) c => .both a (.last c)
  | .both (.last b) c => .last (.both b c)
  | .both (.both a b) c => .both a (.both b c)

/-- Both components changed. -/
def onPair (f : O₀ → U₀) (g : O₁ → U₁) : O₀ × O₁ → U₀ × U₁
  | (a, b) => (f a, g b)

/-- Both sides changed. -/
def onEither (f : O₀ → U₀) (g : O₁ → U₁) : Either O₀ O₁ → Either U₀ U₁
  | .first a => .first (f a)
  | .last b => .last (g b)

/-- Both sides changed. -/
def onBoth (f : O₀ → U₀) (g : O₁ → U₁) : EitherBoth O₀ O₁ → EitherBoth U₀ U₁
  | .first a => .first (f a)
  | .last b => .last (g b)
  | .both a b => .both (f a) (g b)

theorem Parser.ext' {p q : Parser S O E} (h : ∀ s, p.parse s = q.parse s) (h' : ∀ s, p.parseOnce s = q.parseOnce s) : p = q := by
  cases p; cases q
  simp only [Parser.mk.injEq]
  exact ⟨funext h, funext h'⟩

/-- The ways a run can come out; the faults and the divergence are left to `rfl`. -/
local macro "on_run " e:term : tactic =>
  `(tactic| (generalize $e = run; cases run using Run.casesRun <;> (try rfl)))

/-! ## map, map_err, and_then -/

/-- Two `map`s in a row are one. -/
theorem C98_map_map (p : Parser S O E) (f : O → T) (g : T → U) : (p.map f).map g = p.map (g ∘ f) := by
  apply Parser.ext' <;> intro s <;> simp only [Parser.map]
  · on_run p.parse s; case ret a => cases a <;> rfl
  · on_run p.parseOnce s; case ret a => cases a <;> rfl

/-- `map` with the identity changes nothing. -/
theorem C98_map_id (p : Parser S O E) : p.map (fun v => v) = p := by
  apply Parser.ext' <;> intro s <;> simp only [Parser.map]
  · on_run p.parse s; case ret a => cases a <;> rfl
  · on_run p.parseOnce s; case ret a => cases a <;> rfl

/-- Two `map_err`s in a row are one. -/
theorem C98_mapErr_mapErr (p : Parser S O E) (f : E → T) (g : T → U) : (p.mapErr f).mapErr g = p.mapErr (g ∘ f) := by
  apply Parser.ext' <;> intro s <;> simp only [Parser.mapErr]
  · on_run p.parse s; case ret a => cases a <;> rfl
  · on_run p.parseOnce s; case ret a => cases a <;> rfl

/-- `map` and `map_err` do not care about their order. -/
theorem C98_map_mapErr (p : Parser S O E) (f : O → T) (g : E → U) : (p.map f).mapErr g = (p.mapErr g).map f := by
  apply Parser.ext' <;> intro s <;> simp only [Parser.mapErr, Parser.map]
  · on_run p.parse s; case ret a => cases a <;> rfl
  · on_run p.parseOnce s; case ret a => cases a <;> rfl

/-- `and_then` with a closure that never fails is `map`. -/
theorem C98_andThen_ok (p : Parser S O E) (f : O → T) : p.andThen (fun e => e) (fun v => .ok (f v)) = p.map f := by
  apply Parser.ext' <;> intro s <;> simp only [Parser.andThen, Parser.map]
  · on_run p.parse s; case ret a => cases a <;> rfl
  · on_run p.parseOnce s; case ret a => cases a <;> rfl

/-- Two `and_then`s in a row are one, whose closure runs both closures. -/
theorem C98_andThen_andThen (p : Parser S O E) (i : E → E₁) (f : O → Except E₁ T) (j : E₁ → E₂) (g : T → Except E₂ U) :
    (p.andThen i f).andThen j g = p.andThen (j ∘ i) (fun v => match f v with
      | .ok w => g w
      | .error e => .error (j e)) := by
  apply Parser.ext' <;> intro s <;> simp only [Parser.andThen]
  · on_run p.parse s
    case ret a =>
    cases a with
    | err => rfl
    | ok v t => cases hv : f v <;> simp only [hv, Run.ret_bind, Run.pure_bind', done, failAt]
  · on_run p.parseOnce s
    case ret a =>
    cases a with
    | err => rfl
    | ok v t => cases hv : f v <;> simp only [hv, Run.ret_bind, Run.pure_bind', done, failAt]

/-! ## join -/

/-- `a.join(b).join(c)` is `a.join(b.join(c))` in another shape. -/
theorem C98_join_assoc (p : Parser S O₀ E₀) (q : Parser S O₁ E₁) (r : Parser S O₂ E₂) :
    (((p.join q).join r).map pairsRight).mapErr eitherRight = p.join (q.join r) := by
  apply Parser.ext' <;> intro s <;> simp only [Parser.join, Parser.map, Parser.mapErr]
  · on_run p.parse s
    case ret a =>
    cases a with
    | err => rfl
    | ok v t =>
    simp only [Run.ret_bind]
    on_run q.parse t
    case ret a =>
    cases a with
    | err => rfl
    | ok v t =>
    simp only [Run.ret_bind, Run.pure_bind', done]
    on_run r.parse t
    case ret a => cases a <;> rfl
  · on_run p.parseOnce s
    case ret a =>
    cases a with
    | err => rfl
    | ok v t =>
    simp only [Run.ret_bind]
    on_run q.parseOnce t
    case ret a =>
    cases a with
    | err => rfl
    | ok v t =>
    simp only [Run.ret_bind, Run.pure_bind', done]
    on_run r.parseOnce t
    case ret a => cases a <;> rfl

/-- Mapping the parts of a `join` is mapping the `join`. -/
theorem C98_join_map (p : Parser S O₀ E₀) (q : Parser S O₁ E₁) (f : O₀ → U₀) (g : O₁ → U₁) :
    (p.map f).join (q.map g) = (p.join q).map (onPair f g) := by
  apply Parser.ext' <;> intro s <;> simp only [Parser.join, Parser.map]
  · on_run p.parse s
    case ret a =>
    cases a with
    | err => rfl
    | ok v t =>
    simp only [Run.ret_bind, Run.pure_bind']
    on_run q.parse t
    case ret a => cases a <;> rfl
  · on_run p.parseOnce s
    case ret a =>
    cases a with
    | err => rfl
    | ok v t =>
    simp only [Run.ret_bind, Run.pure_bind']
    on_run q.parseOnce t
    case ret a => cases a <;> rfl

/-- The same for errors. -/
theorem C98_join_mapErr (p : Parser S O₀ E₀) (q : Parser S O₁ E₁) (f : E₀ → U₀) (g : E₁ → U₁) :
    (p.mapErr f).join (q.mapErr g) = (p.join q).mapErr (onEither f g) := by
  apply Parser.ext' <;> intro s <;> simp only [Parser.join, Parser.mapErr]
  · on_run p.parse s
    case ret a =>
    cases a with
    | err => rfl
    | ok v t =>
    simp only [Run.ret_bind, Run.pure_bind']
    on_run q.parse t
    case ret a => cases a <;> rfl
  · on_run p.parseOnce s
    case ret a =>
    cases a with
    | err => rfl
    | ok v t =>
    simp only [Run.ret_bind, Run.pure_bind']
    on_run q.parseOnce t
    case ret a => cases a <;> rfl

/-! ## or -/

/-- Mapping the alternatives of an `or` is mapping the `or`. -/
theorem C98_or_map [RewindSequence S] [ParseError E₀] [ParseError E₁] (p : Parser S O₀ E₀) (q : Parser S O₁ E₁)
    (f : O₀ → U₀) (g : O₁ → U₁) : (p.map f).or (q.map g) = (p.or q).map (onEither f g) := by
  apply Parser.ext' <;> intro s <;> simp only [Parser.or, Parser.map]
  · on_run p.parse s
    case ret a =>
    cases a with
    | ok => rfl
    | err e u =>
    simp only [Run.ret_bind, Run.pure_bind']
    cases shouldTerminate e
    · simp
      on_run u.rewind (anchor s)
      case ret t =>
      simp only [Run.ret_bind, Run.pure_bind']
      on_run q.parse t
      case ret a =>
      cases a with
      | ok => rfl
      | err e' => simp only [Run.ret_bind, Run.pure_bind']; cases shouldTerminate e' <;> rfl
    · rfl
  · on_run p.parseOnce s
    case ret a =>
    cases a with
    | ok => rfl
    | err e u =>
    simp only [Run.ret_bind, Run.pure_bind']
    cases shouldTerminate e
    · simp
      on_run u.rewind (anchor s)
      case ret t =>
      simp only [Run.ret_bind, Run.pure_bind']
      on_run q.parseOnce t
      case ret a =>
      cases a with
      | ok => rfl
      | err e' => simp only [Run.ret_bind, Run.pure_bind']; cases shouldTerminate e' <;> rfl
    · rfl

/-- The same for errors, if mapping does not change whether they are fatal. -/
theorem C98_or_mapErr [RewindSequence S] [ParseError E₀] [ParseError E₁] [ParseError U₀] [ParseError U₁]
    (p : Parser S O₀ E₀) (q : Parser S O₁ E₁) (f : E₀ → U₀) (g : E₁ → U₁)
    (hf : ∀ e, shouldTerminate (f e) = shouldTerminate e) (hg : ∀ e, shouldTerminate (g e) = shouldTerminate e) :
    (p.mapErr f).or (q.mapErr g) = (p.or q).mapErr (onBoth f g) := by
  apply Parser.ext' <;> intro s <;> simp only [Parser.or, Parser.mapErr]
  · on_run p.parse s
    case ret a =>
    cases a with
    | ok => rfl
    | err e u =>
    simp only [Run.ret_bind, Run.pure_bind', hf]
    cases shouldTerminate e
    · simp
      on_run u.rewind (anchor s)
      case ret t =>
      simp only [Run.ret_bind, Run.pure_bind']
      on_run q.parse t
      case ret a =>
      cases a with
      | ok => rfl
      | err e' => simp only [Run.ret_bind, Run.pure_bind', hg]; cases shouldTerminate e' <;> rfl
    · rfl
  · on_run p.parseOnce s
    case ret a =>
    cases a with
    | ok => rfl
    | err e u =>
    simp only [Run.ret_bind, Run.pure_bind', hf]
    cases shouldTerminate e
    · simp
      on_run u.rewind (anchor s)
      case ret t =>
      simp only [Run.ret_bind, Run.pure_bind']
      on_run q.parseOnce t
      case ret a =>
      cases a with
      | ok => rfl
      | err e' => simp only [Run.ret_bind, Run.pure_bind', hg]; cases shouldTerminate e' <;> rfl
    · rfl

/-- What both methods of `or` do. -/
private def orStep [RewindSequence S] [ParseError E₀] [ParseError E₁] (f : S → Run (PResult S O₀ E₀))
    (g : S → Run (PResult S O₁ E₁)) (s : S) : Run (PResult S (Either O₀ O₁) (EitherBoth E₀ E₁)) :=
  (Parser.or ⟨f, f⟩ ⟨g, g⟩).parse s

private theorem orStep_ok [RewindSequence S] [ParseError E₀] [ParseError E₁] {f : S → Run (PResult S O₀ E₀)}
    (g : S → Run (PResult S O₁ E₁)) {s : S} {v : O₀} {t : S} (h : f s = pure (.ok v t)) : orStep f g s = pure (.ok (.first v) t) := by
  simp only [orStep, Parser.or, h, Run.pure_bind']; rfl

private theorem orStep_fatal [RewindSequence S] [ParseError E₀] [ParseError E₁] {f : S → Run (PResult S O₀ E₀)}
    (g : S → Run (PResult S O₁ E₁)) {s : S} {e : E₀} {u : UnknownLocation S} (h : f s = pure (.err e u)) (he : shouldTerminate e = true) :
    orStep f g s = pure (.err (.first e) u) := by
  simp only [orStep, Parser.or, h, Run.pure_bind', he]; rfl

private theorem orStep_miss [RewindSequence S] [ParseError E₀] [ParseError E₁] {f : S → Run (PResult S O₀ E₀)}
    (g : S → Run (PResult S O₁ E₁)) {s : S} {e : E₀} {u : UnknownLocation S} (h : f s = pure (.err e u)) (he : shouldTerminate e = false)
    (hr : u.rewind (anchor s) = pure s) :
    (∀ v t, g s = pure (.ok v t) → orStep f g s = pure (.ok (.last v) t)) ∧
    (∀ e' u', g s = pure (.err e' u') → shouldTerminate e' = true → orStep f g s = pure (.err (.last e') u')) ∧
    (∀ e' u', g s = pure (.err e' u') → shouldTerminate e' = false → orStep f g s = pure (.err (.both e e') u')) ∧
    (∀ x, g s = Run.fault x → orStep f g s = Run.fault x) ∧
    (g s = Run.diverge → orStep f g s = Run.diverge) := by
  refine ⟨?_, ?_, ?_, ?_, ?_⟩
  · intro v t h'
    simp only [orStep, Parser.or, h, Run.pure_bind', he, hr, h']; rfl
  · intro v t h' he'
    simp only [orStep, Parser.or, h, Run.pure_bind', he, hr, h', he']; rfl
  · intro v t h' he'
    simp only [orStep, Parser.or, h, Run.pure_bind', he, hr, h', he']; rfl
  · intro x h'
    simp only [orStep, Parser.or, h, Run.pure_bind', he, hr, h']; rfl
  · intro h'
    simp only [orStep, Parser.or, h, Run.pure_bind', he, hr, h']; rfl

private theorem orStep_bad [RewindSequence S] [ParseError E₀] [ParseError E₁] {f : S → Run (PResult S O₀ E₀)}
    (g : S → Run (PResult S O₁ E₁)) {s : S} : (∀ x, f s = Run.fault x → orStep f g s = Run.fault x) ∧
    (f s = Run.diverge → orStep f g s = Run.diverge) := by
  constructor
  · intro x h; simp only [orStep, Parser.or, h]; rfl
  · intro h; simp only [orStep, Parser.or, h]; rfl

/-- What `map(a)` followed by `map_err(b)` does. -/
private def reshape (a : O → T) (b : E → U) (f : S → Run (PResult S O E)) (s : S) : Run (PResult S T U) :=
  (((Parser.mk f f).map a).mapErr b).parse s

private theorem reshape_eq (a : O → T) (b : E → U) (f : S → Run (PResult S O E)) (s : S) :
    (∀ v t, f s = pure (.ok v t) → reshape a b f s = pure (.ok (a v) t)) ∧
    (∀ e t, f s = pure (.err e t) → reshape a b f s = pure (.err (b e) t)) ∧
    (∀ x, f s = Run.fault x → reshape a b f s = Run.fault x) ∧
    (f s = Run.diverge → reshape a b f s = Run.diverge) := by
  refine ⟨?_, ?_, ?_, ?_⟩
  · intro v t h; simp only [reshape, Parser.map, Parser.mapErr, h]; rfl
  · intro v t h; simp only [reshape, Parser.map, Parser.mapErr, h]; rfl
  · intro v h; simp only [reshape, Parser.map, Parser.mapErr, h]; rfl
  · intro h; simp only [reshape, Parser.map, Parser.mapErr, h]; rfl

private theorem orStep_assoc [RewindSequence S] [L : RewindLaw S] [ParseError E₀] [ParseError E₁] [ParseError E₂]
    {f : S → Run (PResult S O₀ E₀)} {g : S → Run (PResult S O₁ E₁)} {h : S → Run (PResult S O₂ E₂)}
    (hf : Descends f) (hg : Descends g) (s : S) : reshape eitherRight bothRight (orStep (orStep f g) h) s = orStep f (orStep g h) s := by
  obtain ⟨r1, r2, r3, r4⟩ := reshape_eq eitherRight bothRight (orStep (orStep f g) h) s
  rcases Run.trichotomy (f s) with ⟨a, ha⟩ | ⟨x, ha⟩ | ha
  · cases a with
    | ok v t => rw [orStep_ok _ ha, r1 _ _ (orStep_ok _ (orStep_ok _ ha))]; rfl
    | err e u =>
      have hr : u.rewind (anchor s) = pure s := L.rewind (hf.err ha)
      cases he : shouldTerminate e with
      | true => rw [orStep_fatal _ ha he, r2 _ _ (orStep_fatal _ (orStep_fatal _ ha he) he)]; rfl
      | false =>
        obtain ⟨a1, a2, a3, a4, a5⟩ := orStep_miss g ha he hr
        obtain ⟨b1, b2, b3, b4, b5⟩ := orStep_miss (orStep g h) ha he hr
        rcases Run.trichotomy (g s) with ⟨a, hb⟩ | ⟨x, hb⟩ | hb
        · cases a with
          | ok v t => rw [b1 _ _ (orStep_ok _ hb), r1 _ _ (orStep_ok _ (a1 _ _ hb))]; rfl
          | err e' u' =>
            have hr' : u'.rewind (anchor s) = pure s := L.rewind (hg.err hb)
            cases he' : shouldTerminate e' with
            | true => rw [b2 _ _ (orStep_fatal _ hb he') he', r2 _ _ (orStep_fatal _ (a2 _ _ hb he') he')]; rfl
            | false =>
              obtain ⟨c1, c2, c3, c4, c5⟩ := orStep_miss h hb he' hr'
              obtain ⟨d1, d2, d3, d4, d5⟩ := orStep_miss h (a3 _ _ hb he')
                (by show (shouldTerminate e || shouldTerminate e') = false; rw [he, he']; rfl) hr'
              rcases Run.trichotomy (h s) with ⟨a, hc⟩ | ⟨x, hc⟩ | hc
              · cases a with
                | ok v t => rw [b1 _ _ (c1 _ _ hc), r1 _ _ (d1 _ _ hc)]; rfl
                | err e'' u'' =>
                  cases he'' : shouldTerminate e'' with
                  | true => rw [b2 _ _ (c2 _ _ hc he'') he'', r2 _ _ (d2 _ _ hc he'')]; rfl
                  | false =>
                    rw [b3 _ _ (c3 _ _ hc he'') (by show (shouldTerminate e' || shouldTerminate e'') = false; rw [he', he'']; rfl),
                      r2 _ _ (d3 _ _ hc he'')]; rfl
              · rw [b4 _ (c4 _ hc), r3 _ (d4 _ hc)]
              · rw [b5 (c5 hc), r4 (d5 hc)]
        · rw [b4 _ ((orStep_bad _).1 _ hb), r3 _ ((orStep_bad _).1 _ (a4 _ hb))]
        · rw [b5 ((orStep_bad _).2 hb), r4 ((orStep_bad _).2 (a5 hb))]
  · rw [(orStep_bad _).1 _ ha, r3 _ ((orStep_bad _).1 _ ((orStep_bad _).1 _ ha))]
  · rw [(orStep_bad _).2 ha, r4 ((orStep_bad _).2 ((orStep_bad _).2 ha))]

/-- `a.or(b).or(c)` is `a.or(b.or(c))` in another shape, if the parsers only move forward. -/
theorem C98_or_assoc [RewindSequence S] [L : RewindLaw S] [ParseError E₀] [ParseError E₁] [ParseError E₂]
    (p : Parser S O₀ E₀) (q : Parser S O₁ E₁) (r : Parser S O₂ E₂)
    (hp : Descends p.parse) (hq : Descends q.parse) (hp' : Descends p.parseOnce) (hq' : Descends q.parseOnce) :
    (((p.or q).or r).map eitherRight).mapErr bothRight = p.or (q.or r) :=
  Parser.ext' (orStep_assoc hp hq) (orStep_assoc hp' hq')

/-- What both methods of `join` do. -/
private def joinStep (f : S → Run (PResult S O₀ E₀)) (g : S → Run (PResult S O₁ E₁)) (s : S) :
    Run (PResult S (O₀ × O₁) (Either E₀ E₁)) :=
  (Parser.join ⟨f, f⟩ ⟨g, g⟩).parse s

private theorem joinStep_eq (f : S → Run (PResult S O₀ E₀)) (g : S → Run (PResult S O₁ E₁)) (s : S) :
    (∀ v t, f s = pure (.ok v t) →
      (∀ w r, g t = pure (.ok w r) → joinStep f g s = pure (.ok (v, w) r)) ∧
      (∀ e u, g t = pure (.err e u) → joinStep f g s = pure (.err (.last e) u)) ∧
      (∀ x, g t = Run.fault x → joinStep f g s = Run.fault x) ∧
      (g t = Run.diverge → joinStep f g s = Run.diverge)) ∧
    (∀ e u, f s = pure (.err e u) → joinStep f g s = pure (.err (.first e) u)) ∧
    (∀ x, f s = Run.fault x → joinStep f g s = Run.fault x) ∧
    (f s = Run.diverge → joinStep f g s = Run.diverge) := by
  refine ⟨fun v t h => ⟨?_, ?_, ?_, ?_⟩, ?_, ?_, ?_⟩
  · intro w r h'; simp only [joinStep, Parser.join, h, h', Run.pure_bind']; rfl
  · intro w r h'; simp only [joinStep, Parser.join, h, h', Run.pure_bind']
  · intro x h'; simp only [joinStep, Parser.join, h, h', Run.pure_bind']; rfl
  · intro h'; simp only [joinStep, Parser.join, h, h', Run.pure_bind']; rfl
  · intro e u h; simp only [joinStep, Parser.join, h, Run.pure_bind']
  · intro x h; simp only [joinStep, Parser.join, h]; rfl
  · intro h; simp only [joinStep, Parser.join, h]; rfl

/-- A common beginning, taken out. -/
def factor : Either (O × O₀) (O × O₁) → O × Either O₀ O₁
  | .first (a, b) => (a, .first b)
  | .last (a, c) => (a, .last c)

/-- The same for errors. -/
def factorErr : EitherBoth (Either E E₀) (Either E E₁) → Either E (EitherBoth E₀ E₁)
  | .first (.first a) => .first a
  | .first (.last b) => .last (.first b)
  | .last (.first a) => .first a
  | .last (.last c) => .last (.last c)
  | .both (.last b) (.last c) => .last (.both b c)
  | .both (.first a) _ => .first a
  | .both _ (.first a) => .first a

private theorem factor_step [RewindSequence S] [L : RewindLaw S] [ParseError E] [ParseError E₀] [ParseError E₁]
    {f : S → Run (PResult S O E)} {g : S → Run (PResult S O₀ E₀)} {h : S → Run (PResult S O₁ E₁)}
    (hf : Descends f) (hg : Descends g) (s : S) :
    reshape factor factorErr (orStep (joinStep f g) (joinStep f h)) s = joinStep f (orStep g h) s := by
  obtain ⟨r1, r2, r3, r4⟩ := reshape_eq factor factorErr (orStep (joinStep f g) (joinStep f h)) s
  obtain ⟨j1, j2, j3, j4⟩ := joinStep_eq f g s
  obtain ⟨k1, k2, k3, k4⟩ := joinStep_eq f h s
  obtain ⟨l1, l2, l3, l4⟩ := joinStep_eq f (orStep g h) s
  rcases Run.trichotomy (f s) with ⟨a, ha⟩ | ⟨x, ha⟩ | ha
  · cases a with
    | ok v t =>
      obtain ⟨j1, j2, j3, j4⟩ := j1 _ _ ha
      obtain ⟨k1, k2, k3, k4⟩ := k1 _ _ ha
      obtain ⟨l1, l2, l3, l4⟩ := l1 _ _ ha
      rcases Run.trichotomy (g t) with ⟨a, hb⟩ | ⟨x, hb⟩ | hb
      · cases a with
        | ok w t' => rw [l1 _ _ (orStep_ok _ hb), r1 _ _ (orStep_ok _ (j1 _ _ hb))]; rfl
        | err e u =>
          have hr : u.rewind (anchor t) = pure t := L.rewind (hg.err hb)
          have hr' : u.rewind (anchor s) = pure s := L.rewind (L.trans (hf.ok ha) (hg.err hb))
          cases he : shouldTerminate e with
          | true => rw [l2 _ _ (orStep_fatal _ hb he), r2 _ _ (orStep_fatal _ (j2 _ _ hb) he)]; rfl
          | false =>
            obtain ⟨a1, a2, a3, a4, a5⟩ := orStep_miss h hb he hr
            obtain ⟨b1, b2, b3, b4, b5⟩ := orStep_miss (joinStep f h) (j2 _ _ hb) he hr'
            rcases Run.trichotomy (h t) with ⟨a, hc⟩ | ⟨x, hc⟩ | hc
            · cases a with
              | ok w t' => rw [l1 _ _ (a1 _ _ hc), r1 _ _ (b1 _ _ (k1 _ _ hc))]; rfl
              | err e' u' =>
                cases he' : shouldTerminate e' with
                | true => rw [l2 _ _ (a2 _ _ hc he'), r2 _ _ (b2 _ _ (k2 _ _ hc) he')]; rfl
                | false => rw [l2 _ _ (a3 _ _ hc he'), r2 _ _ (b3 _ _ (k2 _ _ hc) he')]; rfl
            · rw [l3 _ (a4 _ hc), r3 _ (b4 _ (k3 _ hc))]
            · rw [l4 (a5 hc), r4 (b5 (k4 hc))]
      · rw [l3 _ ((orStep_bad _).1 _ hb), r3 _ ((orStep_bad _).1 _ (j3 _ hb))]
      · rw [l4 ((orStep_bad _).2 hb), r4 ((orStep_bad _).2 (j4 hb))]
    | err e u =>
      have hr : u.rewind (anchor s) = pure s := L.rewind (hf.err ha)
      cases he : shouldTerminate e with
      | true => rw [l2 _ _ ha, r2 _ _ (orStep_fatal _ (j2 _ _ ha) he)]; rfl
      | false => rw [l2 _ _ ha, r2 _ _ ((orStep_miss _ (j2 _ _ ha) he hr).2.2.1 _ _ (k2 _ _ ha) he)]; rfl
  · rw [l3 _ ha, r3 _ ((orStep_bad _).1 _ (j3 _ ha))]
  · rw [l4 ha, r4 ((orStep_bad _).2 (j4 ha))]

/-- A common beginning can be taken out of two alternatives: `a.join(b).or(a.join(c))` is `a.join(b.or(c))` in another shape. -/
theorem C98_left_factor [RewindSequence S] [L : RewindLaw S] [ParseError E] [ParseError E₀] [ParseError E₁]
    (p : Parser S O E) (q : Parser S O₀ E₀) (r : Parser S O₁ E₁)
    (hp : Descends p.parse) (hq : Descends q.parse) (hp' : Descends p.parseOnce) (hq' : Descends q.parseOnce) :
    (((p.join q).or (p.join r)).map factor).mapErr factorErr = p.join (q.or r) :=
  Parser.ext' (factor_step hp hq) (factor_step hp' hq')

/-- The value of either side. -/
def same : Either O O → O
  | .first v => v
  | .last v => v

/-- The first error there is. -/
def firstErr : EitherBoth E E → E
  | .first e => e
  | .last e => e
  | .both e _ => e

private theorem idem_step [RewindSequence S] [L : RewindLaw S] [ParseError E] {f : S → Run (PResult S O E)}
    (hf : Descends f) (s : S) : reshape same firstErr (orStep f f) s = f s := by
  obtain ⟨r1, r2, r3, r4⟩ := reshape_eq same firstErr (orStep f f) s
  rcases Run.trichotomy (f s) with ⟨a, ha⟩ | ⟨x, ha⟩ | ha
  · cases a with
    | ok v t => rw [r1 _ _ (orStep_ok _ ha), ha]; rfl
    | err e u =>
      have hr : u.rewind (anchor s) = pure s := L.rewind (hf.err ha)
      cases he : shouldTerminate e with
      | true => rw [r2 _ _ (orStep_fatal _ ha he), ha]; rfl
      | false => rw [r2 _ _ ((orStep_miss _ ha he hr).2.2.1 _ _ ha he), ha]; rfl
  · rw [r3 _ ((orStep_bad _).1 _ ha), ha]
  · rw [r4 ((orStep_bad _).2 ha), ha]

/-- Offering the same parser twice is offering it once. -/
theorem C98_or_self [RewindSequence S] [L : RewindLaw S] [ParseError E] (p : Parser S O E)
    (hp : Descends p.parse) (hp' : Descends p.parseOnce) : ((p.or p).map same).mapErr firstErr = p :=
  Parser.ext' (idem_step hp) (idem_step hp')

/-- A parser that always succeeds and reads nothing, as a closure. -/
def nothing : Parser S Unit Never := Parser.ofFn fun s => pure (.ok () s)

/-- The result of an `optional`, without the error. -/
def okOf : Except E O → Either O Unit
  | .ok v => .first v
  | .error _ => .last ()

/-- `p.optional()` is `p.or(nothing)`, but for the error it tells. -/
theorem C98_optional_or [RewindSequence S] [ParseError E] (p : Parser S O E) :
    (p.optional.map okOf).mapErr EitherBoth.first = p.or nothing := by
  apply Parser.ext' <;> intro s <;> simp only [Parser.or, Parser.map, Parser.mapErr, Parser.optional, nothing, Parser.ofFn]
  · on_run p.parse s
    case ret a =>
    cases a with
    | ok => rfl
    | err e u =>
    simp only [Run.ret_bind, Run.pure_bind']
    cases shouldTerminate e
    · simp
      on_run u.rewind (anchor s)
    · rfl
  · on_run p.parseOnce s
    case ret a =>
    cases a with
    | ok => rfl
    | err e u =>
    simp only [Run.ret_bind, Run.pure_bind']
    cases shouldTerminate e
    · simp
      on_run u.rewind (anchor s)
    · rfl

/-! ## repeat -/

/-- More values in front. -/
def prepend (pre : List O) : List O × E → List O × E
  | (vs, e) => (pre ++ vs, e)

private def shift (pre : List O) (x : Run (PResult S (List O × E) E)) : Run (PResult S (List O × E) E) := do
  match ← x with
  | .ok v r => return .ok (prepend pre v) r
  | .err e r => return .err e r

private theorem repeatLoop_shift [RewindSequence S] [ParseError E] (f : S → Run (PResult S O E)) (pre buf : List O) (s : S)
    (h : repeatLoop f buf s ≠ Run.diverge) : repeatLoop f (pre ++ buf) s = shift pre (repeatLoop f buf s) := by
  revert h
  refine repeatLoop.fixpoint_induct (parse := f)
    (motive := fun g => ∀ buf s, g buf s ≠ Run.diverge → repeatLoop f (pre ++ buf) s = shift pre (g buf s))
    (Run.admissible_fun₂ (fun buf s x => x ≠ Run.diverge → repeatLoop f (pre ++ buf) s = shift pre x) fun _ _ h => absurd rfl h)
    ?_ buf s
  intro g ih buf s h
  dsimp only at h ⊢
  rw [repeatLoop]
  rcases Run.trichotomy (f s) with ⟨a, ha⟩ | ⟨x, ha⟩ | ha
  · rw [ha] at h ⊢
    cases a with
    | ok v t =>
      simp only [Run.ret_bind] at h ⊢
      rw [List.append_assoc]
      exact ih _ _ h
    | err e u =>
      simp only [Run.ret_bind] at h ⊢
      cases shouldTerminate e
      · simp only [Bool.false_eq_true, if_false]
        on_run u.rewind (anchor s)
      · rfl
  · rw [ha]; rfl
  · rw [ha] at h; exact absurd rfl h

private theorem repeatLoop_diverge [RewindSequence S] [ParseError E] (f : S → Run (PResult S O E)) (buf buf' : List O) (s : S)
    (h : repeatLoop f buf s ≠ Run.diverge) : repeatLoop f buf' s ≠ Run.diverge := by
  revert buf' h
  refine repeatLoop.fixpoint_induct (parse := f)
    (motive := fun g => ∀ buf s, ∀ buf', g buf s ≠ Run.diverge → repeatLoop f buf' s ≠ Run.diverge)
    (Run.admissible_fun₂ (fun buf s x => ∀ buf', x ≠ Run.diverge → repeatLoop f buf' s ≠ Run.diverge) fun _ _ _ h => absurd rfl h)
    ?_ buf s
  intro g ih buf s buf' h
  dsimp only at h ⊢
  rw [repeatLoop]
  rcases Run.trichotomy (f s) with ⟨a, ha⟩ | ⟨x, ha⟩ | ha
  · rw [ha] at h ⊢
    cases a with
    | ok v t =>
      simp only [Run.ret_bind] at h ⊢
      exact ih _ _ _ h
    | err e u =>
      simp only [Run.ret_bind] at h ⊢
      cases he : shouldTerminate e
      · simp only [he, Bool.false_eq_true, if_false] at h ⊢
        revert h
        on_run u.rewind (anchor s)
        case ret a => intro _ hc; cases hc
        case fault x => intro _ hc; cases hc
        case diverge => intro hc; exact hc
      · simp only [if_true]; intro hc; cases hc
  · rw [ha]; intro hc; cases hc
  · rw [ha] at h; exact absurd rfl h

/-- Once the body has succeeded, the rest of a `repeat` is a `repeat`, with one value in front. -/
theorem C98_repeat_cons [RewindSequence S] [ParseError E] (p : Parser S O E) {s t : S} {v : O} (h : p.parse s = pure (.ok v t)) :
    p.repeat.parse s = (p.repeat.map (prepend [v])).parse t := by
  have hm : (p.repeat.map (prepend [v])).parse t = shift [v] (repeatLoop p.parse [] t) := by
    simp only [Parser.map, Parser.repeat, shift]
    on_run repeatLoop p.parse [] t
    case ret a => cases a <;> rfl
  rw [hm]
  show repeatLoop p.parse [] s = _
  rw [repeatLoop, h]
  simp only [Run.pure_bind']
  by_cases hd : repeatLoop p.parse [] t = Run.diverge
  · rw [hd]
    by_cases hc : repeatLoop p.parse ([] ++ [v]) t = Run.diverge
    · exact hc
    · exact absurd hd (repeatLoop_diverge _ _ _ _ hc)
  · exact repeatLoop_shift p.parse [v] [] t hd

/-! ## What does not hold -/

/-- A common end cannot be taken out: `(a | ab) c` rejects `abc`, which `ac | abc` accepts. -/
theorem C98_no_right_factor : ∃ (p q r : Parser StrRef Unit (Miss Unit)) (s : StrRef),
    (∃ e u, ((p.or q).join r).parse s = pure (.err e u)) ∧ (∃ v t, ((p.join r).or (q.join r)).parse s = pure (.ok v t)) := by
  let s : StrRef := { alloc := 0, off := 0, text := ⟨['a', 'b', 'c']⟩ }
  let s₁ : StrRef := { alloc := 0, off := 1, text := ⟨['b', 'c']⟩ }
  let s₂ : StrRef := { alloc := 0, off := 2, text := ⟨['c']⟩ }
  let s₃ : StrRef := { alloc := 0, off := 3, text := ⟨[]⟩ }
  have h1 : (atom (⟨['a']⟩ : Str)).parse s = pure (.ok () s₁) := (atom_str ⟨['a']⟩ s).1 ['b', 'c'] rfl
  have h2 : (atom (⟨['a', 'b']⟩ : Str)).parse s = pure (.ok () s₂) := (atom_str ⟨['a', 'b']⟩ s).1 ['c'] rfl
  have h3 : (atom (⟨['c']⟩ : Str)).parse s₂ = pure (.ok () s₃) := (atom_str ⟨['c']⟩ s₂).1 [] rfl
  have h4 : (atom (⟨['c']⟩ : Str)).parse s₁ = pure (.err ⟨()⟩ ⟨s₁⟩) := by
    refine (atom_str ⟨['c']⟩ s₁).2.1 ?_ (.inl ⟨['b'], ⟨['c'], rfl⟩, rfl⟩)
    rintro ⟨q, hq⟩
    cases hq
  have h5 : (⟨s₁⟩ : UnknownLocation StrRef).rewind (anchor s) = pure s := rfl
  refine ⟨atom ⟨['a']⟩, atom ⟨['a', 'b']⟩, atom ⟨['c']⟩, s, ?_, ?_⟩
  · refine ⟨.last ⟨()⟩, ⟨s₁⟩, ?_⟩
    exact ((joinStep_eq (orStep (atom ⟨['a']⟩).parse (atom ⟨['a', 'b']⟩).parse) (atom ⟨['c']⟩).parse s).1 _ _ (orStep_ok _ h1)).2.1 _ _ h4
  · refine ⟨.last ((), ()), s₃, ?_⟩
    exact (orStep_miss (joinStep (atom ⟨['a', 'b']⟩).parse (atom ⟨['c']⟩).parse)
      (((joinStep_eq (atom ⟨['a']⟩).parse (atom ⟨['c']⟩).parse s).1 _ _ h1).2.1 _ _ h4) rfl h5).1 _ _
      (((joinStep_eq (atom ⟨['a', 'b']⟩).parse (atom ⟨['c']⟩).parse s).1 _ _ h2).1 _ _ h3)

/-- Non-vacuity: three letters as alternatives only move forward; one that is fatal keeps its class under `map_err`. -/
example : (((theChar (S := StrRef) 'a').or (theChar 'b')).or (theChar 'c') |>.map eitherRight |>.mapErr bothRight) =
    (theChar 'a').or ((theChar 'b').or (theChar 'c')) :=
  have h (c : Char) := (tidy_iff.mp (tidy_theChar (S := StrRef) c))
  C98_or_assoc _ _ _ (h _).1 (h _).1 (h _).1 (h _).1
example : ∀ e : Fatal Nat, shouldTerminate (Fatal.mk (e.val + 1)) = shouldTerminate e := fun _ => rfl

end Parcom
