import Verif.Model.BinExprVec
import Verif.Lemmas.ShortVec
import Verif.Lemmas.Run
import Verif.Spec.Grouping
/-!
# The stack of `bin_expr` behaves like the list it stands for
-/
namespace Parcom
open Spec

namespace Run
variable {A A' B B' : Type}

/-- `x` does what `y` does, up to `Q`, or stops with one of the faults `F`. With `dx` (`dy`) it is also allowed that `x`
(`y`) never returns. -/
def Tracks (dx dy : Prop) (Q : A → B → Prop) (F : Fault → Prop) (x : Run A) (y : Run B) : Prop :=
  (x = diverge ∧ (dx ∨ y = diverge)) ∨ (y = diverge ∧ dy) ∨ (∃ f, x = fault f ∧ F f) ∨
    (∃ f, x = fault f ∧ y = fault f) ∨ ∃ a b, x = pure a ∧ y = pure b ∧ Q a b

variable {dx dy : Prop} {Q : A → B → Prop} {Q' : A' → B' → Prop} {F : Fault → Prop}

theorem tracks_pure {a : A} {b : B} (h : Q a b) : Tracks dx dy Q F (pure a) (pure b) :=
  .inr (.inr (.inr (.inr ⟨a, b, rfl, rfl, h⟩)))
theorem tracks_out {f : Fault} {y : Run B} (h : F f) : Tracks dx dy Q F (fault f) y := .inr (.inr (.inl ⟨f, rfl, h⟩))
theorem tracks_fault {f : Fault} : Tracks dx dy Q F (fault f) (fault f) := .inr (.inr (.inr (.inl ⟨f, rfl, rfl⟩)))

theorem tracks_bind {x : Run A} {y : Run B} {k : A → Run A'} {l : B → Run B'} (h : Tracks dx dy Q F x y)
    (hk : ∀ a b, Q a b → Tracks dx dy Q' F (k a) (l b)) : Tracks dx dy Q' F (x >>= k) (y >>= l) := by
  rcases h with ⟨rfl, h⟩ | ⟨rfl, h⟩ | ⟨f, rfl, h⟩ | ⟨f, rfl, rfl⟩ | ⟨a, b, rfl, rfl, h⟩
  · refine .inl ⟨by simp, ?_⟩
    rcases h with h | rfl
    · exact .inl h
    · exact .inr (by simp)
  · exact .inr (.inl ⟨by simp, h⟩)
  · exact .inr (.inr (.inl ⟨f, by simp, h⟩))
  · exact .inr (.inr (.inr (.inl ⟨f, by simp, by simp⟩)))
  · simpa using hk a b h

theorem tracks_same {C : Type} {x : Run C} {k : C → Run A} {l : C → Run B}
    (hk : ∀ c, x = pure c → Tracks dx dy Q F (k c) (l c)) : Tracks dx dy Q F (x >>= k) (x >>= l) := by
  cases x using casesRun with
  | ret a => simpa using hk a rfl
  | fault e => exact tracks_fault
  | diverge => exact .inl ⟨rfl, .inr rfl⟩

theorem tracks_ite {c : Prop} [Decidable c] {x x' : Run A} {y y' : Run B} (h1 : c → Tracks dx dy Q F x y)
    (h2 : ¬ c → Tracks dx dy Q F x' y') : Tracks dx dy Q F (if c then x else x') (if c then y else y') := by
  by_cases h : c
  · rw [if_pos h, if_pos h]; exact h1 h
  · rw [if_neg h, if_neg h]; exact h2 h

theorem tracks_weaken {x : Run A} {y : Run B} (h : Tracks False False Q F x y) : Tracks dx dy Q F x y := by
  rcases h with ⟨h1, h | h⟩ | ⟨-, h⟩ | h | h | h
  · exact h.elim
  · exact .inl ⟨h1, .inr h⟩
  · exact h.elim
  · exact .inr (.inr (.inl h))
  · exact .inr (.inr (.inr (.inl h)))
  · exact .inr (.inr (.inr (.inr h)))

theorem tracks_merge {x : Run A} {y : Run B} (h : Tracks True False Q F x y) (h' : Tracks False True Q F x y) :
    Tracks False False Q F x y := by
  rcases h' with ⟨h1, h2⟩ | ⟨h1, -⟩ | h' | h' | h'
  · exact .inl ⟨h1, h2⟩
  · rcases h with ⟨h2, -⟩ | ⟨-, h2⟩ | h | ⟨f, -, h2⟩ | ⟨a, b, -, h2, -⟩
    · exact .inl ⟨h2, .inr h1⟩
    · exact h2.elim
    · exact .inr (.inr (.inl h))
    · rw [h1] at h2; simp at h2
    · rw [h1] at h2; simp at h2
  · exact .inr (.inr (.inl h'))
  · exact .inr (.inr (.inr (.inl h')))
  · exact .inr (.inr (.inr (.inr h')))

end Run

variable {S T Op EOp ETerm Expr α β : Type} {ty : Ty} {b : Build}

/-- There is no memory for `2 * m` elements. -/
def OutOfMemory (ty : Ty) (grants : Nat → Bool) (m : Nat) (f : Fault) : Prop :=
  (f = .abort ∧ ∃ k, grants k = false) ∨ (f = .assertion ∧ ¬ allocatable ty (2 * m))

theorem OutOfMemory.mono {grants : Nat → Bool} {m m' : Nat} {f : Fault} (h : OutOfMemory ty grants m f) (hm : m ≤ m') :
    OutOfMemory ty grants m' f := by
  rcases h with h | ⟨h1, h2⟩
  · exact .inl h
  · refine .inr ⟨h1, fun h3 => h2 ⟨?_, ?_⟩⟩
    · have := h3.1; omega
    · exact Nat.le_trans (Nat.mul_le_mul_left _ (by omega)) h3.2

theorem exec_pop {w : World α} {l : List α} (h : VecRel ty w.mem w.vec l) (hf : Fresh w.mem) :
    ∃ w', w.exec (pop ty) = pure (l.getLast?, w') ∧ VecRel ty w'.mem w'.vec l.dropLast ∧ Frame w w' ∧ w'.mem = w.mem := by
  obtain ⟨w', h1, h2⟩ := pop_rel h hf
  exact ⟨w', by simp [World.exec, h1], h2⟩

theorem exec_push {w : World α} {l : List α} (h : VecRel ty w.mem w.vec l) (hf : Fresh w.mem) (item : α)
    (hn : w.vec.n = 4) (hz : 0 < ty.size ∨ l.length < 4) :
    (∃ w', w.exec (push b ty item) = pure ((), w') ∧ VecRel ty w'.mem w'.vec (l ++ [item]) ∧ Frame w w' ∧
        w'.mem.dropped = w.mem.dropped ∧ (l.length < 4 → w'.mem.requests = w.mem.requests)) ∨
      ∃ f, w.exec (push b ty item) = Run.fault f ∧ OutOfMemory ty w.mem.grants l.length f ∧ 4 ≤ l.length := by
  have hcap := h.n_le
  have hle := h.len_le
  have hlen := h.len
  have hz' : 0 < ty.size ∨ l.length < w.vec.cap := by
    rcases hz with hz | hz
    · exact .inl hz
    · exact .inr (by omega)
  obtain ⟨⟨w', h1, h2, h3, h4, h5⟩ | ⟨h1, h2⟩ | ⟨w', h1, h2, h3⟩, h6⟩ := push_rel (b := b) h hf item hz'
  · exact .inl ⟨w', by simp [World.exec, h1], h2, h3, h4, fun h => (h5 (by omega)).1⟩
  · refine .inr ⟨.assertion, by simp [World.exec, h1], .inr ⟨rfl, fun h7 => ?_⟩, by omega⟩
    have hm : max (2 * w.vec.cap) (l.length + 1) = 2 * l.length := by omega
    rw [hm] at h6
    exact h6 h7.1 h7.2 _ h1
  · exact .inr ⟨.abort, by simp [World.exec, h1], .inl ⟨rfl, _, h2⟩, by omega⟩

/-- The inner loop. -/
theorem reduceForVec_tracks [Operator Op] (mk : Expr → Op → Expr → Expr) (op : Op) (term : Expr) {small : Prop}
    {F : Fault → Prop} (hz : 0 < ty.size ∨ small) (grants : Nat → Bool) (st : List (Expr × Op)) :
    ∀ (w : World (Expr × Op)) (rhs : Expr), VecRel ty w.mem w.vec st.reverse → Fresh w.mem → w.vec.n = 4 →
      w.mem.grants = grants → (∀ f m, m ≤ st.length → ¬ small → OutOfMemory ty grants m f → F f) →
      (small → (reduceFor b mk op term st rhs).Ensures fun res => res.1.length ≤ 4) →
      Run.Tracks False False (fun a c => a.2 = c.2 ∧ VecRel ty a.1.mem a.1.vec c.1.reverse ∧ Frame w a.1 ∧
          a.1.mem.dropped = w.mem.dropped ∧ (small → a.1.mem.requests = w.mem.requests)) F
        (reduceForVec b ty mk op term w rhs) (reduceFor b mk op term st rhs) := by
  induction st with
  | nil =>
    intro w rhs hv hf hn hg hF hs
    rw [reduceForVec, reduceFor]
    obtain ⟨w₁, h1, h2, h3, h4⟩ := exec_pop hv hf
    rw [h1]
    simp only [List.reverse_nil, List.getLast?_nil, Run.pure_bind']
    rcases exec_push (b := b) h2 h3.fresh (rhs, op) (h3.sameN.trans hn) (.inr (by simp)) with
      ⟨w₂, h5, h6, h7, h8, h9⟩ | ⟨f, -, -, h6⟩
    · rw [h5, Run.pure_bind']
      refine Run.tracks_pure ⟨rfl, by simpa using h6, h3.trans h7, by rw [h8, h4], fun _ => ?_⟩
      rw [h9 (by simp), h4]
    · simp at h6
  | cons p st ih =>
    intro w rhs hv hf hn hg hF hs
    obtain ⟨lhs, lastOp⟩ := p
    rw [reduceForVec, reduceFor]
    obtain ⟨w₁, h1, h2, h3, h4⟩ := exec_pop hv hf
    rw [h1]
    have hl : ((lhs, lastOp) :: st).reverse.getLast? = some (lhs, lastOp) := by simp
    have hd : ((lhs, lastOp) :: st).reverse.dropLast = st.reverse := by simp
    rw [hd] at h2
    simp only [hl, Run.pure_bind']
    have hg1 : w₁.mem.grants = grants := by rw [h4, hg]
    refine Run.tracks_same fun prec hprec => ?_
    have hs' : small → (if precedence op ≥ prec then pure ((rhs, op) :: (lhs, lastOp) :: st, term)
        else reduceFor b mk op term st (mk lhs lastOp rhs) : Run _).Ensures fun res => res.1.length ≤ 4 := by
      intro hsm
      have := hs hsm
      rw [reduceFor, hprec, Run.pure_bind'] at this
      exact this
    by_cases hp : precedence op ≥ prec
    · rw [if_pos hp, if_pos hp]
      rw [if_pos hp] at hs'
      have hs2 : small → st.length + 2 ≤ 4 := fun h => by simpa [Run.ensures_pure] using hs' h
      rcases exec_push (b := b) h2 h3.fresh (lhs, lastOp) (h3.sameN.trans hn)
        (by rcases hz with hz | hz
            · exact .inl hz
            · have := hs2 hz; exact .inr (by simp; omega)) with ⟨w₂, h5, h6, h7, h8, h9⟩ | ⟨f, h5, h6, h7⟩
      · rw [h5, Run.pure_bind']
        have hg2 : w₂.mem.grants = grants := by rw [h7.grants, hg1]
        rcases exec_push (b := b) h6 h7.fresh (rhs, op) (h7.sameN.trans (h3.sameN.trans hn))
          (by rcases hz with hz | hz
              · exact .inl hz
              · have := hs2 hz; exact .inr (by simp; omega)) with ⟨w₃, h10, h11, h12, h13, h14⟩ | ⟨f, h10, h11, h12⟩
        · simp only [h10, Run.pure_bind']
          refine Run.tracks_pure ⟨rfl, by simpa using h11, (h3.trans h7).trans h12, by rw [h13, h8, h4], fun h => ?_⟩
          have := hs2 h
          rw [h14 (by simp; omega), h9 (by simp; omega), h4]
        · simp only [h10, Run.fault_bind]
          refine Run.tracks_out (hF f _ ?_ ?_ (hg2 ▸ h11))
          · simp
          · intro h; have := hs2 h; simp at h12; omega
      · rw [h5, Run.fault_bind]
        refine Run.tracks_out (hF f _ ?_ ?_ (hg1 ▸ h6))
        · simp
        · intro h; have := hs2 h; simp at h7; omega
    · rw [if_neg hp, if_neg hp]
      rw [if_neg hp] at hs'
      have := ih w₁ (mk lhs lastOp rhs) h2 h3.fresh (h3.sameN.trans hn) hg1
        (fun f m hm => hF f m (by simp; omega)) hs'
      rcases this with h | h | h | h | ⟨a, c, h5, h6, h7, h8, h9, h10, h11⟩
      · exact .inl h
      · exact .inr (.inl h)
      · exact .inr (.inr (.inl h))
      · exact .inr (.inr (.inr (.inl h)))
      · exact .inr (.inr (.inr (.inr ⟨a, c, h5, h6, h7, h8, h3.trans h9, by rw [h10, h4],
          fun h => by rw [h11 h, h4]⟩)))

/-- The loop at the end. -/
theorem reduceAllVec_eq (mk : Expr → Op → Expr → Expr) (st : List (Expr × Op)) :
    ∀ (w : World (Expr × Op)) (rhs : Expr), VecRel ty w.mem w.vec st.reverse → Fresh w.mem →
      ∃ w', reduceAllVec ty mk w rhs = pure (w', reduceAll mk st rhs) ∧ VecRel ty w'.mem w'.vec [] ∧ Frame w w' ∧
        w'.mem = w.mem := by
  induction st with
  | nil =>
    intro w rhs hv hf
    obtain ⟨w₁, h1, h2, h3, h4⟩ := exec_pop hv hf
    rw [reduceAllVec, h1]
    exact ⟨w₁, rfl, h2, h3, h4⟩
  | cons p st ih =>
    intro w rhs hv hf
    obtain ⟨w₁, h1, h2, h3, h4⟩ := exec_pop hv hf
    rw [reduceAllVec, h1]
    have hl : (p :: st).reverse.getLast? = some p := by simp
    have hd : (p :: st).reverse.dropLast = st.reverse := by simp
    rw [hd] at h2
    simp only [hl, Run.pure_bind']
    obtain ⟨w₂, h5, h6, h7, h8⟩ := ih w₁ (mk p.1 p.2 rhs) h2 h3.fresh
    exact ⟨w₂, h5, h6, h3.trans h7, h8.trans h4⟩

/-- What the memory is like when the stack is gone. -/
structure Restored (mem mem' : Mem α) (l : List α) : Prop where
  blocks : ∀ q, mem'.blocks q = mem.blocks q
  fresh : Fresh mem'
  grants : mem'.grants = mem.grants
  dropped : mem'.dropped = mem.dropped ++ l

theorem exec_drop {w₀ w : World α} {l : List α} (h : VecRel ty w.mem w.vec l) (hb : w₀.vec.block = none)
    (hf : Fresh w₀.mem) (fr : Frame w₀ w) (hd : w.mem.dropped = w₀.mem.dropped) :
    ∃ w', w.exec (dropVec ty) = pure ((), w') ∧ Restored w₀.mem w'.mem l ∧ w'.mem.requests = w.mem.requests := by
  obtain ⟨w', h1, h2, h3, h4, h5, h6, h7⟩ := dropVec_rel h
  have hblk : ∀ q, w'.mem.blocks q = w₀.mem.blocks q := by
    intro q
    by_cases hq : w.vec.block = some q
    · rw [h7 q hq]
      rcases fr.owns with h8 | ⟨r, h8, h9⟩
      · rw [h8, hb] at hq; simp at hq
      · rw [h8] at hq; simp at hq; subst hq
        exact (hf _ h9).symm
    · rw [h6 q hq]
      by_cases hlt : q < w₀.mem.next
      · exact fr.others q (by simp [hb]) hlt
      · rw [hf q (by omega)]
        refine Classical.byContradiction fun hne => ?_
        rcases fr.live q hne with h8 | ⟨-, h8⟩
        · exact hq h8
        · exact h8 (hf q (by omega))
  refine ⟨w', by simp [World.exec, h1], ⟨hblk, ?_, h5.trans fr.grants, by rw [h2, hd]⟩, h3⟩
  intro q hq
  rw [h4] at hq
  rw [hblk]
  exact hf q (Nat.le_trans fr.le hq)

theorem _root_.Parcom.Spec.Chain.snoc {term : S → Run (PResult S T ETerm)} {op : S → Run (PResult S Op EOp)} {s s₁ r t : S}
    {ps : List (Op × T)} {o : Op} {v : T} (h : Chain term op s ps s₁) (h1 : op s₁ = pure (.ok o r))
    (h2 : term r = pure (.ok v t)) : Chain term op s (ps ++ [(o, v)]) t := by
  induction h with
  | nil s => exact .cons h1 h2 (.nil _)
  | cons h3 h4 _ ih => exact .cons h3 h4 (ih h1)

theorem reduceFor_returns [Operator Op] (b : Build) (mk : Expr → Op → Expr → Expr) (op : Op) (term : Expr)
    (st : List (Expr × Op)) (rhs : Expr) : reduceFor b mk op term st rhs ≠ Run.diverge := by
  induction st generalizing rhs with
  | nil => simp [reduceFor]
  | cons p st ih =>
    rw [reduceFor]
    cases h : nextPrecedence b p.2 using Run.casesRun with
    | ret prec =>
      rw [Run.ret_bind]
      by_cases hp : precedence op ≥ prec
      · rw [if_pos hp]; simp
      · rw [if_neg hp]; exact ih _
    | fault e => simp
    | diverge =>
      exfalso
      revert h
      unfold nextPrecedence usizeAdd
      cases associativity p.2 <;> cases b <;> simp <;> split <;> simp

theorem reduceFor_length [Operator Op] (b : Build) (mk : Expr → Op → Expr → Expr) (op : Op) (term : Expr)
    (st : List (Expr × Op)) (rhs : Expr) :
    (reduceFor b mk op term st rhs).Ensures fun res => res.1.length ≤ st.length + 1 := by
  induction st generalizing rhs with
  | nil => exact Run.ensures_pure.mpr (by simp)
  | cons p st ih =>
    refine Run.ensures_bind fun prec _ => Run.ensures_ite (fun _ => Run.ensures_pure.mpr (by simp)) fun _ => ?_
    intro res hres
    have := ih _ res hres
    simp only [List.length_cons] at this ⊢
    omega

section
variable [RewindSequence S] {term : S → Run (PResult S T ETerm)} {op : S → Run (PResult S Op EOp)}
  (mk : Expr → Op → Expr → Expr) (ofTerm : T → Expr) {prec : Nat}

/-- Results agree and the memory is as before. On failure what is left on the stack has been dropped. -/
def Agrees (small : Prop) (mem : Mem (Expr × Op)) (J : List (Expr × Op) → Prop)
    (a : PResult S (Expr × StopReason S Op EOp ETerm) (Either EOp ETerm) × Mem (Expr × Op))
    (c : PResult S (Expr × StopReason S Op EOp ETerm) (Either EOp ETerm)) : Prop :=
  a.1 = c ∧ (small → a.2.requests = mem.requests) ∧
    match c with
    | .ok _ _ => Restored mem a.2 []
    | .err _ _ => ∃ st, J st ∧ Restored mem a.2 st.reverse

/-- The state of the loops: the vector holds the list. -/
structure Holds (ty : Ty) (small : Prop) (w₀ w : World (Expr × Op)) (st : List (Expr × Op)) : Prop where
  rel : VecRel ty w.mem w.vec st.reverse
  frame : Frame w₀ w
  dropped : w.mem.dropped = w₀.mem.dropped
  requests : small → w.mem.requests = w₀.mem.requests

variable {dx dy : Prop} {small : Prop} {F : Fault → Prop} {w₀ w : World (Expr × Op)} {st : List (Expr × Op)}

theorem finishVec_tracks {J : List (Expr × Op) → Prop} (hb : w₀.vec.block = none) (hf : Fresh w₀.mem)
    (h : Holds ty small w₀ w st) (rhs : Expr) (reason : StopReason S Op EOp ETerm) (rest : S) :
    Run.Tracks dx dy (Agrees small w₀.mem J) F (finishVec ty mk w rhs reason rest)
      (pure (done (reduceAll mk st rhs, reason) rest)) := by
  obtain ⟨w₁, h1, h2, h3, h4⟩ := reduceAllVec_eq mk st w rhs h.rel h.frame.fresh
  obtain ⟨w₂, h5, h6, h7⟩ := exec_drop h2 hb hf (h.frame.trans h3) (by rw [h4, h.dropped])
  unfold finishVec
  rw [h1, Run.pure_bind']
  simp only [h5, Run.pure_bind']
  exact Run.tracks_pure ⟨rfl, fun hs => by rw [h7, h4, h.requests hs], h6⟩

theorem leaveVec_tracks {J : List (Expr × Op) → Prop} (hb : w₀.vec.block = none) (hf : Fresh w₀.mem)
    (h : Holds ty small w₀ w st) (hJ : J st) (e : Either EOp ETerm) (r : UnknownLocation S) :
    Run.Tracks dx dy (Agrees small w₀.mem J) F (leaveVec (Expr := Expr) ty w e r) (pure (fail e r)) := by
  obtain ⟨w₂, h5, h6, h7⟩ := exec_drop h.rel hb hf h.frame h.dropped
  unfold leaveVec
  simp only [h5, Run.pure_bind']
  exact Run.tracks_pure ⟨rfl, fun hs => by rw [h7, h.requests hs], st, hJ, h6⟩

variable [Operator Op] [ParseError EOp] [ParseError ETerm]

/-- What is known about the loops: a property of the stack, the operand, the pairs read and the place that each turn
keeps, the bound it gives, and the faults allowed for want of memory. -/
structure Known (b : Build) (ty : Ty) (term : S → Run (PResult S T ETerm)) (op : S → Run (PResult S Op EOp))
    (mk : Expr → Op → Expr → Expr) (ofTerm : T → Expr) (small : Prop) (F : Fault → Prop) (grants : Nat → Bool)
    (I : List (Expr × Op) → Expr → List (Op × T) → S → Prop) : Prop where
  size : 0 < ty.size ∨ small
  turn : ∀ st rhs ps s o r t s', I st rhs ps s → op s = pure (.ok o r) → term r = pure (.ok t s') →
    (reduceFor b mk o (ofTerm t) st rhs).Ensures fun res => I res.1 res.2 (ps ++ [(o, t)]) s'
  bound : small → ∀ st rhs ps s, I st rhs ps s → st.length ≤ 4
  out : ∀ f st rhs ps s, I st rhs ps s → ¬ small → OutOfMemory ty grants st.length f → F f

variable {I : List (Expr × Op) → Expr → List (Op × T) → S → Prop}

/-- One turn of the outer loop, whatever the loops are. -/
theorem body_tracks (hb : w₀.vec.block = none) (hf : Fresh w₀.mem) (hn : w₀.vec.n = 4)
    (K : Known b ty term op mk ofTerm small F w₀.mem.grants I) {J : List (Expr × Op) → Prop}
    (hJ : ∀ st rhs ps s, I st rhs ps s → (∃ e u, Breaks term op s e u) → J st)
    (g : World (Expr × Op) → Expr → S → Run (PResult S (Expr × StopReason S Op EOp ETerm) (Either EOp ETerm) × Mem (Expr × Op)))
    (h : List (Expr × Op) → Expr → S → Run (PResult S (Expr × StopReason S Op EOp ETerm) (Either EOp ETerm)))
    (ih : ∀ w st rhs s ps, Holds ty small w₀ w st → I st rhs ps s →
      Run.Tracks dx dy (Agrees small w₀.mem J) F (g w rhs s) (h st rhs s))
    (w : World (Expr × Op)) (st : List (Expr × Op)) (rhs : Expr) (rest : S) (ps : List (Op × T))
    (hw : Holds ty small w₀ w st) (hi : I st rhs ps rest) :
    Run.Tracks dx dy (Agrees small w₀.mem J) F
      (do
        let anchor := anchor rest
        match ← op rest with
        | .ok o r =>
          if precedence o ≥ prec then
            match ← term r with
            | .ok t r =>
              let (w, rhs) ← reduceForVec b ty mk o (ofTerm t) w rhs
              g w rhs r
            | .err e r =>
              if ¬ shouldTerminate e then
                let rest ← r.rewind anchor
                finishVec ty mk w rhs (.error (.last e)) rest
              else leaveVec ty w (.last e) r
          else finishVec ty mk w rhs (.ok (o, anchor)) r
        | .err e r =>
          if shouldTerminate e then leaveVec ty w (.first e) r
          else
            let rest ← r.rewind anchor
            finishVec ty mk w rhs (.error (.first e)) rest)
      (do
        let anchor := anchor rest
        match ← op rest with
        | .ok o r =>
          if precedence o ≥ prec then
            match ← term r with
            | .ok t r =>
              let (stack, rhs) ← reduceFor b mk o (ofTerm t) st rhs
              h stack rhs r
            | .err e r =>
              if ¬ shouldTerminate e then
                let rest ← r.rewind anchor
                return done (reduceAll mk st rhs, .error (.last e)) rest
              else return fail (.last e) r
          else return done (reduceAll mk st rhs, .ok (o, anchor)) r
        | .err e r =>
          if shouldTerminate e then return fail (.first e) r
          else
            let rest ← r.rewind anchor
            return done (reduceAll mk st rhs, .error (.first e)) rest) := by
  refine Run.tracks_same fun res hop => ?_
  cases res with
  | ok o r =>
    refine Run.tracks_ite (fun _ => ?_) (fun _ => finishVec_tracks mk hb hf hw rhs _ r)
    refine Run.tracks_same fun res hterm => ?_
    cases res with
    | ok t r' =>
      have hfor := reduceForVec_tracks (ty := ty) (b := b) mk o (ofTerm t) (F := F) K.size w₀.mem.grants st w rhs hw.rel
        hw.frame.fresh (hw.frame.sameN.trans hn) hw.frame.grants
        (fun f m hm hs ho => K.out f st rhs ps rest hi hs (ho.mono hm))
        (fun hs res hres => K.bound hs _ _ _ _ (K.turn st rhs ps rest o r t r' hi hop hterm res hres))
      rcases hfor with ⟨-, h' | h'⟩ | ⟨-, h'⟩ | ⟨f, h1, h2⟩ | ⟨f, h1, h2⟩ | ⟨⟨w', e⟩, ⟨st', e'⟩, h1, h2, h3, h4, h5, h6, h7⟩
      · exact h'.elim
      · exact absurd h' (reduceFor_returns b mk o _ _ _)
      · exact h'.elim
      · simp only [h1, Run.fault_bind]; exact Run.tracks_out h2
      · simp only [h1, h2, Run.fault_bind]; exact Run.tracks_fault
      · simp only [h1, h2, Run.pure_bind']
        simp only at h3 h4 h5 h6 h7
        subst h3
        exact ih w' st' e r' (ps ++ [(o, t)]) ⟨h4, hw.frame.trans h5, by rw [h6, hw.dropped],
          fun hs => by rw [h7 hs, hw.requests hs]⟩ (K.turn st rhs ps rest o r t r' hi hop hterm _ h2)
    | err e u =>
      refine Run.tracks_ite (fun _ => Run.tracks_same fun rest' _ => ?_) (fun he => ?_)
      · exact finishVec_tracks mk hb hf hw rhs _ rest'
      · exact leaveVec_tracks hb hf hw (hJ _ _ _ _ hi ⟨_, u, .term hop hterm (by simpa using he)⟩) _ _
  | err e u =>
    refine Run.tracks_ite (fun he => ?_) (fun _ => Run.tracks_same fun rest' _ => ?_)
    · exact leaveVec_tracks hb hf hw (hJ _ _ _ _ hi ⟨_, u, .op hop he⟩) _ _
    · exact finishVec_tracks mk hb hf hw rhs _ rest'

/-- The outer loop. -/
theorem loop_tracks (hb : w₀.vec.block = none) (hf : Fresh w₀.mem) (hn : w₀.vec.n = 4)
    (K : Known b ty term op mk ofTerm small F w₀.mem.grants I) {J : List (Expr × Op) → Prop}
    (hJ : ∀ st rhs ps s, I st rhs ps s → (∃ e u, Breaks term op s e u) → J st)
    (w : World (Expr × Op)) (st : List (Expr × Op)) (rhs : Expr) (s : S) (ps : List (Op × T))
    (hw : Holds ty small w₀ w st) (hi : I st rhs ps s) :
    Run.Tracks False False (Agrees small w₀.mem J) F (binExprLoopVec b ty term op mk ofTerm prec w rhs s)
      (binExprLoop b term op mk ofTerm prec st rhs s) := by
  refine Run.tracks_merge ?_ ?_
  · suffices H : ∀ w rhs s st ps, Holds ty small w₀ w st → I st rhs ps s →
        Run.Tracks True False (Agrees small w₀.mem J) F (binExprLoopVec b ty term op mk ofTerm prec w rhs s)
          (binExprLoop b term op mk ofTerm prec st rhs s) from H w rhs s st ps hw hi
    refine binExprLoopVec.fixpoint_induct (b := b) (ty := ty) (parserTerm := term) (parserOp := op) (mk := mk)
      (ofTerm := ofTerm) (prec := prec)
      (motive := fun g => ∀ w rhs s st ps, Holds ty small w₀ w st → I st rhs ps s →
        Run.Tracks True False (Agrees small w₀.mem J) F (g w rhs s) (binExprLoop b term op mk ofTerm prec st rhs s))
      (Run.admissible_fun₃ (fun w rhs s x => ∀ st ps, Holds ty small w₀ w st → I st rhs ps s →
        Run.Tracks True False (Agrees small w₀.mem J) F x (binExprLoop b term op mk ofTerm prec st rhs s))
        fun _ _ _ _ _ _ _ => .inl ⟨rfl, .inl trivial⟩) ?_
    intro g ih w rhs s st ps hw hi
    rw [binExprLoop]
    exact body_tracks mk ofTerm hb hf hn K hJ g _ (fun w st rhs s ps => ih w rhs s st ps) w st rhs s ps hw hi
  · suffices H : ∀ st rhs s w ps, Holds ty small w₀ w st → I st rhs ps s →
        Run.Tracks False True (Agrees small w₀.mem J) F (binExprLoopVec b ty term op mk ofTerm prec w rhs s)
          (binExprLoop b term op mk ofTerm prec st rhs s) from H st rhs s w ps hw hi
    refine binExprLoop.fixpoint_induct (b := b) (parserTerm := term) (parserOp := op) (mk := mk)
      (ofTerm := ofTerm) (prec := prec)
      (motive := fun h => ∀ st rhs s w ps, Holds ty small w₀ w st → I st rhs ps s →
        Run.Tracks False True (Agrees small w₀.mem J) F (binExprLoopVec b ty term op mk ofTerm prec w rhs s) (h st rhs s))
      (Run.admissible_fun₃ (fun st rhs s y => ∀ w ps, Holds ty small w₀ w st → I st rhs ps s →
        Run.Tracks False True (Agrees small w₀.mem J) F (binExprLoopVec b ty term op mk ofTerm prec w rhs s) y)
        fun _ _ _ _ _ _ _ => .inr (.inl ⟨rfl, trivial⟩)) ?_
    intro h ih st rhs s w ps hw hi
    rw [binExprLoopVec]
    exact body_tracks mk ofTerm hb hf hn K hJ _ h (fun w st rhs s ps => ih st rhs s w ps) w st rhs s ps hw hi

omit [Operator Op] in
/-- `ShortVec::<_, 4>::new()`. -/
theorem new_rel {mem : Mem (Expr × Op)} :
    ∃ vec, SVec.withCapacity ty 4 0 mem = (.ok vec, mem) ∧ VecRel ty mem vec [] ∧ vec.n = 4 ∧ vec.block = none := by
  refine ⟨{ n := 4, cap := 4, len := 0, data := .stack fun _ => none }, rfl, ⟨rfl, by simp, ?_, .inl ⟨rfl, _, rfl, by simp⟩⟩,
    rfl, rfl⟩
  exact ⟨show 4 ≤ usizeMax by decide, fun _ => show 4 ≤ isizeMax by decide⟩

/-- The whole parser, from what is known about it after the first operand. -/
theorem binExprVec_tracks {mem : Mem (Expr × Op)} (hf : Fresh mem) {pt : Parser S T ETerm} {po : Parser S Op EOp} {s : S}
    (I : T → S → List (Expr × Op) → Expr → List (Op × T) → S → Prop) (J : T → S → List (Expr × Op) → Prop)
    (h0 : ∀ v r, pt.parse s = pure (.ok v r) → I v r [] (ofTerm v) [] r)
    (K : ∀ v r, pt.parse s = pure (.ok v r) → Known b ty pt.parse po.parse mk ofTerm small F mem.grants (I v r))
    (hJ : ∀ v r st rhs ps s', pt.parse s = pure (.ok v r) → I v r st rhs ps s' →
      (∃ e u, Breaks pt.parse po.parse s' e u) → J v r st) :
    Run.Tracks False False (fun a c => a.1 = c ∧ (small → a.2.requests = mem.requests) ∧
        match c with
        | .ok _ _ => Restored mem a.2 []
        | .err _ _ => a.2 = mem ∧ (∃ e u, pt.parse s = pure (.err e u)) ∨
          ∃ v r st, pt.parse s = pure (.ok v r) ∧ J v r st ∧ Restored mem a.2 st.reverse) F
      (binExprVec b ty pt po mk ofTerm mem s) ((binExpr b pt po mk ofTerm).parse s) := by
  refine Run.tracks_bind (Q := fun a c => a.1 = c ∧ (small → a.2.requests = mem.requests) ∧
        match c with
        | .ok _ _ => Restored mem a.2 []
        | .err _ _ => a.2 = mem ∧ (∃ e u, pt.parse s = pure (.err e u)) ∨
          ∃ v r st, pt.parse s = pure (.ok v r) ∧ J v r st ∧ Restored mem a.2 st.reverse) ?_ ?_
  · refine Run.tracks_same fun res hres => ?_
    cases res with
    | ok v r =>
      obtain ⟨vec, h1, h2, h3, h4⟩ := new_rel (ty := ty) (mem := mem)
      simp only [h1]
      have := loop_tracks (prec := 0) (w₀ := { vec := vec, mem := mem }) mk ofTerm h4 hf h3 (K v r hres) (J := J v r)
        (fun st rhs ps s' hi hbr => hJ v r st rhs ps s' hres hi hbr) { vec := vec, mem := mem } [] (ofTerm v) r []
        ⟨h2, .refl hf, rfl, fun _ => rfl⟩ (h0 v r hres)
      rcases this with h | h | h | h | ⟨a, c, h5, h6, h7, h8, h9⟩
      · exact .inl h
      · exact .inr (.inl h)
      · exact .inr (.inr (.inl h))
      · exact .inr (.inr (.inr (.inl h)))
      · refine .inr (.inr (.inr (.inr ⟨a, c, h5, h6, h7, h8, ?_⟩)))
        cases c with
        | ok x y => exact h9
        | err x y =>
          obtain ⟨st, h10, h11⟩ := h9
          exact .inr ⟨v, r, st, hres, h10, h11⟩
    | err e u =>
      exact Run.tracks_pure ⟨rfl, fun _ => rfl, .inl ⟨rfl, e, u, hres⟩⟩
  · rintro ⟨a, mem'⟩ c ⟨rfl, h1, h2⟩
    rcases a with ⟨⟨e, reason | reason⟩, rest⟩ | ⟨e, u⟩
    · exact Run.tracks_pure ⟨rfl, h1, h2⟩
    · exact Run.tracks_fault
    · exact Run.tracks_pure ⟨rfl, h1, h2⟩

end

end Parcom
