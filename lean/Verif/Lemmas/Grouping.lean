import Verif.Spec.Grouping
import Verif.Lemmas.Run
/-!
# Groupings: uniqueness, and the stack of `parse_impl`
-/
namespace Parcom
open Spec

variable {T Op Expr : Type}

/-! ## Uniqueness -/

namespace Spec.BTree

theorem ops_eq (t : BTree Op T) : t.ops = t.tail.map Prod.fst := by
  induction t with
  | leaf => rfl
  | node l op r ihl ihr => simp [ops, tail, ihl, ihr]

theorem leftEdge_ops {t : BTree Op T} {o : Op} (h : o ∈ t.leftEdge) : o ∈ t.ops := by
  induction t with
  | leaf => simp [leftEdge] at h
  | node l op r ihl _ =>
    simp [leftEdge] at h
    rcases h with rfl | h
    · simp [ops]
    · simp [ops, ihl h]

theorem rightEdge_ops {t : BTree Op T} {o : Op} (h : o ∈ t.rightEdge) : o ∈ t.ops := by
  induction t with
  | leaf => simp [rightEdge] at h
  | node l op r _ ihr =>
    simp [rightEdge] at h
    rcases h with rfl | h
    · simp [ops]
    · simp [ops, ihr h]

variable [Operator Op]

/-- Every operator of a grouped tree binds at least as tight as some operator on its right edge that it is part of. -/
theorem right_bound {p : Nat} : ∀ {t : BTree Op T}, t.Grouped Declared → (∀ o ∈ t.rightEdge, p ≤ precedence o) →
    ∀ o ∈ t.ops, p ≤ precedence o
  | leaf _, _, _, o, ho => by simp [ops] at ho
  | node l op r, hg, hp, o, ho => by
    obtain ⟨gl, gr, el, er⟩ := hg
    simp [ops] at ho
    have hop := hp op (by simp [rightEdge])
    rcases ho with ho | rfl | ho
    · refine right_bound gl (fun o' h' => ?_) o ho
      rcases el o' h' with h | ⟨h, _⟩ <;> omega
    · exact hop
    · exact right_bound gr (fun o' h' => hp o' (by simp [rightEdge, h'])) o ho

theorem left_bound {p : Nat} : ∀ {t : BTree Op T}, t.Grouped Declared → (∀ o ∈ t.leftEdge, p ≤ precedence o) →
    ∀ o ∈ t.ops, p ≤ precedence o
  | leaf _, _, _, o, ho => by simp [ops] at ho
  | node l op r, hg, hp, o, ho => by
    obtain ⟨gl, gr, el, er⟩ := hg
    simp [ops] at ho
    have hop := hp op (by simp [leftEdge])
    rcases ho with ho | rfl | ho
    · exact left_bound gl (fun o' h' => hp o' (by simp [leftEdge, h'])) o ho
    · exact hop
    · refine left_bound gr (fun o' h' => ?_) o ho
      have := er o' h'
      simp only [Declared, not_or] at this
      omega

/-- The root binds loosest. -/
theorem root_min {l r : BTree Op T} {op : Op} (h : (node l op r).Grouped Declared) :
    (∀ o ∈ l.ops, precedence op ≤ precedence o) ∧ (∀ o ∈ r.ops, precedence op ≤ precedence o) := by
  obtain ⟨gl, gr, el, er⟩ := h
  constructor
  · refine right_bound gl fun o ho => ?_
    rcases el o ho with h | ⟨h, _⟩ <;> omega
  · refine left_bound gr fun o ho => ?_
    have := er o ho
    simp only [Declared, not_or] at this
    omega

/-- An operator left of the root and as loose as it is left-associative. -/
theorem left_assoc {p : Nat} : ∀ {t : BTree Op T}, t.Grouped Declared → (∀ o ∈ t.ops, p ≤ precedence o) →
    (∀ o ∈ t.rightEdge, precedence o = p → associativity o = .left) →
    ∀ o ∈ t.ops, precedence o = p → associativity o = .left
  | leaf _, _, _, _, o, ho, _ => by simp [ops] at ho
  | node l op r, hg, hm, hp, o, ho, hop => by
    obtain ⟨gl, gr, el, er⟩ := hg
    simp [ops] at ho
    rcases ho with ho | rfl | ho
    · have hl := (root_min ⟨gl, gr, el, er⟩).1 o ho
      have hm' := hm op (by simp [ops])
      refine left_assoc gl (fun o' h' => hm o' (by simp [ops, h'])) (fun o' h' hp' => ?_) o ho hop
      rcases el o' h' with h | ⟨_, h⟩
      · omega
      · exact h
    · exact hp o (by simp [rightEdge]) hop
    · exact left_assoc gr (fun o' h' => hm o' (by simp [ops, h'])) (fun o' h' => hp o' (by simp [rightEdge, h'])) o ho hop

/-- If something right of the root is as loose as it, the root is right-associative. -/
theorem right_assoc {l r : BTree Op T} {op o : Op} (h : (node l op r).Grouped Declared) (ho : o ∈ r.ops)
    (hp : precedence o = precedence op) : associativity op = .right := by
  have hm := (root_min h).2
  obtain ⟨gl, gr, el, er⟩ := h
  cases r with
  | leaf => simp [ops] at ho
  | node rl rop rr =>
    have h1 := er rop (by simp [leftEdge])
    have h2 := hm rop (by simp [ops])
    have h3 : precedence rop ≤ precedence o := by
      simp [ops] at ho
      rcases ho with ho | rfl | ho
      · exact (root_min gr).1 o ho
      · exact Nat.le_refl _
      · exact (root_min gr).2 o ho
    simp only [Declared, not_or, not_and] at h1
    have := h1.2 (by omega)
    cases ha : associativity op
    · exact absurd ha this
    · rfl

/-- Two groupings with different roots are not both grouped as declared. -/
theorem roots_clash {l r l' r' : BTree Op T} {op op' : Op} (h : (node l op r).Grouped Declared)
    (h' : (node l' op' r').Grouped Declared) (h1 : op' ∈ r.ops) (h2 : op ∈ l'.ops) : False := by
  have e1 := (root_min h).2 op' h1
  have e2 := (root_min h').1 op h2
  have hr := right_assoc h h1 (by omega)
  have hl := left_assoc (p := precedence op') h'.1 (root_min h').1 (fun o ho hp => by
    rcases h'.2.2.1 o ho with h3 | ⟨_, h3⟩
    · omega
    · exact h3) op h2 (by omega)
  rw [hr] at hl
  cases hl

theorem unique : ∀ {t t' : BTree Op T}, t.Grouped Declared → t'.Grouped Declared → t.first = t'.first →
    t.tail = t'.tail → t = t'
  | leaf a, leaf b, _, _, hf, _ => by simp [first] at hf; rw [hf]
  | leaf a, node l' op' r', _, _, _, ht => by simp [tail] at ht
  | node l op r, leaf b, _, _, _, ht => by simp [tail] at ht
  | node l op r, node l' op' r', g, g', hf, ht => by
    simp only [tail, first] at ht hf
    rw [List.append_eq_append_iff] at ht
    rcases ht with ⟨w, h1, h2⟩ | ⟨w, h1, h2⟩
    · cases w with
      | nil =>
        simp at h1 h2
        obtain ⟨⟨rfl, h3⟩, h4⟩ := h2
        rw [unique g.1 g'.1 hf h1.symm, unique g.2.1 g'.2.1 h3 h4]
      | cons x w =>
        simp at h2
        obtain ⟨rfl, h2⟩ := h2
        refine (roots_clash g g' ?_ ?_).elim
        · rw [ops_eq, h2]; simp
        · rw [ops_eq, h1]; simp
    · cases w with
      | nil =>
        simp at h1 h2
        obtain ⟨⟨rfl, h3⟩, h4⟩ := h2
        rw [unique g.1 g'.1 hf h1, unique g.2.1 g'.2.1 h3.symm h4.symm]
      | cons x w =>
        simp at h2
        obtain ⟨rfl, h2⟩ := h2
        refine (roots_clash g' g ?_ ?_).elim
        · rw [ops_eq, h2]; simp
        · rw [ops_eq, h1]; simp

end Spec.BTree

/-! ## The stack -/

open BTree

/-- The stack over trees as the stack over expressions. -/
def evalStack (mk : Expr → Op → Expr → Expr) (ofTerm : T → Expr) (stack : List (BTree Op T × Op)) : List (Expr × Op) :=
  stack.map fun p => (p.1.eval mk ofTerm, p.2)

theorem reduceAll_eval (mk : Expr → Op → Expr → Expr) (ofTerm : T → Expr) (stack : List (BTree Op T × Op))
    (rhs : BTree Op T) :
    reduceAll mk (evalStack mk ofTerm stack) (rhs.eval mk ofTerm) = (reduceAll node stack rhs).eval mk ofTerm := by
  induction stack generalizing rhs with
  | nil => rfl
  | cons p stack ih =>
    obtain ⟨l, o⟩ := p
    exact ih (node l o rhs)

theorem reduceFor_eval [Operator Op] (b : Build) (mk : Expr → Op → Expr → Expr) (ofTerm : T → Expr) (op : Op) (t : T)
    (stack : List (BTree Op T × Op)) (rhs : BTree Op T) :
    reduceFor b mk op (ofTerm t) (evalStack mk ofTerm stack) (rhs.eval mk ofTerm) = (do
      let (stack, rhs) ← reduceFor b node op (leaf t) stack rhs
      return (evalStack mk ofTerm stack, rhs.eval mk ofTerm)) := by
  induction stack generalizing rhs with
  | nil => rfl
  | cons p stack ih =>
    obtain ⟨l, o⟩ := p
    simp only [evalStack, List.map_cons, reduceFor]
    cases hn : nextPrecedence b o using Run.casesRun with
    | ret prec =>
      simp only [Run.ret_bind]
      by_cases hp : precedence op ≥ prec
      · rw [if_pos hp, if_pos hp]; rfl
      · rw [if_neg hp, if_neg hp]
        exact ih (node l o rhs)
    | fault f => rfl
    | diverge => rfl

/-- What the code decides, when the threshold computed for `o₁` is `np o₁`. -/
def Decided [Operator Op] (np : Op → Nat) (o₁ o₂ : Op) : Prop := ¬ precedence o₂ ≥ np o₁

/-- The condition on the part of the tree that is still on the stack, given the left edge of what sits on it. -/
def StackOk (G : Op → Op → Prop) : List (BTree Op T × Op) → List Op → Prop
  | [], _ => True
  | (l, o) :: stack, edge => l.Grouped G ∧ (∀ o' ∈ l.rightEdge, G o' o) ∧ (∀ o' ∈ edge, ¬ G o o') ∧
      StackOk G stack (o :: l.leftEdge)

theorem grouped_reduceAll {G : Op → Op → Prop} (stack : List (BTree Op T × Op)) (rhs : BTree Op T) :
    (reduceAll node stack rhs).Grouped G ↔ rhs.Grouped G ∧ StackOk G stack rhs.leftEdge := by
  induction stack generalizing rhs with
  | nil => simp [reduceAll, StackOk]
  | cons p stack ih =>
    obtain ⟨l, o⟩ := p
    show (reduceAll node stack (node l o rhs)).Grouped G ↔ _
    rw [ih]
    simp only [Grouped, StackOk, leftEdge]
    constructor
    · rintro ⟨⟨h1, h2, h3, h4⟩, h5⟩; exact ⟨h2, h1, h3, h4, h5⟩
    · rintro ⟨h2, h1, h3, h4, h5⟩; exact ⟨⟨h1, h2, h3, h4⟩, h5⟩

theorem first_reduceAll (stack : List (BTree Op T × Op)) {a b : BTree Op T} (h : a.first = b.first) :
    (reduceAll node stack a).first = (reduceAll node stack b).first := by
  induction stack generalizing a b with
  | nil => exact h
  | cons p stack ih => exact ih (a := node p.1 p.2 a) (b := node p.1 p.2 b) rfl

theorem tail_reduceAll (stack : List (BTree Op T × Op)) {a b : BTree Op T} (w : List (Op × T)) (hf : a.first = b.first)
    (h : a.tail = b.tail ++ w) : (reduceAll node stack a).tail = (reduceAll node stack b).tail ++ w := by
  induction stack generalizing a b with
  | nil => exact h
  | cons p stack ih => exact ih (a := node p.1 p.2 a) (b := node p.1 p.2 b) rfl (by simp [tail, hf, h])

/-- The inner loop when the thresholds are known. -/
def reducePure [Operator Op] (np : Op → Nat) (op : Op) : List (BTree Op T × Op) → BTree Op T → List (BTree Op T × Op)
  | [], rhs => [(rhs, op)]
  | (l, o) :: stack, rhs =>
    if precedence op ≥ np o then (rhs, op) :: (l, o) :: stack else reducePure np op stack (node l o rhs)

theorem reduceFor_pure [Operator Op] {b : Build} {np : Op → Nat} (op : Op) (t : T) (stack : List (BTree Op T × Op))
    (hnp : ∀ p ∈ stack, nextPrecedence b p.2 = pure (np p.2)) (rhs : BTree Op T) :
    reduceFor b node op (leaf t) stack rhs = pure (reducePure np op stack rhs, leaf t) := by
  induction stack generalizing rhs with
  | nil => rfl
  | cons p stack ih =>
    obtain ⟨l, o⟩ := p
    have h1 := hnp (l, o) (by simp)
    have h2 := ih (fun p hp => hnp p (by simp [hp])) (node l o rhs)
    simp only [reduceFor, h1, Run.pure_bind', reducePure]
    by_cases hp : precedence op ≥ np o
    · rw [if_pos hp, if_pos hp]
    · rw [if_neg hp, if_neg hp]; exact h2

/-- One round of the inner loop: whatever the stack, the list of operands grows by the new pair at its end, and the tree
stays grouped. -/
theorem reducePure_step [Operator Op] (np : Op → Nat) (op : Op) (t : T) (stack : List (BTree Op T × Op))
    (rhs : BTree Op T) (hg : (reduceAll node stack rhs).Grouped (Decided np))
    (hr : ∀ o ∈ rhs.rightEdge, Decided np o op) :
    (reduceAll node (reducePure np op stack rhs) (leaf t)).Grouped (Decided np) := by
  induction stack generalizing rhs with
  | nil => exact ⟨hg, trivial, hr, by simp [leftEdge]⟩
  | cons p stack ih =>
    obtain ⟨l, o⟩ := p
    rw [reducePure]
    by_cases hp : precedence op ≥ np o
    · rw [if_pos hp]
      show (reduceAll node ((l, o) :: stack) (node rhs op (leaf t))).Grouped (Decided np)
      rw [grouped_reduceAll] at hg ⊢
      obtain ⟨h1, h2, h3, h4, h5⟩ := hg
      refine ⟨⟨h1, trivial, hr, by simp [leftEdge]⟩, h2, h3, ?_, h5⟩
      intro o' ho'
      simp [leftEdge] at ho'
      rcases ho' with rfl | ho'
      · simpa [Decided] using hp
      · exact h4 o' ho'
    · rw [if_neg hp]
      refine ih (node l o rhs) hg ?_
      intro o' ho'
      simp [rightEdge] at ho'
      rcases ho' with rfl | ho'
      · exact hp
      · exact hr o' ho'

/-- The same for the order of operands, whatever the thresholds. -/
theorem reduceFor_order [Operator Op] (b : Build) (op : Op) (t : T) (stack : List (BTree Op T × Op)) (rhs : BTree Op T) :
    (reduceFor b node op (leaf t) stack rhs).Ensures fun res => res.2 = leaf t ∧ (∃ l st, res.1 = (l, op) :: st) ∧
      (reduceAll node res.1 (leaf t)).first = (reduceAll node stack rhs).first ∧
      (reduceAll node res.1 (leaf t)).tail = (reduceAll node stack rhs).tail ++ [(op, t)] := by
  induction stack generalizing rhs with
  | nil => exact Run.ensures_pure.mpr ⟨rfl, ⟨_, _, rfl⟩, rfl, rfl⟩
  | cons p stack ih =>
    obtain ⟨l, o⟩ := p
    refine Run.ensures_bind fun prec _ => Run.ensures_ite (fun _ => Run.ensures_pure.mpr ?_) (fun _ => ih _)
    exact ⟨rfl, ⟨_, _, rfl⟩, first_reduceAll ((l, o) :: stack) (a := node rhs op (leaf t)) (b := rhs) rfl,
      tail_reduceAll ((l, o) :: stack) (a := node rhs op (leaf t)) (b := rhs) [(op, t)] rfl rfl⟩

/-- The operators on the stack are operators of the tree. -/
theorem stack_ops (stack : List (BTree Op T × Op)) (rhs : BTree Op T) :
    (∀ p ∈ stack, p.2 ∈ (reduceAll node stack rhs).ops) ∧ ∀ o ∈ rhs.ops, o ∈ (reduceAll node stack rhs).ops := by
  induction stack generalizing rhs with
  | nil => simp [reduceAll]
  | cons p stack ih =>
    obtain ⟨l, o⟩ := p
    obtain ⟨h1, h2⟩ := ih (node l o rhs)
    refine ⟨?_, fun o' ho' => h2 o' (by simp [ops, ho'])⟩
    intro p hp
    simp at hp
    rcases hp with rfl | hp
    · exact h2 o (by simp [ops])
    · exact h1 p hp

/-- The threshold that implements the declarations. -/
def threshold [Operator Op] (o : Op) : Nat := match associativity o with
  | .left => precedence o + 1
  | .right => precedence o

theorem decided_threshold [Operator Op] : (Decided threshold : Op → Op → Prop) = Declared := by
  funext o₁ o₂
  apply propext
  simp only [Decided, threshold, Declared]
  cases associativity o₁ <;> simp <;> omega

/-- Every list of operands and operators can be grouped as declared. -/
theorem grouping_exists [Operator Op] (v : T) (ps : List (Op × T)) :
    ∃ t : BTree Op T, t.Grouped Declared ∧ t.first = v ∧ t.tail = ps := by
  suffices h : ∀ (stack : List (BTree Op T × Op)) (v : T), (reduceAll node stack (leaf v)).Grouped (Decided threshold) →
      ∃ t : BTree Op T, t.Grouped (Decided threshold) ∧ t.first = (reduceAll node stack (leaf v)).first ∧
        t.tail = (reduceAll node stack (leaf v)).tail ++ ps by
    have := h [] v trivial
    rw [decided_threshold] at this
    exact this
  induction ps with
  | nil => intro stack v h; exact ⟨_, h, rfl, by simp⟩
  | cons p ps ih =>
    intro stack v h
    obtain ⟨o, w⟩ := p
    have horder : ∀ (st : List (BTree Op T × Op)) (rhs : BTree Op T),
        (reduceAll node (reducePure threshold o st rhs) (leaf w)).first = (reduceAll node st rhs).first ∧
        (reduceAll node (reducePure threshold o st rhs) (leaf w)).tail = (reduceAll node st rhs).tail ++ [(o, w)] := by
      intro st
      induction st with
      | nil => intro rhs; exact ⟨rfl, rfl⟩
      | cons q st ih =>
        intro rhs
        rw [reducePure]
        by_cases hp : precedence o ≥ threshold q.2
        · rw [if_pos hp]
          exact ⟨first_reduceAll (q :: st) (a := node rhs o (leaf w)) (b := rhs) rfl,
            tail_reduceAll (q :: st) (a := node rhs o (leaf w)) (b := rhs) [(o, w)] rfl rfl⟩
        · rw [if_neg hp]; exact ih _
    obtain ⟨t, h1, h2, h3⟩ := ih _ w (reducePure_step threshold o w stack (leaf v) h (by simp [rightEdge]))
    obtain ⟨h4, h5⟩ := horder stack (leaf v)
    exact ⟨t, h1, h2.trans h4, by rw [h3, h5]; simp⟩

end Parcom
