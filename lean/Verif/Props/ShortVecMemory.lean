import Verif.Props.ShortVec
/-!
# C43: what the model of ShortVec counts as undefined

`C43_no_undefined_behaviour` says that the fault `ub` does not occur. Here is when it would: the accesses Rust allows are described on
their own, and every other access is the fault.
-/
namespace Parcom
namespace Spec

/-- The element `i` behind a pointer lies inside what the pointer points to, which is live. -/
def Inside {α : Type} (ty : Ty) (w : World α) (i : Nat) : Ptr → Prop
  | .stack => (∃ cells, w.vec.data = .stack cells) ∧ i < w.vec.n
  | .heap p => ∃ blk, w.mem.blocks p = some blk ∧ ty.size * i + ty.size ≤ blk.bytes

/-- The element `i` behind a pointer has been written, and is `a`. -/
def Filled {α : Type} (w : World α) (i : Nat) (a : α) : Ptr → Prop
  | .stack => ∃ cells, w.vec.data = .stack cells ∧ cells i = some a
  | .heap p => ∃ blk, w.mem.blocks p = some blk ∧ blk.cells i = some a

/-- The block at `p` is live, and was allocated with `bytes` bytes. -/
def Live {α : Type} (m : Mem α) (p bytes : Nat) : Prop := ∃ blk, m.blocks p = some blk ∧ blk.bytes = bytes

end Spec
open Spec

variable {α : Type}

/-- Reading gives the element that was written there, if there is one inside what the pointer points to; any other read is
undefined. -/
theorem C43_read (ty : Ty) (p : Ptr) (i : Nat) (w : World α) :
    (∀ a, Ptr.read ty p i w = (.ok a, w) ↔ Inside ty w i p ∧ Filled w i a p) ∧
    (Ptr.read ty p i w = (.error .ub, w) ↔ ¬ ∃ a, Inside ty w i p ∧ Filled w i a p) := by
  cases p with
  | stack =>
    cases hd : w.vec.data with
    | heap q => simp [Ptr.read, Inside, Filled, hd]
    | stack cells =>
      by_cases hi : i < w.vec.n
      · cases hc : cells i <;> simp [Ptr.read, Inside, Filled, hd, hi, hc]
      · simp [Ptr.read, Inside, Filled, hd, hi]
  | heap p =>
    cases hb : w.mem.blocks p with
    | none => simp [Ptr.read, Inside, Filled, hb]
    | some blk =>
      by_cases hi : ty.size * (i + 1) ≤ blk.bytes
      · have hi' : ty.size * i + ty.size ≤ blk.bytes := hi
        cases hc : blk.cells i <;> simp [Ptr.read, Inside, Filled, hb, hi, hi', hc]
      · have hi' : ¬ ty.size * i + ty.size ≤ blk.bytes := hi
        simp [Ptr.read, Inside, Filled, hb, hi, hi']

/-- Writing puts the element there, and changes no other element, if the place lies inside what the pointer points to; any
other write is undefined. -/
theorem C43_write (ty : Ty) (p : Ptr) (i : Nat) (v : α) (w : World α) :
    (Inside ty w i p → ∃ w', Ptr.write ty p i v w = (.ok (), w') ∧ Filled w' i v p ∧
      (∀ j a, j ≠ i → (Filled w' j a p ↔ Filled w j a p)) ∧ (∀ q j a, q ≠ p → (Filled w' j a q ↔ Filled w j a q)) ∧
      ∀ q j, Inside ty w' j q ↔ Inside ty w j q) ∧
    (¬ Inside ty w i p → Ptr.write ty p i v w = (.error .ub, w)) := by
  cases p with
  | stack =>
    cases hd : w.vec.data with
    | heap q => simp [Ptr.write, Inside, hd]
    | stack cells =>
      by_cases hi : i < w.vec.n
      · refine ⟨fun _ => ⟨_, by simp only [Ptr.write, hd, if_pos hi]; rfl, ?_, ?_, ?_, ?_⟩, fun h => absurd ⟨⟨cells, hd⟩, hi⟩ h⟩
        · simp [Filled]
        · intro j a hj
          simp [Filled, hj, hd]
        · intro q j a hq
          cases q with
          | stack => exact absurd rfl hq
          | heap q => simp [Filled]
        · intro q j
          cases q <;> simp [Inside, hd]
      · simp [Ptr.write, Inside, hd, hi]
  | heap p =>
    cases hb : w.mem.blocks p with
    | none => simp [Ptr.write, Inside, hb]
    | some blk =>
      by_cases hi : ty.size * (i + 1) ≤ blk.bytes
      · refine ⟨fun _ => ⟨_, by simp only [Ptr.write, hb, if_pos hi]; rfl, ?_, ?_, ?_, ?_⟩, fun h => absurd ⟨blk, hb, hi⟩ h⟩
        · simp [Filled, Mem.set]
        · intro j a hj
          simp [Filled, Mem.set, hj, hb]
        · intro q j a hq
          cases q with
          | stack => simp [Filled]
          | heap q =>
            have : q ≠ p := fun h => hq (h ▸ rfl)
            simp [Filled, Mem.set, this]
        · intro q j
          cases q with
          | stack => simp [Inside]
          | heap q =>
            by_cases hq : q = p
            · subst hq
              simp [Inside, Mem.set, hb]
            · simp [Inside, Mem.set, hq]
      · have hi' : ¬ ty.size * i + ty.size ≤ blk.bytes := hi
        simp [Ptr.write, Inside, hb, hi, hi']

/-- Freeing is undefined except with the layout of a live block, which is live no longer; no other block is touched. -/
theorem C43_dealloc (p bytes : Nat) (m : Mem α) :
    (Live m p bytes → ∃ m', Mem.dealloc p bytes m = (.ok (), m') ∧ m'.blocks p = none ∧ ∀ q, q ≠ p → m'.blocks q = m.blocks q) ∧
    (¬ Live m p bytes → Mem.dealloc p bytes m = (.error .ub, m)) := by
  cases hb : m.blocks p with
  | none => simp [Live, Mem.dealloc, hb]
  | some blk =>
    by_cases h : blk.bytes = bytes
    · refine ⟨fun _ => ⟨_, by simp only [Mem.dealloc, hb, if_pos h]; rfl, by simp [Mem.set], fun q hq => by simp [Mem.set, hq]⟩,
        fun hn => absurd ⟨blk, hb, h⟩ hn⟩
    · simp [Live, Mem.dealloc, hb, h]

/-- Asking for zero bytes is undefined; else the allocator refuses, or gives a new block of that size with nothing in it. -/
theorem C43_alloc (bytes : Nat) (m : Mem α) :
    (bytes = 0 → Mem.alloc bytes m = (.error .ub, m)) ∧
    (0 < bytes → ∃ r m', Mem.alloc bytes m = (.ok r, m') ∧ (∀ q, some q ≠ r → m'.blocks q = m.blocks q) ∧
      (r = none ↔ m.grants m.requests = false) ∧
      ∀ p, r = some p → p = m.next ∧ m'.next = p + 1 ∧ m'.blocks p = some ⟨bytes, fun _ => none⟩) := by
  refine ⟨fun h => by simp [Mem.alloc, h], fun h => ?_⟩
  have h0 : ¬ bytes = 0 := by omega
  by_cases hg : m.grants m.requests = true
  · refine ⟨some m.next, _, by simp only [Mem.alloc, if_neg h0, if_pos hg]; rfl, ?_, by simp [hg], ?_⟩
    · intro q hq
      have : q ≠ m.next := fun h => hq (h ▸ rfl)
      simp [Mem.set, this]
    · rintro p ⟨⟩
      simp [Mem.set]
  · exact ⟨none, _, by simp only [Mem.alloc, if_neg h0, if_neg hg]; rfl, by simp, by simp [hg], by simp⟩

/-- Reallocating is undefined except with the layout of a live block and a size that is not zero. Else the allocator refuses
and nothing changes, or the block is gone and a new one of the new size has the elements that fit in it. -/
theorem C43_realloc (ty : Ty) (p old bytes : Nat) (m : Mem α) (hn : m.blocks m.next = none) :
    (¬ (Live m p old ∧ 0 < bytes) → Mem.realloc ty p old bytes m = (.error .ub, m)) ∧
    (Live m p old → 0 < bytes → ∃ r m', Mem.realloc ty p old bytes m = (.ok r, m') ∧
      (r = none → m'.blocks = m.blocks) ∧ (r = none ↔ m.grants m.requests = false) ∧
      ∀ q, r = some q → q = m.next ∧ m'.next = q + 1 ∧ m'.blocks p = none ∧ (∀ x, x ≠ p → x ≠ q → m'.blocks x = m.blocks x) ∧
        ∃ blk blk', m.blocks p = some blk ∧ m'.blocks q = some blk' ∧ blk'.bytes = bytes ∧
          (∀ i, ty.size * i + ty.size ≤ bytes → blk'.cells i = blk.cells i) ∧
          ∀ i, bytes < ty.size * i + ty.size → blk'.cells i = none) := by
  cases hb : m.blocks p with
  | none => simp [Live, Mem.realloc, hb]
  | some blk =>
    by_cases h : blk.bytes = old ∧ bytes ≠ 0
    · have hpos : 0 < bytes := by omega
      refine ⟨fun hx => absurd ⟨⟨blk, hb, h.1⟩, hpos⟩ hx, fun _ _ => ?_⟩
      have hne : p ≠ m.next := by
        rintro rfl
        rw [hn] at hb
        cases hb
      by_cases hg : m.grants m.requests = true
      · refine ⟨some m.next, _, by simp only [Mem.realloc, hb, if_pos h, if_pos hg]; rfl, by simp, by simp [hg], ?_⟩
        rintro q ⟨⟩
        refine ⟨rfl, rfl, by simp [Mem.set, hne], fun x h1 h2 => by simp [Mem.set, h1, h2], blk,
          ⟨bytes, fun i => if ty.size * (i + 1) ≤ bytes then blk.cells i else none⟩, rfl, by simp only [Mem.set, if_pos], rfl, ?_, ?_⟩
        · intro i hi
          exact if_pos hi
        · intro i hi
          exact if_neg (by rw [Nat.mul_add, Nat.mul_one]; omega)
      · exact ⟨none, _, by simp only [Mem.realloc, hb, if_pos h, if_neg hg]; rfl, by simp, by simp [hg], by simp⟩
    · refine ⟨fun _ => by simp only [Mem.realloc, hb, if_neg h], fun hl hp => ?_⟩
      obtain ⟨blk', h1, h2⟩ := hl
      rw [hb] at h1
      cases h1
      exact absurd ⟨h2, by omega⟩ h

/-- `usize` arithmetic panics on overflow, or is taken modulo 2^64. -/
theorem C43_usize {W : Type} (x y : Nat) (w : W) :
    (x + y < 2 ^ 64 → ∀ b, addUsize b x y w = (.ok (x + y), w)) ∧ (x * y < 2 ^ 64 → ∀ b, mulUsize b x y w = (.ok (x * y), w)) ∧
    (2 ^ 64 ≤ x + y → addUsize .checked x y w = (.error .overflow, w) ∧ addUsize .wrapping x y w = (.ok ((x + y) % 2 ^ 64), w)) ∧
    (2 ^ 64 ≤ x * y → mulUsize .checked x y w = (.error .overflow, w) ∧ mulUsize .wrapping x y w = (.ok ((x * y) % 2 ^ 64), w)) := by
  have hu : usizeMax + 1 = 2 ^ 64 := rfl
  refine ⟨fun h b => ?_, fun h b => ?_, fun h => ?_, fun h => ?_⟩
  · rw [addUsize.eq_def, if_pos (by omega)]
    rfl
  · rw [mulUsize.eq_def, if_pos (by omega)]
    rfl
  · rw [addUsize, addUsize, if_neg (by omega), if_neg (by omega)]
    exact ⟨rfl, rfl⟩
  · rw [mulUsize, mulUsize, if_neg (by omega), if_neg (by omega)]
    exact ⟨rfl, rfl⟩

/-- A block of one element of four bytes: it can be read and written at 0, at 1 both are undefined, and it is freed with
four bytes, not with eight. -/
example (v : SVec Nat) : let m : Mem Nat := ⟨fun q => if q = 0 then some ⟨4, fun i => if i = 0 then some 7 else none⟩ else none, 1,
      fun _ => true, 1, []⟩
    let w : World Nat := ⟨v, m⟩
    Ptr.read ⟨4, 4⟩ (.heap 0) 0 w = (.ok 7, w) ∧ Ptr.read ⟨4, 4⟩ (.heap 0) 1 w = (.error .ub, w) ∧
    Ptr.write ⟨4, 4⟩ (.heap 0) 1 9 w = (.error .ub, w) ∧ Mem.dealloc 0 8 m = (.error .ub, m) ∧ Live m 0 4 ∧
    m.blocks m.next = none :=
  ⟨rfl, rfl, rfl, rfl, ⟨_, rfl, rfl⟩, rfl⟩

end Parcom
