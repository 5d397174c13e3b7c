import Verif.Spec.Stack
/-!
# ShortVec: the invariant, and each method keeps it
-/
namespace Parcom
open Spec

variable {α β : Type}

/-- Where the elements of a vector are. -/
def SVec.block (v : SVec α) : Option Nat := match v.data with
  | .heap p => some p
  | .stack _ => none

/-- The vector holds the list. -/
structure VecRel (ty : Ty) (mem : Mem α) (v : SVec α) (l : List α) : Prop where
  len : v.len = l.length
  len_le : v.len ≤ v.cap
  typed : v.n ≤ usizeMax ∧ (0 < ty.size → v.n ≤ isizeMax)
  place : (v.cap = v.n ∧ ∃ cells, v.data = .stack cells ∧ ∀ i, i < l.length → cells i = l[i]?) ∨
    (v.n < v.cap ∧ v.cap ≤ isizeMax ∧ 0 < ty.size ∧ ty.size * v.cap ≤ isizeMax - (ty.align - 1) ∧
      ∃ p blk, v.data = .heap p ∧ mem.blocks p = some blk ∧ blk.bytes = ty.size * v.cap ∧
        ∀ i, i < l.length → blk.cells i = l[i]?)

/-- Addresses not given out yet are not live. -/
def Fresh (mem : Mem α) : Prop := ∀ q, mem.next ≤ q → mem.blocks q = none

/-- What a method may change: its own block, which may move to a fresh address. -/
structure Frame (w w' : World α) : Prop where
  fresh : Fresh w'.mem
  le : w.mem.next ≤ w'.mem.next
  owns : w'.vec.block = w.vec.block ∨ ∃ q, w'.vec.block = some q ∧ w.mem.next ≤ q
  others : ∀ q, w.vec.block ≠ some q → q < w.mem.next → w'.mem.blocks q = w.mem.blocks q
  live : ∀ q, w'.mem.blocks q ≠ none → w'.vec.block = some q ∨ (w.vec.block ≠ some q ∧ w.mem.blocks q ≠ none)
  sameN : w'.vec.n = w.vec.n
  grants : w'.mem.grants = w.mem.grants

variable {ty : Ty} {b : Build}

theorem Frame.refl {w : World α} (hf : Fresh w.mem) : Frame w w where
  fresh := hf
  le := Nat.le_refl _
  owns := .inl rfl
  others _ _ _ := rfl
  live q h := by
    by_cases hq : w.vec.block = some q
    · exact .inl hq
    · exact .inr ⟨hq, h⟩
  sameN := rfl
  grants := rfl

theorem Frame.trans {w w₁ w₂ : World α} (h : Frame w w₁) (h' : Frame w₁ w₂) : Frame w w₂ where
  fresh := h'.fresh
  le := Nat.le_trans h.le h'.le
  owns := by
    rcases h'.owns with h1 | ⟨q, h1, h2⟩
    · rw [h1]; exact h.owns
    · exact .inr ⟨q, h1, Nat.le_trans h.le h2⟩
  others q hq hlt := by
    rw [h'.others q ?_ (Nat.lt_of_lt_of_le hlt h.le), h.others q hq hlt]
    rcases h.owns with h1 | ⟨r, h1, h2⟩
    · rw [h1]; exact hq
    · rw [h1]; simp; omega
  live q hq := by
    rcases h'.live q hq with h1 | ⟨h1, h2⟩
    · exact .inl h1
    · rcases h.live q h2 with h3 | h3
      · exact absurd h3 h1
      · exact .inr h3
  sameN := h'.sameN.trans h.sameN
  grants := h'.grants.trans h.grants

/-- Changing nothing but length, contents of the own block or inline buffer, and the drop log. -/
theorem Frame.inPlace {w w' : World α} (hf : Fresh w.mem) (hn : w'.mem.next = w.mem.next)
    (hb : w'.vec.block = w.vec.block) (hsame : w'.vec.n = w.vec.n) (hg : w'.mem.grants = w.mem.grants)
    (ho : ∀ q, w.vec.block ≠ some q → w'.mem.blocks q = w.mem.blocks q)
    (hown : ∀ q, w.vec.block = some q → q < w.mem.next) : Frame w w' where
  fresh q hq := by
    rw [hn] at hq
    rw [ho q (fun h => by have := hown q h; omega)]
    exact hf q hq
  le := by omega
  owns := .inl hb
  others q h _ := ho q h
  live q h := by
    by_cases hq : w.vec.block = some q
    · exact .inl (hb.trans hq)
    · rw [ho q hq] at h; exact .inr ⟨hq, h⟩
  sameN := hsame
  grants := hg

theorem VecRel.own_lt {mem : Mem α} {v : SVec α} {l : List α} (h : VecRel ty mem v l) (hf : Fresh mem) (q : Nat)
    (hq : v.block = some q) : q < mem.next := by
  rcases h.place with ⟨-, cells, hd, -⟩ | ⟨-, -, -, -, p, blk, hd, hb, -, -⟩
  · simp [SVec.block, hd] at hq
  · simp [SVec.block, hd] at hq
    subst hq
    apply Nat.lt_of_not_le
    intro hle
    rw [hf p hle] at hb
    simp at hb

theorem VecRel.n_le {mem : Mem α} {v : SVec α} {l : List α} (h : VecRel ty mem v l) : v.n ≤ v.cap := by
  rcases h.place with ⟨h, -⟩ | ⟨h, -⟩ <;> omega

/-- The relation looks only at the own block. -/
theorem VecRel.frame {mem mem' : Mem α} {v : SVec α} {l : List α} (h : VecRel ty mem v l)
    (hb : ∀ q, v.block = some q → mem'.blocks q = mem.blocks q) : VecRel ty mem' v l := by
  refine ⟨h.len, h.len_le, h.typed, ?_⟩
  rcases h.place with h' | ⟨h1, h2, h3, h4, p, blk, hd, hb', h5, h6⟩
  · exact .inl h'
  · exact .inr ⟨h1, h2, h3, h4, p, blk, hd, by rw [hb p (by simp [SVec.block, hd])]; exact hb', h5, h6⟩

/-- `as_ptr` succeeds. -/
theorem asPtr_ok {w : World α} {l : List α} (h : VecRel ty w.mem w.vec l) :
    (w.vec.isHeap = false ∧ w.vec.cap = w.vec.n ∧ asPtr w = (.ok .stack, w) ∧
      ∃ cells, w.vec.data = .stack cells ∧ ∀ i, i < l.length → cells i = l[i]?) ∨
    (w.vec.isHeap = true ∧ w.vec.n < w.vec.cap ∧ w.vec.cap ≤ isizeMax ∧ 0 < ty.size ∧
      ty.size * w.vec.cap ≤ isizeMax - (ty.align - 1) ∧ ∃ p blk,
      asPtr w = (.ok (.heap p), w) ∧ w.vec.data = .heap p ∧ w.mem.blocks p = some blk ∧ blk.bytes = ty.size * w.vec.cap ∧
        ∀ i, i < l.length → blk.cells i = l[i]?) := by
  rcases h.place with ⟨h1, cells, hd, hc⟩ | ⟨h1, h2, h3, h4, p, blk, hd, hb, h5, h6⟩
  · have hh : w.vec.isHeap = false := by simp [SVec.isHeap, h1]
    exact .inl ⟨hh, h1, by simp [asPtr, hh, hd], cells, hd, hc⟩
  · have hh : w.vec.isHeap = true := by simp [SVec.isHeap, h1]
    exact .inr ⟨hh, h1, h2, h3, h4, p, blk, by simp [asPtr, hh, hd], hd, hb, h5, h6⟩

/-- Reading an element that is there. -/
theorem read_ok {w : World α} {l : List α} (h : VecRel ty w.mem w.vec l) {p : Ptr} (hp : asPtr w = (.ok p, w)) {i : Nat}
    {a : α} (hi : l[i]? = some a) {len : Nat} :
    p.read ty i { w with vec := { w.vec with len := len } } = (.ok a, { w with vec := { w.vec with len := len } }) := by
  have hil : i < l.length := by
    apply Nat.lt_of_not_le; intro hle; rw [List.getElem?_eq_none_iff.mpr hle] at hi; simp at hi
  have hlen := h.len
  have hle := h.len_le
  rcases asPtr_ok h with ⟨-, h1, hp', cells, hd, hc⟩ | ⟨-, h1, -, -, -, q, blk, hp', hd, hb, hbytes, hc⟩
  · rw [hp] at hp'
    simp at hp'
    subst hp'
    simp only [Ptr.read, hd]
    rw [if_pos (by omega), hc i hil, hi]
  · rw [hp] at hp'
    simp at hp'
    subst hp'
    simp only [Ptr.read, hb]
    rw [if_pos (by rw [hbytes]; exact Nat.mul_le_mul_left _ (by omega)), hc i hil, hi]

theorem read_ok' {w : World α} {l : List α} (h : VecRel ty w.mem w.vec l) {p : Ptr} (hp : asPtr w = (.ok p, w)) {i : Nat}
    {a : α} (hi : l[i]? = some a) : p.read ty i w = (.ok a, w) := read_ok h hp hi (len := w.vec.len)

/-- Writing within the capacity. -/
theorem write_ok {w : World α} {l : List α} (h : VecRel ty w.mem w.vec l) (hf : Fresh w.mem) {p : Ptr}
    (hp : asPtr w = (.ok p, w)) {i : Nat} (hi : i < w.vec.cap) (v : α) (l' : List α) {len : Nat}
    (hlen : len = l'.length) (hle : len ≤ w.vec.cap)
    (hl : ∀ j, j < l'.length → l'[j]? = if j = i then some v else l[j]?) (hll : ∀ j, j < l'.length → j ≠ i → j < l.length) :
    ∃ w', p.write ty i v w = (.ok (), w') ∧ w'.vec.len = w.vec.len ∧ w'.vec.cap = w.vec.cap ∧
      w'.mem.requests = w.mem.requests ∧ w'.mem.dropped = w.mem.dropped ∧
      VecRel ty w'.mem { w'.vec with len := len } l' ∧ Frame w { w' with vec := { w'.vec with len := len } } := by
  have hown := h.own_lt hf
  rcases asPtr_ok h with ⟨-, h1, hp', cells, hd, hc⟩ | ⟨-, h1, h1', h2, h3, q, blk, hp', hd, hb, hbytes, hc⟩
  · rw [hp] at hp'
    simp at hp'
    subst hp'
    refine ⟨{ w with vec := { w.vec with data := .stack fun j => if j = i then some v else cells j } }, ?_, rfl, rfl, rfl,
      rfl, ⟨hlen, hle, h.typed, .inl ⟨h1, _, rfl, fun j hj => ?_⟩⟩, ?_⟩
    · simp only [Ptr.write, hd]
      rw [if_pos (by omega)]
    · rw [hl j hj]
      by_cases hji : j = i
      · simp [hji]
      · simp only [if_neg hji]; exact hc j (hll j hj hji)
    · exact Frame.inPlace hf rfl (by simp [SVec.block, hd]) rfl rfl (fun _ _ => rfl) hown
  · rw [hp] at hp'
    simp at hp'
    subst hp'
    refine ⟨{ w with mem := w.mem.set q (some { blk with cells := fun j => if j = i then some v else blk.cells j }) }, ?_,
      rfl, rfl, rfl, rfl, ⟨hlen, hle, h.typed, .inr ⟨h1, h1', h2, h3, q, _, hd, if_pos rfl, hbytes, fun j hj => ?_⟩⟩, ?_⟩
    · simp only [Ptr.write, hb]
      rw [if_pos (by rw [hbytes]; exact Nat.mul_le_mul_left _ (by omega))]
    · rw [hl j hj]
      by_cases hji : j = i
      · simp [hji]
      · simp only [if_neg hji]; exact hc j (hll j hj hji)
    · refine Frame.inPlace hf rfl rfl rfl rfl (fun r hr => ?_) hown
      simp [SVec.block, hd] at hr
      exact if_neg fun h => hr h.symm

/-! ## The methods -/

/-- `with_capacity`. -/
theorem withCapacity_rel {mem : Mem α} (hf : Fresh mem) (n cap : Nat) (htyped : n ≤ usizeMax ∧ (0 < ty.size → n ≤ isizeMax))
    (hz : 0 < ty.size ∨ cap ≤ n) :
    (∃ v mem', SVec.withCapacity ty n cap mem = (.ok v, mem') ∧ VecRel ty mem' v [] ∧ v.n = n ∧
      Fresh mem' ∧ mem.next ≤ mem'.next ∧ mem'.dropped = mem.dropped ∧
      (v.block = none ∨ ∃ q, v.block = some q ∧ mem.next ≤ q) ∧
      (∀ q, q < mem.next → mem'.blocks q = mem.blocks q) ∧
      (∀ q, mem'.blocks q ≠ none → v.block = some q ∨ mem.blocks q ≠ none) ∧
      (cap ≤ n → mem'.requests = mem.requests)) ∨
    (SVec.withCapacity ty n cap mem = (.error .assertion, mem) ∧
      (isizeMax < cap ∨ (n < cap ∧ isizeMax - (ty.align - 1) < ty.size * cap))) ∨
    (∃ mem', SVec.withCapacity ty n cap mem = (.error .abort, mem') ∧ cap > n ∧ mem.grants mem.requests = false) := by
  unfold SVec.withCapacity
  by_cases h1 : cap ≤ isizeMax
  · rw [if_pos h1]
    by_cases h2 : cap > n
    · rw [if_pos h2]
      have hs : 0 < ty.size := by omega
      by_cases h3 : ty.size * cap ≤ isizeMax - (ty.align - 1)
      · have hl : layoutArray ty cap mem = (.ok (ty.size * cap), mem) := by simp [layoutArray, h3]
        rw [Act.bind_ok hl]
        have h0 : ty.size * cap ≠ 0 := by
          intro h; rcases Nat.mul_eq_zero.mp h with h | h <;> omega
        by_cases hg : mem.grants mem.requests = true
        · have ha : Mem.alloc (ty.size * cap) mem = (.ok (some mem.next), { mem.set mem.next (some { bytes := ty.size * cap, cells := fun _ => none }) with next := mem.next + 1, requests := mem.requests + 1 }) := by
            simp [Mem.alloc, h0, hg]
          rw [Act.bind_ok ha]
          refine .inl ⟨_, _, rfl, ⟨rfl, Nat.zero_le _, htyped, .inr ⟨h2, h1, hs, h3, _, _, rfl, if_pos rfl, rfl, by simp⟩⟩, rfl,
            ?_, Nat.le_succ _, rfl, .inr ⟨_, rfl, Nat.le_refl _⟩, ?_, ?_, by omega⟩
          · intro q hq
            have hq : mem.next + 1 ≤ q := hq
            simp only [Mem.set]
            rw [if_neg (by omega)]
            exact hf q (by omega)
          · intro q hq
            simp only [Mem.set]
            rw [if_neg (by omega)]
          · intro q hq
            by_cases hqn : q = mem.next
            · exact .inl (by rw [hqn]; rfl)
            · simp only [Mem.set] at hq
              rw [if_neg hqn] at hq
              exact .inr hq
        · have ha : Mem.alloc (ty.size * cap) mem = (.ok none, { mem with requests := mem.requests + 1 }) := by
            simp [Mem.alloc, h0, hg]
          rw [Act.bind_ok ha]
          exact .inr (.inr ⟨_, rfl, h2, by simpa using hg⟩)
      · have hl : layoutArray ty cap mem = (.error .assertion, mem) := by simp [layoutArray, h3]
        rw [Act.bind_error hl]
        exact .inr (.inl ⟨rfl, .inr ⟨h2, by omega⟩⟩)
    · rw [if_neg h2]
      exact .inl ⟨_, _, rfl, ⟨rfl, Nat.zero_le _, htyped, .inl ⟨rfl, _, rfl, by simp⟩⟩, rfl, hf, Nat.le_refl _, rfl, .inl rfl,
        fun _ _ => rfl, fun _ h => .inr h, fun _ => rfl⟩
  · rw [if_neg h1]
    exact .inr (.inl ⟨rfl, .inl (by omega)⟩)

theorem copyOut_ok {w : World α} {cells : Nat → Option α} {blk : Block α} {dst len : Nat} (hd : w.vec.data = .stack cells)
    (hb : w.mem.blocks dst = some blk) (h1 : len ≤ w.vec.n) (h2 : ty.size * len ≤ blk.bytes) :
    copyOut ty dst len w = (.ok (), { w with mem := w.mem.set dst (some { blk with
      cells := fun j => if j < len then cells j else blk.cells j }) }) := by
  simp only [copyOut, hd, hb]
  rw [if_pos ⟨h1, h2⟩]

/-- What `reserve` and `reserve_exact` do: nothing to the elements. They fail for want of capacity without effect, or the
process aborts. -/
def Reserves (ty : Ty) (w : World α) (l : List α) (cap : Nat) (x : Except Fault Unit × World α) : Prop :=
  (∃ w', x = (.ok (), w') ∧ VecRel ty w'.mem w'.vec l ∧ Frame w w' ∧ cap ≤ w'.vec.cap ∧ w'.vec.len = w.vec.len ∧
    w'.mem.dropped = w.mem.dropped ∧ (cap ≤ w.vec.cap → w' = w)) ∨
  (x = (.error .assertion, w)) ∨
  (∃ w', x = (.error .abort, w') ∧ w.mem.grants w.mem.requests = false ∧ w.vec.cap < cap)

/-- `reserve_exact`. -/
theorem reserveExact_rel {w : World α} {l : List α} (h : VecRel ty w.mem w.vec l) (hf : Fresh w.mem) (cap : Nat)
    (hz : 0 < ty.size ∨ cap ≤ w.vec.cap) :
    Reserves ty w l cap (reserveExact ty cap w) ∧
    (cap ≤ isizeMax → ty.size * cap ≤ isizeMax - (ty.align - 1) → ∀ w', reserveExact ty cap w ≠ (.error .assertion, w')) := by
  unfold reserveExact
  by_cases h1 : cap ≤ isizeMax
  · rw [if_pos h1]
    simp only [Act.get_bind_run]
    by_cases h2 : w.vec.cap ≥ cap
    · rw [if_pos h2]
      exact ⟨.inl ⟨w, rfl, h, Frame.refl hf, h2, rfl, rfl, fun _ => rfl⟩, fun _ _ w' h => by simp at h⟩
    rw [if_neg h2]
    have hs : 0 < ty.size := by omega
    by_cases h3 : ty.size * cap ≤ isizeMax - (ty.align - 1)
    · have hl : layoutArray ty cap w = (.ok (ty.size * cap), w) := by simp [layoutArray, h3]
      rw [Act.bind_ok hl]
      have h0 : ty.size * cap ≠ 0 := by
        intro h; rcases Nat.mul_eq_zero.mp h with h | h <;> omega
      have hle := h.len_le
      have hlen := h.len
      have hn := h.n_le
      rcases asPtr_ok h with ⟨hh, hcap, -, cells, hd, hc⟩ | ⟨hh, hcap, -, -, h4, q, blk, -, hd, hb, hbytes, hc⟩
      · rw [if_neg (by simp [hh])]
        by_cases hg : w.mem.grants w.mem.requests = true
        · have ha : onMem (Mem.alloc (ty.size * cap)) w = (.ok (some w.mem.next), { w with mem := { w.mem.set w.mem.next (some { bytes := ty.size * cap, cells := fun _ => none }) with next := w.mem.next + 1, requests := w.mem.requests + 1 } }) := by
            simp [onMem, Mem.alloc, h0, hg]
          rw [Act.bind_ok ha]
          simp only
          rw [Act.bind_ok (copyOut_ok (ty := ty) (w := { w with mem := { w.mem.set w.mem.next (some { bytes := ty.size * cap, cells := fun _ => none }) with next := w.mem.next + 1, requests := w.mem.requests + 1 } }) (dst := w.mem.next) (cells := cells) (blk := { bytes := ty.size * cap, cells := fun _ => none }) hd
            (if_pos rfl) (by omega : w.vec.len ≤ w.vec.n) (Nat.mul_le_mul_left _ (by omega)))]
          refine ⟨.inl ⟨_, rfl, ⟨hlen, ?_, h.typed, .inr ⟨?_, h1, hs, h3, _, _, rfl, if_pos rfl, rfl, fun i hi => ?_⟩⟩, ?_, Nat.le_refl _, rfl, rfl,
            fun hlt => absurd hlt (by omega)⟩, fun _ _ w' h => by simp at h⟩
          · show w.vec.len ≤ cap; omega
          · show w.vec.n < cap; omega
          · rw [← hc i hi]
            show (if i < w.vec.len then cells i else none) = cells i
            rw [if_pos (by omega)]
          · refine ⟨?_, Nat.le_succ _, .inr ⟨_, rfl, Nat.le_refl _⟩, ?_, ?_, rfl, rfl⟩
            · intro q hq
              have hq : w.mem.next + 1 ≤ q := hq
              simp only [Mem.set]
              rw [if_neg (by omega), if_neg (by omega)]
              exact hf q (by omega)
            · intro q _ hq
              simp only [Mem.set]
              rw [if_neg (by omega), if_neg (by omega)]
            · intro q hq
              by_cases hqn : q = w.mem.next
              · exact .inl (by rw [hqn]; rfl)
              · simp only [Mem.set] at hq
                rw [if_neg hqn, if_neg hqn] at hq
                exact .inr ⟨by simp [SVec.block, hd], hq⟩
        · have ha : onMem (Mem.alloc (ty.size * cap)) w = (.ok none, { w with mem := { w.mem with requests := w.mem.requests + 1 } }) := by
            simp [onMem, Mem.alloc, h0, hg]
          rw [Act.bind_ok ha]
          exact ⟨.inr (.inr ⟨_, rfl, by simpa using hg, by omega⟩), fun _ _ w' h => by simp at h⟩
      · rw [if_pos hh]
        have hl' : layoutArray ty w.vec.cap w = (.ok (ty.size * w.vec.cap), w) := by simp [layoutArray, h4]
        rw [Act.bind_ok hl', hd]
        simp only
        by_cases hg : w.mem.grants w.mem.requests = true
        · have ha : onMem (Mem.realloc ty q (ty.size * w.vec.cap) (ty.size * cap)) w = (.ok (some w.mem.next), { w with mem := { (w.mem.set q none).set w.mem.next (some { bytes := ty.size * cap, cells := fun i => if ty.size * (i + 1) ≤ ty.size * cap then blk.cells i else none }) with next := w.mem.next + 1, requests := w.mem.requests + 1 } }) := by
            simp [onMem, Mem.realloc, h0, hg, hb, hbytes]
          rw [Act.bind_ok ha]
          refine ⟨.inl ⟨_, rfl, ⟨hlen, ?_, h.typed, .inr ⟨?_, h1, hs, h3, _, _, rfl, if_pos rfl, rfl, fun i hi => ?_⟩⟩, ?_, Nat.le_refl _, rfl, rfl,
            fun hlt => absurd hlt (by omega)⟩, fun _ _ w' h => by simp at h⟩
          · show w.vec.len ≤ cap; omega
          · show w.vec.n < cap; omega
          · rw [← hc i hi]
            show (if ty.size * (i + 1) ≤ ty.size * cap then blk.cells i else none) = blk.cells i
            rw [if_pos (Nat.mul_le_mul_left _ (by omega))]
          · refine ⟨?_, Nat.le_succ _, .inr ⟨_, rfl, Nat.le_refl _⟩, ?_, ?_, rfl, rfl⟩
            · intro r hr
              have hr : w.mem.next + 1 ≤ r := hr
              simp only [Mem.set]
              rw [if_neg (by omega)]
              by_cases hrq : r = q
              · rw [if_pos hrq]
              · rw [if_neg hrq]; exact hf r (by omega)
            · intro r hr hlt
              simp [SVec.block, hd] at hr
              simp only [Mem.set]
              rw [if_neg (by omega), if_neg fun h => hr h.symm]
            · intro r hr
              by_cases hrn : r = w.mem.next
              · exact .inl (by rw [hrn]; rfl)
              · simp only [Mem.set] at hr
                rw [if_neg hrn] at hr
                by_cases hrq : r = q
                · rw [if_pos hrq] at hr; exact absurd rfl hr
                · rw [if_neg hrq] at hr
                  exact .inr ⟨by simp [SVec.block, hd]; exact fun h => hrq h.symm, hr⟩
        · have ha : onMem (Mem.realloc ty q (ty.size * w.vec.cap) (ty.size * cap)) w = (.ok none, { w with mem := { w.mem with requests := w.mem.requests + 1 } }) := by
            simp [onMem, Mem.realloc, h0, hg, hb, hbytes]
          rw [Act.bind_ok ha]
          exact ⟨.inr (.inr ⟨_, rfl, by simpa using hg, by omega⟩), fun _ _ w' h => by simp at h⟩
    · have hl : layoutArray ty cap w = (.error .assertion, w) := by simp [layoutArray, h3]
      rw [Act.bind_error hl]
      exact ⟨.inr (.inl rfl), fun _ h => absurd h h3⟩
  · rw [if_neg h1]
    exact ⟨.inr (.inl rfl), fun h => absurd h h1⟩

/-- `reserve`. -/
theorem reserve_rel {w : World α} {l : List α} (h : VecRel ty w.mem w.vec l) (hf : Fresh w.mem) (cap : Nat)
    (hz : 0 < ty.size ∨ cap ≤ w.vec.cap) :
    Reserves ty w l cap (reserve b ty cap w) ∧
    (max (2 * w.vec.cap) cap ≤ isizeMax → ty.size * max (2 * w.vec.cap) cap ≤ isizeMax - (ty.align - 1) →
      ∀ w', reserve b ty cap w ≠ (.error .assertion, w')) ∧
    (cap ≤ w.vec.cap → reserve b ty cap w = (.ok (), w)) := by
  unfold reserve
  simp only [Act.get_bind_run]
  by_cases h2 : w.vec.cap ≥ cap
  · rw [if_pos h2]
    exact ⟨.inl ⟨w, rfl, h, Frame.refl hf, h2, rfl, rfl, fun _ => rfl⟩, fun _ _ w' h => by simp at h, fun _ => rfl⟩
  rw [if_neg h2]
  have hs : 0 < ty.size := by omega
  have hcap : w.vec.cap ≤ isizeMax := by
    rcases h.place with ⟨h1, -⟩ | ⟨-, h1, -⟩
    · rw [h1]; exact h.typed.2 hs
    · exact h1
  have hm : mulUsize b w.vec.cap 2 w = (.ok (w.vec.cap * 2), w) := by
    have : w.vec.cap * 2 ≤ usizeMax := by
      have h1 : isizeMax * 2 ≤ usizeMax := by decide
      omega
    simp [mulUsize, this]
  rw [Act.bind_ok hm]
  obtain ⟨h3, h4⟩ := reserveExact_rel h hf (max (w.vec.cap * 2) cap) (.inl hs)
  refine ⟨?_, ?_, fun h => absurd h h2⟩
  · rcases h3 with ⟨w', h5, h6, h7, h8, h9, h10, h11⟩ | h3 | ⟨w', h5, h6, h7⟩
    · exact .inl ⟨w', h5, h6, h7, by omega, h9, h10, fun h => absurd h (by omega)⟩
    · exact .inr (.inl h3)
    · exact .inr (.inr ⟨w', h5, h6, by omega⟩)
  · intro h5 h6
    rw [Nat.mul_comm w.vec.cap 2] at *
    exact h4 h5 h6

/-- `push`. -/
theorem push_rel {w : World α} {l : List α} (h : VecRel ty w.mem w.vec l) (hf : Fresh w.mem) (item : α)
    (hz : 0 < ty.size ∨ l.length < w.vec.cap) :
    ((∃ w', push b ty item w = (.ok (), w') ∧ VecRel ty w'.mem w'.vec (l ++ [item]) ∧ Frame w w' ∧
        w'.mem.dropped = w.mem.dropped ∧ (l.length < w.vec.cap → w'.mem.requests = w.mem.requests ∧ w'.vec.cap = w.vec.cap)) ∨
      (push b ty item w = (.error .assertion, World.drop item w) ∧ w.vec.cap ≤ l.length) ∨
      (∃ w', push b ty item w = (.error .abort, w') ∧ w.mem.grants w.mem.requests = false ∧ w.vec.cap ≤ l.length)) ∧
    (max (2 * w.vec.cap) (l.length + 1) ≤ isizeMax →
      ty.size * max (2 * w.vec.cap) (l.length + 1) ≤ isizeMax - (ty.align - 1) →
      ∀ w', push b ty item w ≠ (.error .assertion, w')) := by
  unfold push
  simp only [Act.get_bind_run]
  have hlen := h.len
  have hle := h.len_le
  have hu : w.vec.len + 1 ≤ usizeMax := by
    have h1 : isizeMax + 1 ≤ usizeMax := by decide
    have h2 := h.typed
    rcases h.place with ⟨h3, -⟩ | ⟨-, h3, -⟩
    · by_cases hs : 0 < ty.size
      · have := h2.2 hs; omega
      · omega
    · omega
  have ha : ∀ w' : World α, addUsize b w.vec.len 1 w' = (.ok (w.vec.len + 1), w') := by
    intro w'; simp [addUsize, hu]
  have hr0 : (do let len ← addUsize b w.vec.len 1; reserve b ty len : Act (World α) Unit) w = reserve b ty (w.vec.len + 1) w :=
    Act.bind_ok (ha w)
  obtain ⟨hr, hr', hr''⟩ := reserve_rel (b := b) h hf (w.vec.len + 1) (by omega)
  rcases hr with ⟨w₁, h1, h2, h3, h4, h5, h6, h7⟩ | h1 | ⟨w₁, h1, h2, h3⟩
  · have hu1 : Act.onUnwind (do let len ← addUsize b w.vec.len 1; reserve b ty len : Act (World α) Unit) (World.drop item) w = (.ok (), w₁) := by
      simp only [Act.onUnwind, hr0, h1]
    rw [Act.bind_ok hu1]
    have hlen1 := h2.len
    have hp : ∃ p, asPtr w₁ = (.ok p, w₁) := by
      rcases asPtr_ok h2 with ⟨-, -, h, -⟩ | ⟨-, -, -, -, -, p, -, h, -⟩
      · exact ⟨_, h⟩
      · exact ⟨_, h⟩
    obtain ⟨p, hp⟩ := hp
    rw [Act.bind_ok hp]
    obtain ⟨w₂, h8, h9, h10, h11, h12, h13, h14⟩ := write_ok h2 h3.fresh hp (i := w.vec.len) (by omega) item (l ++ [item])
      (len := w.vec.len + 1) (by simp; omega) (by omega) (by
        intro j hj
        simp at hj
        by_cases hji : j = w.vec.len
        · rw [if_pos hji, hji, hlen]; simp
        · rw [if_neg hji, List.getElem?_append_left (by omega)]) (by intro j hj hji; simp at hj; omega)
    rw [Act.bind_ok h8, Act.bind_ok (ha w₂)]
    refine ⟨.inl ⟨_, rfl, h13, ?_, by show w₂.mem.dropped = _; rw [h12, h6], fun hlt => ?_⟩, fun _ _ w' h => by simp at h⟩
    · exact h3.trans h14
    · have := h7 (by omega)
      subst this
      exact ⟨h11, h10⟩
  · have hu1 : Act.onUnwind (do let len ← addUsize b w.vec.len 1; reserve b ty len : Act (World α) Unit) (World.drop item) w = (.error .assertion, World.drop item w) := by
      simp only [Act.onUnwind, hr0, h1]; simp
    rw [Act.bind_error hu1]
    refine ⟨.inr (.inl ⟨rfl, ?_⟩), ?_⟩
    · apply Nat.le_of_not_lt; intro hlt; rw [hr'' (by omega)] at h1; simp at h1
    · intro h2 h3 w' _
      rw [← hlen] at h2 h3
      exact hr' h2 h3 _ h1
  · have hu1 : Act.onUnwind (do let len ← addUsize b w.vec.len 1; reserve b ty len : Act (World α) Unit) (World.drop item) w = (.error .abort, w₁) := by
      simp only [Act.onUnwind, hr0, h1]; simp
    rw [Act.bind_error hu1]
    exact ⟨.inr (.inr ⟨w₁, rfl, h2, by omega⟩), fun _ _ w' h => by simp at h⟩

/-- `pop`. -/
theorem pop_rel {w : World α} {l : List α} (h : VecRel ty w.mem w.vec l) (hf : Fresh w.mem) :
    ∃ w', pop ty w = (.ok l.getLast?, w') ∧ VecRel ty w'.mem w'.vec l.dropLast ∧ Frame w w' ∧ w'.mem = w.mem := by
  unfold pop
  simp only [Act.get_bind_run]
  have hlen := h.len
  have hle := h.len_le
  by_cases he : w.vec.isEmpty = true
  · rw [if_pos he]
    simp [SVec.isEmpty] at he
    have : l = [] := List.eq_nil_of_length_eq_zero (by omega)
    subst this
    exact ⟨w, rfl, h, Frame.refl hf, rfl⟩
  · rw [if_neg he]
    simp [SVec.isEmpty] at he
    have hp : ∃ p, asPtr w = (.ok p, w) := by
      rcases asPtr_ok h with ⟨-, -, h, -⟩ | ⟨-, -, -, -, -, p, -, h, -⟩
      · exact ⟨_, h⟩
      · exact ⟨_, h⟩
    obtain ⟨p, hp⟩ := hp
    rw [Act.bind_ok hp]
    simp only [Act.modify_bind_run]
    have hlast : l.getLast? = l[w.vec.len - 1]? := by rw [List.getLast?_eq_getElem?, hlen]
    have hsome : ∃ a, l[w.vec.len - 1]? = some a := ⟨_, List.getElem?_eq_getElem (by omega)⟩
    obtain ⟨a, ha⟩ := hsome
    rw [Act.bind_ok (read_ok h hp ha (len := w.vec.len - 1)), hlast, ha]
    refine ⟨_, rfl, ⟨by simp; omega, by show w.vec.len - 1 ≤ w.vec.cap; omega, h.typed, ?_⟩,
      Frame.inPlace hf rfl rfl rfl rfl (fun _ _ => rfl) (h.own_lt hf), rfl⟩
    have hdl : ∀ i, i < l.dropLast.length → l.dropLast[i]? = l[i]? := by
      intro i hi
      simp at hi
      rw [List.getElem?_dropLast]
      simp [hi]
    rcases h.place with ⟨h1, cells, hd, hc⟩ | ⟨h1, h2, h3, h4, q, blk, hd, hb, h5, h6⟩
    · exact .inl ⟨h1, cells, hd, fun i hi => by rw [hdl i hi]; simp at hi; exact hc i (by omega)⟩
    · exact .inr ⟨h1, h2, h3, h4, q, blk, hd, hb, h5, fun i hi => by rw [hdl i hi]; simp at hi; exact h6 i (by omega)⟩

theorem readRange_ok {w : World α} {l : List α} (h : VecRel ty w.mem w.vec l) {p : Ptr} (hp : asPtr w = (.ok p, w))
    (k i : Nat) (hk : i + k = l.length) : readRange ty p i k w = (.ok (l.drop i), w) := by
  induction k generalizing i with
  | zero => rw [readRange, List.drop_eq_nil_of_le (by omega)]; rfl
  | succ k ih =>
    have hi : l[i]? = some l[i] := List.getElem?_eq_getElem (by omega)
    rw [readRange, Act.bind_ok (read_ok' h hp hi), Act.bind_ok (ih (i + 1) (by omega))]
    rw [List.drop_eq_getElem_cons (by omega : i < l.length)]
    rfl

theorem VecRel.asPtr {w : World α} {l : List α} (h : VecRel ty w.mem w.vec l) : ∃ p, asPtr w = (.ok p, w) := by
  rcases asPtr_ok h with ⟨-, -, h, -⟩ | ⟨-, -, -, -, -, p, -, h, -⟩
  · exact ⟨_, h⟩
  · exact ⟨_, h⟩

/-- The bounds check on the inline buffer succeeds. -/
theorem VecRel.inBounds {w : World α} {l : List α} (h : VecRel ty w.mem w.vec l) :
    w.vec.isHeap = true ∨ w.vec.len ≤ w.vec.n := by
  have := h.len_le
  rcases asPtr_ok h with ⟨-, h1, -⟩ | ⟨h1, -⟩
  · exact .inr (by omega)
  · exact .inl h1

/-- `as_slice`. -/
theorem asSlice_rel {w : World α} {l : List α} (h : VecRel ty w.mem w.vec l) : asSlice ty w = (.ok l, w) := by
  unfold asSlice
  simp only [Act.get_bind_run]
  obtain ⟨p, hp⟩ := h.asPtr
  rw [Act.bind_ok hp]
  have hr := readRange_ok h hp w.vec.len 0 (by rw [h.len]; omega)
  rw [List.drop_zero] at hr
  by_cases hh : w.vec.isHeap = true
  · rw [if_pos hh, hr]
  · rw [if_neg hh, if_pos (h.inBounds.resolve_left hh), hr]

/-- `replace` through `as_slice_mut`. -/
theorem replaceAt_rel {w : World α} {l : List α} (h : VecRel ty w.mem w.vec l) (hf : Fresh w.mem) (i : Nat) (item : α) :
    (∀ old, l[i]? = some old → ∃ w', replaceAt ty i item w = (.ok old, w') ∧ VecRel ty w'.mem w'.vec (l.set i item) ∧
      Frame w w' ∧ w'.mem.dropped = w.mem.dropped ∧ w'.mem.requests = w.mem.requests) ∧
    (l[i]? = none → replaceAt ty i item w = (.error .bounds, World.drop item w)) := by
  unfold replaceAt
  simp only [Act.get_bind_run]
  obtain ⟨p, hp⟩ := h.asPtr
  rw [Act.bind_ok hp]
  have hb : Act.onUnwind (if w.vec.isHeap = true ∨ w.vec.len ≤ w.vec.n then (pure () : Act (World α) Unit) else Act.throw .bounds)
      (World.drop item) w = (.ok (), w) := by
    rw [if_pos h.inBounds]; rfl
  rw [Act.bind_ok hb]
  have hlen := h.len
  have hle := h.len_le
  constructor
  · intro old hold
    have hi : i < l.length := by
      apply Nat.lt_of_not_le; intro hle; rw [List.getElem?_eq_none_iff.mpr hle] at hold; simp at hold
    rw [if_pos (by omega), Act.bind_ok (read_ok' h hp hold)]
    obtain ⟨w', h1, h2, h3, h4, h5, h6, h7⟩ := write_ok h hf hp (i := i) (by omega) item (l.set i item) (len := w.vec.len)
      (by simp; omega) hle (by
        intro j hj
        simp at hj
        by_cases hji : j = i
        · subst hji; simp [hi]
        · rw [if_neg hji, List.getElem?_set_ne (Ne.symm hji)]) (by intro j hj _; simpa using hj)
    rw [Act.bind_ok h1]
    rw [← h2] at h6 h7
    exact ⟨w', rfl, h6, h7, h5, h4⟩
  · intro hnone
    rw [if_neg (by have := List.getElem?_eq_none_iff.mp hnone; omega)]
    rfl

theorem dropRange_ok {w : World α} {l : List α} (h : VecRel ty w.mem w.vec l) {p : Ptr} (hp : asPtr w = (.ok p, w))
    (k i : Nat) (hk : i + k = l.length) (log : List α) :
    dropRange ty p i k { w with mem := { w.mem with dropped := log } } =
      (.ok (), { w with mem := { w.mem with dropped := log ++ l.drop i } }) := by
  induction k generalizing i log with
  | zero => rw [dropRange, List.drop_eq_nil_of_le (by omega), List.append_nil]; rfl
  | succ k ih =>
    have hi : l[i]? = some l[i] := List.getElem?_eq_getElem (by omega)
    have h' : VecRel ty ({ w.mem with dropped := log } : Mem α) w.vec l := h.frame fun _ _ => rfl
    have hp' : Parcom.asPtr ({ w with mem := { w.mem with dropped := log } } : World α) = (.ok p, { w with mem := { w.mem with dropped := log } }) := by
      have hp := hp
      unfold Parcom.asPtr at hp ⊢
      revert hp
      dsimp only
      split <;> split <;> simp
    rw [dropRange, Act.bind_ok (read_ok' (w := { w with mem := { w.mem with dropped := log } }) h' hp' hi)]
    simp only [Act.modify_bind_run]
    have := ih (i + 1) (by omega) (log ++ [l[i]])
    rw [List.drop_eq_getElem_cons (by omega : i < l.length)]
    simpa [World.drop] using this

/-- `drop`. -/
theorem dropVec_rel {w : World α} {l : List α} (h : VecRel ty w.mem w.vec l) :
    ∃ w', dropVec ty w = (.ok (), w') ∧ w'.mem.dropped = w.mem.dropped ++ l ∧ w'.mem.requests = w.mem.requests ∧
      w'.mem.next = w.mem.next ∧ w'.mem.grants = w.mem.grants ∧
      (∀ q, w.vec.block ≠ some q → w'.mem.blocks q = w.mem.blocks q) ∧ (∀ q, w.vec.block = some q → w'.mem.blocks q = none) := by
  unfold dropVec
  simp only [Act.get_bind_run]
  obtain ⟨p, hp⟩ := h.asPtr
  rw [Act.bind_ok hp]
  have hdr := dropRange_ok h hp w.vec.len 0 (by rw [h.len]; omega) w.mem.dropped
  rw [List.drop_zero] at hdr
  have hdr : dropRange ty p 0 w.vec.len w = _ := hdr
  rw [Act.bind_ok hdr]
  rcases asPtr_ok h with ⟨hh, -, -, cells, hd, -⟩ | ⟨hh, -, -, -, h4, q, blk, hp', hd, hb, hbytes, -⟩
  · rw [if_neg (by simp [hh])]
    exact ⟨_, rfl, rfl, rfl, rfl, rfl, fun _ _ => rfl, fun q hq => by simp [SVec.block, hd] at hq⟩
  · rw [if_pos hh]
    rw [hp] at hp'
    simp at hp'
    subst hp'
    have hl : ∀ w' : World α, layoutArray ty w.vec.cap w' = (.ok (ty.size * w.vec.cap), w') := by intro w'; simp [layoutArray, h4]
    rw [Act.bind_ok (hl _)]
    refine ⟨{ w with mem := { w.mem with dropped := w.mem.dropped ++ l }.set q none }, ?_, rfl, rfl, rfl, rfl, ?_, ?_⟩
    · simp [onMem, Mem.dealloc, hb, hbytes]
    · intro r hr
      rw [SVec.block, hd] at hr
      exact if_neg fun (h : r = q) => hr (congrArg some h.symm)
    · intro r hr
      rw [SVec.block, hd] at hr
      exact if_pos (Option.some.inj hr).symm

end Parcom
