import Verif.Lemmas.AliasingVec
/-!
# The methods of `ShortVec` under Stacked Borrows
-/
namespace Parcom.Aliasing
open Classical

/-- The bytes of the vector, and its elements on the heap. -/
def home (v : Cfg) (d : Fields) : Range := fun l => own v l ∨ (v.N < d.cap ∧ heapElems v d.block 0 d.cap l)

/-- The bottoms of the stacks: `o` for the bytes of the vector, the pointer for the elements on the heap. -/
def chain (o : Stack) (d : Fields) : Loc → Stack
  | .heap _ _ => [⟨.unique, d.ptr, none⟩]
  | _ => o

/-- The fields make sense. -/
structure Wf (v : Cfg) (d : Fields) : Prop where
  cap : v.N ≤ d.cap
  len : d.len ≤ d.cap
  block : d.block = d.ptr

/-- Between two methods. -/
def Base (v : Cfg) (d : Fields) (o : Stack) (outer : List Nat) (st : St) : Prop :=
  Inv v d (home v d) (chain o d) (fun _ _ => False) outer [] st

variable {v : Cfg} {d : Fields} {o : Stack} {outer : List Nat} {st : St} {t : Nat}

theorem own_home {l : Loc} (h : own v l) : home v d l := .inl h
theorem own_chain {l : Loc} (h : own v l) : chain o d l = o := by
  cases l <;> simp_all [own, chain]
theorem heap_chain {l : Loc} {b x y : Nat} (h : heapElems v b x y l) : chain o d l = [⟨.unique, d.ptr, none⟩] := by
  cases l <;> simp_all [heapElems, chain]
theorem heap_own {l : Loc} {b x y : Nat} (h : heapElems v b x y l) : ¬ own v l := by
  cases l <;> simp_all [heapElems, own]
theorem heapElems_mono {l : Loc} {b x y x' y' : Nat} (h : heapElems v b x y l) (hx : x' ≤ x) (hy : y ≤ y') :
    heapElems v b x' y' l := by
  cases l <;> simp_all [heapElems]; omega

theorem Base.can (ht : Heads o t) {live : Loc → Nat → Prop} : Can (chain o d) live (own v) t :=
  fun l hl => .inr (by rw [own_chain hl]; exact ht)

theorem heads_cons {i : Item} (h : i.perm = .unique) : Heads (i :: o) i.tag := ⟨i, o, rfl, rfl, h⟩

theorem Base.enter {c : Nat} (h : Base v d o (c :: outer) st) (ht : Heads o t) :
    Ok (exclusive t (own v) (some c)) st fun n st' => Base v d (⟨.unique, n, some c⟩ :: o) (c :: outer) st' := by
  refine (h.ok_exclusive (fun l hl => own_home hl) (fun l hl => by rw [own_chain hl]; exact ht) (by simp)).mono fun n st' h1 => ?_
  refine h1.mono (fun _ => id) (fun l hl => ?_) (by simp)
  rcases hl with hl | ⟨-, hl⟩
  · rw [if_pos hl, own_chain hl, own_chain hl]
  · rw [if_neg (heap_own hl), heap_chain hl, heap_chain hl]

theorem Base.leave {c n : Nat} (h : Base v d (⟨.unique, n, some c⟩ :: o) (c :: outer) st) :
    Base v d o outer { st with calls := st.calls.erase c } := by
  refine h.endMut fun l hl => ?_
  rcases hl with hl | ⟨-, hl⟩
  · rw [own_chain hl, own_chain hl]; exact .inr ⟨_, rfl, rfl⟩
  · rw [heap_chain hl, heap_chain hl]; exact .inl rfl

theorem Inv.setCap {H : Range} {ch : Loc → Stack} {live : Loc → Nat → Prop} {inner : List Nat}
    (h : Inv v d H ch live outer inner st) (cap : Nat) : Inv v { d with cap } H ch live outer inner { st with cap } :=
  ⟨rfl, h.len, h.block, h.ptr, h.calls, h.young, h.nodup, h.fine⟩
theorem Inv.setLen {H : Range} {ch : Loc → Stack} {live : Loc → Nat → Prop} {inner : List Nat}
    (h : Inv v d H ch live outer inner st) (len : Nat) : Inv v { d with len } H ch live outer inner { st with len } :=
  ⟨h.cap, rfl, h.block, h.ptr, h.calls, h.young, h.nodup, h.fine⟩
theorem Inv.setPtr {H : Range} {ch : Loc → Stack} {live : Loc → Nat → Prop} {inner : List Nat}
    (h : Inv v d H ch live outer inner st) (block ptr : Nat) :
    Inv v { d with block, ptr } H ch live outer inner { st with block, ptr } :=
  ⟨h.cap, h.len, rfl, rfl, h.calls, h.young, h.nodup, h.fine⟩

/-- The elements of a block. -/
def blockOf (b : Nat) : Range
  | .heap bl _ => bl = b
  | _ => False

theorem Inv.ok_allocate {H : Range} {ch : Loc → Stack} {live : Loc → Nat → Prop} (h : Inv v d H ch live outer [] st)
    (hn : ∀ l, blockOf st.next l → ¬ H l) :
    Ok allocate st fun bp st' => bp.1 = bp.2 ∧ ∃ ch', (∀ l, blockOf bp.1 l → ch' l = [⟨.unique, bp.2, none⟩]) ∧
      (∀ l, ¬ blockOf bp.1 l → ch' l = ch l) ∧
      Inv v d (fun l => H l ∨ blockOf bp.1 l) ch' (fun l u => live l u ∧ ¬ blockOf bp.1 l) outer [] st' := by
  refine ⟨_, _, rfl, rfl, fun l => if blockOf st.next l then [⟨.unique, st.next, none⟩] else ch l, fun l hl => if_pos hl,
    fun l hl => if_neg hl, h.cap, h.len, h.block, h.ptr, h.calls, fun c hc => Nat.lt_succ_of_lt (h.young c hc), h.nodup, ?_⟩
  intro l hl
  have hnew : Fine (sharedPerm v l) [⟨.unique, st.next, none⟩] (fun u => live l u ∧ ¬ True) outer st.calls (st.next + 1)
      [⟨.unique, st.next, none⟩] := ⟨⟨[], rfl, by simp, by simp, by simp⟩, by simp, by simp⟩
  by_cases hb : blockOf st.next l
  · cases l with
    | heap b i =>
      have hb' : b = st.next := hb
      subst hb'
      simp only [blockOf, if_true]
      exact hnew
    | cap => cases hb
    | len => cases hb
    | data k => cases hb
  · have hH : H l := hl.elim id fun h => absurd h hb
    have hf := ((h.fine l hH).later (Nat.le_succ st.next)).less (live' := fun u => live l u ∧ ¬ blockOf st.next l) fun u hu => hu.1
    simp only [if_neg hb]
    cases l with
    | heap b i =>
      have hb' : b ≠ st.next := hb
      simp only [hb', if_false]
      exact hf
    | cap => exact hf
    | len => exact hf
    | data k => exact hf

/-- A new block is new. -/
theorem Base.unused (h : Base v d o outer st) (hw : Wf v d) : ∀ l, blockOf st.next l → ¬ home v d l := by
  rintro l hb (hl | ⟨hc, hl⟩)
  · cases l <;> simp_all [blockOf, own]
  · have := (h.fine l (.inr ⟨hc, hl⟩))
    rw [heap_chain hl] at this
    obtain ⟨ys, hs, -⟩ := this.split
    have hp := (this.old ⟨.unique, d.ptr, none⟩ (by rw [hs]; simp)).1
    cases l with
    | heap b i =>
      have h1 : b = st.next := hb
      have h2 : b = d.block := hl.1
      have h3 := hw.block
      have h4 : d.ptr < st.next := hp
      omega
    | cap => cases hb
    | len => cases hb
    | data k => cases hb

theorem Base.ok_reserveExact (h : Base v d o outer st) (hw : Wf v d) (ht : Heads o t) (cap : Nat) :
    Ok (reserveExact v t cap) st fun _ st' => ∃ d', Wf v d' ∧ d'.cap = max d.cap cap ∧ d'.len = d.len ∧ Base v d' o outer st' := by
  refine .call (.bind ((Base.enter h.beginMut ht).mono fun self st₁ h1 => ?_))
  have hself : Heads (⟨.unique, self, some st.next⟩ :: o) self := heads_cons (i := ⟨.unique, self, some st.next⟩) rfl
  refine .bind ((h1.ok_read (r := (· = .cap)) (fun l hl => .inl (by rw [hl]; trivial))
    (fun l hl => .inr (by rw [hl]; exact hself))).mono fun _ st₂ h2 => ?_)
  refine .bind (.get ?_)
  rw [h2.cap]
  by_cases hc : cap ≤ d.cap
  · simp only [if_pos hc]
    refine .pure ⟨d, hw, by omega, rfl, ?_⟩
    exact Base.leave h2
  simp only [if_neg hc]
  refine .bind ((h2.ok_isHeap (fun _ => own_home) (Base.can hself)).mono fun b st₃ ⟨hb, h3⟩ => ?_)
  by_cases hheap : v.N < d.cap
  · simp only [hb, hheap, decide_true, if_true]
    refine .bind ((h3.ok_read (r := (· = .cap)) (fun l hl => .inl (by rw [hl]; trivial))
      (fun l hl => .inr (by rw [hl]; exact hself))).mono fun _ st₄ h4 => ?_)
    refine .bind ((h4.ok_deref (fun l hl => .inl (ptrBytes_own hl)) fun l hl => .inr (by
      rw [own_chain (v := v) (ptrBytes_own hl)]; exact hself)).mono
      fun heap st₅ h5 => ?_)
    refine .bind ((h5.ok_read (fun l hl => .inl (ptrBytes_own hl)) fun l hl => .inl (.inr ⟨hl, rfl⟩)).mono fun _ st₆ h6 => ?_)
    refine .bind (.get ?_)
    rw [h6.ptr, h6.block, h6.cap]
    refine .bind ((h6.ok_write (fun l hl => .inr ⟨hheap, hl⟩) fun l hl => .inl (by
      rw [heap_chain hl]; exact ⟨_, _, rfl, rfl, rfl⟩)).mono fun _ st₇ h7 => ?_)
    have h7' : Base v d (⟨.unique, self, some st.next⟩ :: o) (st.next :: outer) st₇ :=
      h7.mono (fun _ => id) (fun _ _ => rfl) (by simp)
    refine .bind ((h7'.ok_allocate (h7'.unused hw)).mono fun bp st₈ ⟨hbp, ch, hnew, hold, h8⟩ => ?_)
    have hno : ∀ l, own v l → ch l = ⟨.unique, self, some st.next⟩ :: o := by
      intro l hl
      rw [hold l (by cases l <;> simp_all [own, blockOf]), own_chain hl]
    refine .bind ((h8.ok_write (t := self) (r := (· = .cap)) (fun l hl => .inl (.inl (by rw [hl]; trivial))) fun l hl => .inl (by
      rw [hno l (by rw [hl]; trivial)]; exact hself)).mono fun _ st₉ h9 => ?_)
    refine .bind (.modify ?_)
    refine .bind (((h9.setCap cap).ok_write (t := self) (r := ptrBytes) (fun l hl => .inl (.inl (ptrBytes_own hl))) fun l hl => .inl (by
      rw [hno l (ptrBytes_own hl)]; exact hself)).mono fun _ st₁₀ h10 => ?_)
    refine .modify ⟨{ cap, len := d.len, block := bp.1, ptr := bp.2 }, ⟨by have := hw.cap; simp; omega, by have := hw.len; simp; omega, hbp⟩,
      by simp; omega, rfl, Base.leave (n := self) ?_⟩
    refine (h10.setPtr bp.1 bp.2).mono (fun l hl => ?_) (fun l hl => ?_) (by simp)
    · rcases hl with hl | ⟨-, hl⟩
      · exact .inl (.inl hl)
      · refine .inr ?_
        cases l <;> simp_all [heapElems, blockOf]
    · rcases hl with hl | ⟨-, hl⟩
      · rw [hno l hl, own_chain hl]
      · have : blockOf bp.1 l := by cases l <;> simp_all [heapElems, blockOf]
        rw [hnew l this, heap_chain hl]
  · simp only [hb, hheap, decide_false, Bool.false_eq_true, if_false]
    have hlen : d.len ≤ v.N := by have := hw.len; omega
    refine .bind ((h3.ok_allocate (Base.unused h3 hw)).mono fun bp st₄ ⟨hbp, ch, hnew, hold, h4⟩ => ?_)
    have hno : ∀ l, own v l → ch l = ⟨.unique, self, some st.next⟩ :: o := by
      intro l hl
      rw [hold l (by cases l <;> simp_all [own, blockOf]), own_chain hl]
    refine .bind ((h4.ok_asPtrStack (fun l hl => .inl (.inl hl)) fun l hl => .inr (by
      rw [hno l hl]; exact hself)).mono fun src st₅ h5 => ?_)
    refine .bind ((h5.ok_read (t := self) (r := (· = .len)) (fun l hl => .inl (.inl (by rw [hl]; trivial))) fun l hl => .inr (by
      rw [hno l (by rw [hl]; trivial)]; exact hself)).mono fun _ st₆ h6 => ?_)
    refine .bind (.get ?_)
    rw [h6.len]
    refine .bind ((h6.ok_read (t := src) (fun l hl => .inl (.inl (bufBytes_own (inlineElems_buf hlen hl)))) fun l hl =>
      .inl (.inr ⟨inlineElems_buf hlen hl, rfl⟩)).mono fun _ st₇ h7 => ?_)
    have hblk : ∀ l {x y}, heapElems v bp.1 x y l → blockOf bp.1 l := by intro l x y hl; cases l <;> simp_all [heapElems, blockOf]
    refine .bind ((h7.ok_write (t := bp.2) (r := heapElems v bp.1 0 d.len) (fun l hl => .inr (hblk l hl)) fun l hl => .inl (by
      rw [hnew l (hblk l hl)]; exact ⟨_, _, rfl, rfl, rfl⟩)).mono fun _ st₈ h8 => ?_)
    refine .bind ((h8.ok_write (t := self) (r := (· = .cap)) (fun l hl => .inl (.inl (by rw [hl]; trivial))) fun l hl => .inl (by
      rw [hno l (by rw [hl]; trivial)]; exact hself)).mono fun _ st₉ h9 => ?_)
    refine .bind (.modify ?_)
    refine .bind (((h9.setCap cap).ok_write (t := self) (r := ptrBytes) (fun l hl => .inl (.inl (ptrBytes_own hl))) fun l hl => .inl (by
      rw [hno l (ptrBytes_own hl)]; exact hself)).mono fun _ st₁₀ h10 => ?_)
    refine .modify ⟨{ cap, len := d.len, block := bp.1, ptr := bp.2 }, ⟨by have := hw.cap; simp; omega, by have := hw.len; simp; omega, hbp⟩,
      by simp; omega, rfl, Base.leave (n := self) ?_⟩
    refine (h10.setPtr bp.1 bp.2).mono (fun l hl => ?_) (fun l hl => ?_) (by simp)
    · rcases hl with hl | ⟨-, hl⟩
      · exact .inl (.inl hl)
      · exact .inr (hblk l hl)
    · rcases hl with hl | ⟨-, hl⟩
      · rw [hno l hl, own_chain hl]
      · rw [hnew l (hblk l hl), heap_chain hl]

theorem Base.ok_reserve (h : Base v d o outer st) (hw : Wf v d) (ht : Heads o t) (cap : Nat) :
    Ok (reserve v t cap) st fun _ st' => ∃ d', Wf v d' ∧ d'.cap = (if cap ≤ d.cap then d.cap else max (d.cap * 2) cap) ∧
      d'.len = d.len ∧ Base v d' o outer st' := by
  refine .call (.bind ((Base.enter h.beginMut ht).mono fun self st₁ h1 => ?_))
  have hself : Heads (⟨.unique, self, some st.next⟩ :: o) self := heads_cons (i := ⟨.unique, self, some st.next⟩) rfl
  refine .bind ((h1.ok_read (r := (· = .cap)) (fun l hl => .inl (by rw [hl]; trivial))
    (fun l hl => .inr (by rw [hl]; exact hself))).mono fun _ st₂ h2 => ?_)
  refine .bind (.get ?_)
  rw [h2.cap]
  by_cases hc : cap ≤ d.cap
  · simp only [if_pos hc]
    exact .pure ⟨d, hw, rfl, rfl, Base.leave h2⟩
  simp only [if_neg hc]
  refine .bind ((h2.ok_read (r := (· = .cap)) (fun l hl => .inl (by rw [hl]; trivial))
    (fun l hl => .inr (by rw [hl]; exact hself))).mono fun _ st₃ h3 => ?_)
  refine .bind (.get ?_)
  rw [h3.cap]
  refine (Base.ok_reserveExact h3 hw hself _).mono fun _ st₄ ⟨d', w, g1, g2, h4⟩ => ⟨d', w, by omega, g2, Base.leave h4⟩

/-- Writing through what `as_ptr` gives is allowed on the heap, for elements of no size, and for interior mutability. -/
def Tame (v : Cfg) (d : Fields) : Prop := v.N < d.cap ∨ ¬ (v.freeze = true ∧ 0 < v.size)

theorem elems_home {a b : Nat} {l : Loc} (hw : Wf v d) (hb : b ≤ d.cap) (hcap : st.cap = d.cap) (hbl : st.block = d.block)
    (hl : elems v st a b l) : home v d l ∧ (v.N < d.cap → heapElems v d.block 0 d.cap l) ∧
      (¬ v.N < d.cap → bufBytes v l ∧ 0 < v.size) := by
  unfold elems at hl
  rw [hcap, hbl] at hl
  by_cases hc : v.N < d.cap
  · rw [if_pos hc] at hl
    have := heapElems_mono hl (Nat.zero_le _) hb
    exact ⟨.inr ⟨hc, this⟩, fun _ => this, fun h => absurd hc h⟩
  · rw [if_neg hc] at hl
    have := inlineElems_buf (by omega) hl
    refine ⟨.inl (bufBytes_own this), fun h => absurd h hc, fun _ => ⟨this, ?_⟩⟩
    cases l with
    | data k =>
      obtain ⟨h1, h2⟩ := hl
      refine Nat.pos_of_ne_zero fun h0 => ?_
      rw [h0] at h2
      simp at h2
    | cap => cases hl
    | len => cases hl
    | heap => cases hl

theorem bufBytes_srw {l : Loc} (hl : bufBytes v l) (hf : v.freeze = false) : sharedPerm v l = .srw := by
  cases l <;> simp_all [bufBytes, sharedPerm]

/-- Writing elements by what `as_ptr` gave. -/
theorem Inv.ok_writeElems {live : Loc → Nat → Prop} (h : Inv v d (home v d) (chain o d) live outer [] st) (hw : Wf v d)
    (hp : v.N < d.cap → t = d.ptr) (hl : ∀ l, ¬ v.N < d.cap → bufBytes v l → live l t) {st₀ : St} (hc : st₀.cap = d.cap)
    (hbl : st₀.block = d.block) {a b : Nat} (hb : b ≤ d.cap) (htame : Tame v d ∨ a = b) :
    Ok (touch .write t (elems v st₀ a b)) st fun _ st' =>
      Inv v d (home v d) (chain o d) (fun l u => live l u ∧ ¬ elems v st₀ a b l) outer [] st' := by
  refine h.ok_write (fun l hl => (elems_home hw hb hc hbl hl).1) fun l hle => ?_
  obtain ⟨-, g1, g2⟩ := elems_home hw hb hc hbl hle
  by_cases hheap : v.N < d.cap
  · refine .inl ?_
    rw [heap_chain (g1 hheap), hp hheap]
    exact ⟨_, _, rfl, rfl, rfl⟩
  · obtain ⟨g3, g4⟩ := g2 hheap
    rcases htame with htame | rfl
    · refine .inr ⟨bufBytes_srw g3 ?_, hl l hheap g3⟩
      rcases htame with h | h
      · exact absurd h hheap
      · cases hf : v.freeze with
        | false => rfl
        | true => exact absurd ⟨hf, g4⟩ h
    · exfalso
      unfold elems at hle
      rw [hc, if_neg hheap] at hle
      cases l <;> simp_all [inlineElems]
      omega

theorem Base.ok_asPtr (h : Base v d o outer st) (ht : Heads o t) :
    Ok (asPtr v t) st fun p st' => (v.N < d.cap → p = d.ptr) ∧ ∃ live : Loc → Nat → Prop,
      (∀ l, ¬ v.N < d.cap → bufBytes v l → live l p) ∧ Inv v d (home v d) (chain o d) live outer [] st' :=
  (Inv.ok_asPtr (fun _ => own_home) h (Base.can ht)).mono fun _ _ ⟨hp, h1⟩ => ⟨hp, _, fun l hc hb => .inr ⟨hc, hb, rfl⟩, h1⟩

theorem heads_self (n : Nat) (p : Option Nat) : Heads (⟨.unique, n, p⟩ :: o) n := ⟨_, _, rfl, rfl, rfl⟩

theorem Base.of {live : Loc → Nat → Prop} (h : Inv v d (home v d) (chain o d) live outer [] st) : Base v d o outer st :=
  h.mono (fun _ => id) (fun _ _ => rfl) (by simp)

/-- `push`, where writing is allowed. -/
theorem Base.ok_push (h : Base v d o outer st) (hw : Wf v d) (ht : Heads o t)
    (htame : v.N < max d.cap (d.len + 1) ∨ ¬ (v.freeze = true ∧ 0 < v.size)) :
    Ok (push v t) st fun _ st' => ∃ d', Wf v d' ∧ d.cap ≤ d'.cap ∧ d'.len = d.len + 1 ∧ Base v d' o outer st' := by
  refine .call (.bind ((Base.enter h.beginMut ht).mono fun self st₁ h1 => ?_))
  have hself := heads_self (o := o) self (some st.next)
  refine .bind ((h1.ok_read (r := (· = .len)) (fun l hl => .inl (by rw [hl]; trivial))
    (fun l hl => .inr (by rw [hl]; exact hself))).mono fun _ st₂ h2 => ?_)
  refine .bind (.get ?_)
  rw [h2.len]
  refine .bind ((Base.ok_reserve h2 hw hself (d.len + 1)).mono fun _ st₃ ⟨d', w, g1, g2, h3⟩ => ?_)
  have hge : d.cap ≤ d'.cap ∧ d.len + 1 ≤ d'.cap := by split at g1 <;> omega
  refine .bind ((Base.ok_asPtr h3 hself).mono fun p st₄ ⟨hp, live, hl, h4⟩ => ?_)
  refine .bind (.get ?_)
  refine .bind ((h4.ok_writeElems w hp hl h4.cap h4.block hge.2 (.inl ?_)).mono fun _ st₅ h5 => ?_)
  · rcases htame with h | h
    · exact .inl (by omega)
    · exact .inr h
  refine .bind ((h5.ok_write (t := self) (r := (· = .len)) (fun l hl => .inl (by rw [hl]; trivial))
    (fun l hl => .inl (by rw [hl]; exact hself))).mono fun _ st₆ h6 => ?_)
  refine .modify ⟨{ d' with len := d.len + 1 }, ⟨w.cap, hge.2, w.block⟩, hge.1, rfl, Base.leave (n := self) ?_⟩
  exact Base.of (h6.setLen (d.len + 1))

/-- `push` to the inline buffer. -/
theorem Base.bad_push (h : Base v d o outer st) (hw : Wf v d) (ht : Heads o t) (hin : max d.cap (d.len + 1) ≤ v.N)
    (hf : v.freeze = true) (hs : 0 < v.size) : push v t st = none := by
  refine bad_call (Ok.bad ((Base.enter h.beginMut ht).mono fun self st₁ h1 => ?_))
  have hself := heads_self (o := o) self (some st.next)
  refine Ok.bad ((h1.ok_read (r := (· = .len)) (fun l hl => .inl (by rw [hl]; trivial))
    (fun l hl => .inr (by rw [hl]; exact hself))).mono fun _ st₂ h2 => ?_)
  refine Ok.bad (.get ?_)
  rw [h2.len]
  refine Ok.bad ((Base.ok_reserve h2 hw hself (d.len + 1)).mono fun _ st₃ ⟨d', w, g1, g2, h3⟩ => ?_)
  have hcap := hw.cap
  have hin' : ¬ v.N < d'.cap := by rw [g1, if_pos (by omega)]; omega
  refine Ok.bad ((Base.ok_asPtr h3 hself).mono fun p st₄ ⟨hp, live, hl, h4⟩ => ?_)
  refine Ok.bad (.get (bad_bind ?_))
  have hle : (d.len + 1) * v.size ≤ v.N * v.size := Nat.mul_le_mul_right _ (by omega)
  have hlt : d.len * v.size < (d.len + 1) * v.size := by rw [Nat.succ_mul]; omega
  refine h4.bad_write (l := .data (d.len * v.size)) ?_ (.inl ?_) (by simp [sharedPerm, hf]) (hl _ hin' ?_)
  · unfold elems
    rw [h4.cap, if_neg hin']
    exact ⟨Nat.le_refl _, hlt⟩
  · show _ < _; omega
  · show _ < _; omega

theorem Base.ok_pop (h : Base v d o outer st) (hw : Wf v d) (ht : Heads o t) :
    Ok (pop v t) st fun _ st' => Base v { d with len := d.len - 1 } o outer st' := by
  refine .call (.bind ((Base.enter h.beginMut ht).mono fun self st₁ h1 => ?_))
  have hself := heads_self (o := o) self (some st.next)
  refine .bind ((Inv.ok_isEmpty (fun _ => own_home) h1 (Base.can hself)).mono fun b st₂ ⟨hb, h2⟩ => ?_)
  by_cases h0 : d.len = 0
  · simp only [hb, h0, decide_true, if_true]
    refine .pure (Base.leave (n := self) ?_)
    have : d = { d with len := d.len - 1 } := by cases d; simp at h0 ⊢; omega
    rw [show (0 : Nat) - 1 = d.len - 1 by omega, ← this]
    exact h2
  simp only [hb, h0, decide_false, Bool.false_eq_true, if_false]
  refine .bind ((Base.ok_asPtr h2 hself).mono fun p st₃ ⟨hp, live, hl, h3⟩ => ?_)
  refine .bind ((h3.ok_read (t := self) (r := (· = .len)) (fun l hl => .inl (by rw [hl]; trivial))
    (fun l hl => .inr (by rw [hl]; exact hself))).mono fun _ st₄ h4 => ?_)
  refine .bind ((h4.ok_write (t := self) (r := (· = .len)) (fun l hl => .inl (by rw [hl]; trivial))
    (fun l hl => .inl (by rw [hl]; exact hself))).mono fun _ st₅ h5 => ?_)
  refine .bind (.modify ?_)
  rw [h5.len]
  have h5' := h5.setLen (d.len - 1)
  refine .bind ((h5'.ok_read (t := self) (r := (· = .len)) (fun l hl => .inl (by rw [hl]; trivial))
    (fun l hl => .inr (by rw [hl]; exact hself))).mono fun _ st₆ h6 => ?_)
  refine .bind (.get (.bind (.get (.bind (.get ?_)))))
  rw [h6.len]
  have hw' : Wf v { d with len := d.len - 1 } := ⟨hw.cap, by have := hw.len; simp; omega, hw.block⟩
  have hlen : (d.len - 1) + 1 ≤ d.cap := by have := hw.len; omega
  refine (h6.ok_read (fun l hl => (elems_home hw' hlen h6.cap h6.block hl).1) fun l hle => ?_).mono fun _ st₇ h7 => ?_
  · obtain ⟨-, g1, g2⟩ := elems_home hw' hlen h6.cap h6.block hle
    by_cases hheap : v.N < d.cap
    · refine .inr ?_
      rw [heap_chain (g1 hheap), hp hheap]
      exact ⟨_, _, rfl, rfl, rfl⟩
    · refine .inl ⟨hl l hheap (g2 hheap).1, ?_⟩
      rintro rfl
      exact absurd (g2 hheap).1 id
  · exact Base.leave (n := self) (Base.of h7)

theorem Base.ok_asSlice (h : Base v d o outer st) (hw : Wf v d) (ht : Heads o t) :
    Ok (asSlice v t) st fun _ st' => Base v d o outer st' := by
  refine .bind ?_
  have key : Ok (call fun c => do
      let self ← shared v t (own v) (some c)
      if ← isHeap v self then
        let heap ← call fun c => do shared v (← shared v self ptrBytes (some c)) ptrBytes none
        touch .read heap ptrBytes
        touch .read self (· = .len)
        shared v (← get).ptr (heapElems v (← get).block 0 (← get).len) none
      else
        let stack ← call fun c => do shared v (← shared v self (bufBytes v) (some c)) (bufBytes v) none
        touch .read self (· = .len)
        shared v stack (inlineElems v 0 (← get).len) none) st fun n st' => ∃ live : Loc → Nat → Prop,
      (∀ l, elems v st' 0 d.len l → live l n) ∧ Inv v d (home v d) (chain o d) live outer [] st' := by
    refine .call (.bind ((h.beginShared.ok_shared (fun _ => own_home) (Base.can ht) (by simp)).mono fun self st₁ h1 => ?_))
    have hown : ∀ l, own v l → home v d l := fun _ => own_home
    refine .bind ((h1.ok_isHeap hown fun l hl => .inl (.inr ⟨hl, rfl⟩)).mono fun b st₂ ⟨hb, h2⟩ => ?_)
    by_cases hc : v.N < d.cap
    · simp only [hb, hc, decide_true, if_true]
      refine .bind ((h2.ok_deref (fun l hl => .inl (ptrBytes_own hl)) fun l hl => .inl (.inr ⟨ptrBytes_own hl, rfl⟩)).mono
        fun heap st₃ h3 => ?_)
      refine .bind ((h3.ok_read (fun l hl => .inl (ptrBytes_own hl)) fun l hl => .inl (.inr ⟨hl, rfl⟩)).mono fun _ st₄ h4 => ?_)
      refine .bind ((h4.ok_read (t := self) (r := (· = .len)) (fun l hl => .inl (by rw [hl]; trivial))
        (fun l hl => .inl (.inl (.inr ⟨by rw [hl]; trivial, rfl⟩)))).mono fun _ st₅ h5 => ?_)
      refine .bind (.get (.bind (.get (.bind (.get ?_)))))
      rw [h5.ptr, h5.block, h5.len]
      refine (h5.ok_shared (fun l hl => .inr ⟨hc, heapElems_mono hl (Nat.le_refl _) hw.len⟩) (fun l hl => .inr (by
        rw [heap_chain hl]; exact ⟨_, _, rfl, rfl, rfl⟩)) (by simp)).mono fun n st₆ h6 => ?_
      refine ⟨_, fun l hl => ?_, h6.endShared⟩
      unfold elems at hl
      simp only [h6.cap, h6.block, if_pos hc] at hl
      exact .inr ⟨hl, rfl⟩
    · simp only [hb, hc, decide_false, Bool.false_eq_true, if_false]
      have hlen : d.len ≤ v.N := by have := hw.len; omega
      refine .bind ((h2.ok_deref (fun l hl => .inl (bufBytes_own hl)) fun l hl => .inl (.inr ⟨bufBytes_own hl, rfl⟩)).mono
        fun stack st₃ h3 => ?_)
      refine .bind ((h3.ok_read (t := self) (r := (· = .len)) (fun l hl => .inl (by rw [hl]; trivial))
        (fun l hl => .inl (.inl (.inr ⟨by rw [hl]; trivial, rfl⟩)))).mono fun _ st₄ h4 => ?_)
      refine .bind (.get ?_)
      rw [h4.len]
      refine (h4.ok_shared (fun l hl => .inl (bufBytes_own (inlineElems_buf hlen hl))) (fun l hl =>
        .inl (.inr ⟨inlineElems_buf hlen hl, rfl⟩)) (by simp)).mono fun n st₅ h5 => ?_
      refine ⟨_, fun l hl => ?_, h5.endShared⟩
      unfold elems at hl
      simp only [h5.cap, if_neg hc] at hl
      exact .inr ⟨hl, rfl⟩
  refine key.mono fun n st₁ ⟨live, hl, h1⟩ => ?_
  refine .bind (.get (.bind (.get ?_)))
  rw [h1.len]
  refine (h1.ok_read (fun l hl => (elems_home hw hw.len h1.cap h1.block hl).1) fun l hle => .inl (hl l hle)).mono fun _ st₂ h2 => ?_
  exact Base.of h2

theorem Fine.foldAll {perm : Perm} {core : Stack} {live : Nat → Prop} {calls : List Nat} {next : Nat} {s : Stack} :
    ∀ {is : Stack}, Fine perm (is ++ core) live outer calls next s →
      (∀ i ∈ is, i.guarded calls = false ∧ i.guarded outer = false) → Fine perm core live outer calls next s
  | [], h, _ => h
  | i :: is, h, hi => (Fine.fold (i := i) h (hi i (by simp)).1 (hi i (by simp)).2).foldAll fun j hj => hi j (by simp [hj])

theorem Inv.foldAll {H : Range} {ch ch' : Loc → Stack} {live : Loc → Nat → Prop} (h : Inv v d H ch live outer [] st)
    (hc : ∀ l, H l → ∃ is, ch l = is ++ ch' l ∧ ∀ i ∈ is, i.guarded outer = false) : Inv v d H ch' live outer [] st :=
  { h with
    fine := by
      intro l hl
      obtain ⟨is, he, hg⟩ := hc l hl
      have hcalls := h.calls
      simp at hcalls
      have := h.fine l hl
      rw [he] at this
      exact this.foldAll fun i hi => ⟨by rw [hcalls]; exact hg i hi, hg i hi⟩ }

theorem not_guarded {c : Nat} {p : Perm} {n : Nat} (h : c ∉ outer) : (Item.mk p n (some c)).guarded outer = false := by
  simp [Item.guarded, h]

theorem Base.ok_asSliceMut (h : Base v d o outer st) (hw : Wf v d) (ht : Heads o t) :
    Ok (asSliceMut v t) st fun _ st' => Base v d o outer st' := by
  have hcalls := h.calls
  simp at hcalls
  have hc1 : st.next ∉ outer := fun hc => Nat.lt_irrefl _ (h.young _ (by rw [hcalls]; exact hc))
  refine .bind ?_
  have key : Ok (call fun c => do
      let self ← exclusive t (own v) (some c)
      if ← isHeap v self then
        let heap ← call fun c => do shared v (← shared v self ptrBytes (some c)) ptrBytes none
        touch .read heap ptrBytes
        touch .read self (· = .len)
        exclusive (← get).ptr (heapElems v (← get).block 0 (← get).len) none
      else
        let stack ← call fun c => do exclusive (← exclusive self (bufBytes v) (some c)) (bufBytes v) none
        touch .read self (· = .len)
        exclusive stack (inlineElems v 0 (← get).len) none) st fun n st' => ∃ ch, (∀ l, elems v st' 0 d.len l → Heads (ch l) n) ∧
      (∀ l, home v d l → ∃ is, ch l = is ++ chain o d l ∧ ∀ i ∈ is, i.guarded outer = false) ∧
      Inv v d (home v d) ch (fun _ _ => False) outer [] st' := by
    refine .call (.bind ((Base.enter h.beginMut ht).mono fun self st₁ h1 => ?_))
    have hself := heads_self (o := o) self (some st.next)
    refine .bind ((Inv.ok_isHeap (fun _ => own_home) h1 (Base.can hself)).mono fun b st₂ ⟨hb, h2⟩ => ?_)
    by_cases hc : v.N < d.cap
    · simp only [hb, hc, decide_true, if_true]
      refine .bind ((h2.ok_deref (fun l hl => .inl (ptrBytes_own hl)) fun l hl => .inr (by
        rw [own_chain (v := v) (ptrBytes_own hl)]; exact hself)).mono fun heap st₃ h3 => ?_)
      refine .bind ((h3.ok_read (fun l hl => .inl (ptrBytes_own hl)) fun l hl => .inl (.inr ⟨hl, rfl⟩)).mono fun _ st₄ h4 => ?_)
      refine .bind ((h4.ok_read (t := self) (r := (· = .len)) (fun l hl => .inl (by rw [hl]; trivial))
        (fun l hl => .inr (by rw [hl]; exact hself))).mono fun _ st₅ h5 => ?_)
      refine .bind (.get (.bind (.get (.bind (.get ?_)))))
      rw [h5.ptr, h5.block, h5.len]
      refine (h5.ok_exclusive (fun l hl => .inr ⟨hc, heapElems_mono hl (Nat.le_refl _) hw.len⟩) (fun l hl => by
        rw [heap_chain hl]; exact ⟨_, _, rfl, rfl, rfl⟩) (by simp)).mono fun n st₆ h6 => ?_
      refine ⟨_, fun l hl => ?_, fun l hl => ?_, (h6.mono (live' := fun _ _ => False) (fun _ => id) (fun _ _ => rfl)
        (by simp)).endMut (ch' := fun l => if heapElems v d.block 0 d.len l then ⟨.unique, n, none⟩ :: chain o d l else chain o d l)
        fun l hl => ?_⟩
      · unfold elems at hl
        simp only [h6.cap, h6.block, if_pos hc] at hl
        simp only [if_pos hl]
        exact heads_self n none
      · by_cases hr : heapElems v d.block 0 d.len l
        · exact ⟨[⟨.unique, n, none⟩], by simp [hr], by simp [Item.guarded]⟩
        · exact ⟨[], by simp [hr], by simp⟩
      · rcases hl with hl | ⟨-, hl⟩
        · have hr : ¬ heapElems v d.block 0 d.len l := fun h => heap_own h hl
          simp only [if_neg hr, own_chain hl]
          exact .inr ⟨_, rfl, rfl⟩
        · refine .inl ?_
          simp only [heap_chain hl]
    · simp only [hb, hc, decide_false, Bool.false_eq_true, if_false]
      have hlen : d.len ≤ v.N := by have := hw.len; omega
      have hbuf : ∀ l, bufBytes v l → home v d l := fun l hl => .inl (bufBytes_own hl)
      refine .bind (.call ?_)
      have hnd := h2.beginMut.nodup
      simp only [h2.calls, List.nil_append, List.nodup_cons, List.mem_cons, not_or] at hnd
      have hc2 : st₂.next ∉ outer := hnd.1.2
      refine .bind ((h2.beginMut.ok_exclusive hbuf (fun l hl => by rw [own_chain (bufBytes_own hl)]; exact hself) (by simp)).mono
        fun e1 st₃ h3 => ?_)
      refine (h3.ok_exclusive hbuf (fun l hl => by rw [if_pos hl]; exact heads_self _ _) (by simp)).mono fun e2 st₄ h4 => ?_
      have h4' := h4.endMut fun l hl => .inl rfl
      refine .bind ((h4'.ok_read (t := self) (r := (· = .len)) (fun l hl => .inl (by rw [hl]; trivial)) (fun l hl => .inr (by
        have hb : ¬ bufBytes v l := by subst hl; exact id
        rw [if_neg hb, if_neg hb, hl]; exact hself))).mono fun _ st₅ h5 => ?_)
      refine .bind (.get ?_)
      rw [h5.len]
      refine (h5.ok_exclusive (r := inlineElems v 0 d.len) (fun l hl => hbuf l (inlineElems_buf hlen hl)) (fun l hl => by
        rw [if_pos (inlineElems_buf hlen hl)]; exact heads_self _ _) (by simp)).mono fun n st₆ h6 => ?_
      refine ⟨_, fun l hl => ?_, fun l hl => ?_, (h6.mono (live' := fun _ _ => False) (fun _ => id) (fun _ _ => rfl)
        (by simp)).endMut fun l hl => .inl rfl⟩
      · unfold elems at hl
        simp only [h6.cap, if_neg hc] at hl
        simp only [if_pos hl]
        exact heads_self n none
      · rcases hl with hl | ⟨hc', -⟩
        · by_cases hr : inlineElems v 0 d.len l
          · refine ⟨[⟨.unique, n, none⟩, ⟨.unique, e2, none⟩, ⟨.unique, e1, some st₂.next⟩, ⟨.unique, self, some st.next⟩], ?_, ?_⟩
            · simp [hr, inlineElems_buf hlen hr, own_chain hl]
            · simp [not_guarded hc1, not_guarded hc2]; simp [Item.guarded]
          · by_cases hb : bufBytes v l
            · refine ⟨[⟨.unique, e2, none⟩, ⟨.unique, e1, some st₂.next⟩, ⟨.unique, self, some st.next⟩], ?_, ?_⟩
              · simp [hr, hb, own_chain hl]
              · simp [not_guarded hc1, not_guarded hc2]; simp [Item.guarded]
            · refine ⟨[⟨.unique, self, some st.next⟩], ?_, ?_⟩
              · simp [hr, hb, own_chain hl]
              · simp [not_guarded hc1]
        · exact absurd hc' hc
  refine key.mono fun n st₁ ⟨ch, hh, hf, h1⟩ => ?_
  refine .bind (.get (.bind (.get ?_)))
  rw [h1.len]
  refine (h1.ok_write (fun l hl => (elems_home hw hw.len h1.cap h1.block hl).1) fun l hle => .inl (hh l hle)).mono fun _ st₂ h2 => ?_
  exact Base.of (h2.foldAll hf)

theorem Base.ok_drop (h : Base v d o outer st) (hw : Wf v d) (ht : Heads o t) (htame : Tame v d ∨ d.len = 0) :
    Ok (drop v t) st fun _ _ => True := by
  refine .call (.bind ((Base.enter h.beginMut ht).mono fun self st₁ h1 => ?_))
  have hself := heads_self (o := o) self (some st.next)
  refine .bind ((Base.ok_asPtr h1 hself).mono fun p st₂ ⟨hp, live, hl, h2⟩ => ?_)
  refine .bind ((h2.ok_read (t := self) (r := (· = .len)) (fun l hl => .inl (by rw [hl]; trivial))
    (fun l hl => .inr (by rw [hl]; exact hself))).mono fun _ st₃ h3 => ?_)
  refine .bind (.get (.bind (.get ?_)))
  rw [h3.len]
  refine .bind ((h3.ok_writeElems hw hp hl h3.cap h3.block hw.len (htame.imp id Eq.symm)).mono fun _ st₄ h4 => ?_)
  refine .bind ((Inv.ok_isHeap (fun _ => own_home) h4 (Base.can hself)).mono fun b st₅ ⟨hb, h5⟩ => ?_)
  by_cases hc : v.N < d.cap
  · simp only [hb, hc, decide_true, if_true]
    refine .bind ((h5.ok_read (t := self) (r := (· = .cap)) (fun l hl => .inl (by rw [hl]; trivial))
      (fun l hl => .inr (by rw [hl]; exact hself))).mono fun _ st₆ h6 => ?_)
    refine .bind (.get (.bind (.get ?_)))
    rw [h6.cap, h6.block]
    exact (h6.ok_write (fun l hl => .inr ⟨hc, hl⟩) fun l hl => .inl (by
      rw [heap_chain hl, hp hc]; exact ⟨_, _, rfl, rfl, rfl⟩)).mono fun _ _ _ => trivial
  · simp only [hb, hc, decide_false, Bool.false_eq_true, if_false]
    exact .pure trivial

end Parcom.Aliasing
