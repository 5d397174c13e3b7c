import Verif.Lemmas.Aliasing
/-!
# What the methods of `ShortVec` do to the stacks of borrows
-/
namespace Parcom.Aliasing
open Classical

/-- The program has no undefined behaviour, and then `Q`. -/
def Ok {α : Type} (m : M α) (st : St) (Q : α → St → Prop) : Prop := ∃ a st', m st = some (a, st') ∧ Q a st'

section
variable {α β : Type} {st : St}

theorem Ok.bind {m : M α} {f : α → M β} {Q : β → St → Prop} (h : Ok m st fun a st' => Ok (f a) st' Q) : Ok (m >>= f) st Q := by
  obtain ⟨a, st', h1, b, st'', h2, h3⟩ := h
  exact ⟨b, st'', by simp [Bind.bind, StateT.bind, h1, h2], h3⟩
theorem Ok.pure {a : α} {Q : α → St → Prop} (h : Q a st) : Ok (Pure.pure a : M α) st Q := ⟨a, st, rfl, h⟩
theorem Ok.get {Q : St → St → Prop} (h : Q st st) : Ok (MonadState.get : M St) st Q := ⟨st, st, rfl, h⟩
theorem Ok.modify {f : St → St} {Q : PUnit → St → Prop} (h : Q ⟨⟩ (f st)) : Ok (_root_.modify f : M PUnit) st Q := ⟨_, _, rfl, h⟩
theorem Ok.fresh {Q : Nat → St → Prop} (h : Q st.next { st with next := st.next + 1 }) : Ok Aliasing.fresh st Q := ⟨_, _, rfl, h⟩
theorem Ok.mono {m : M α} {P Q : α → St → Prop} (h : Ok m st P) (hi : ∀ a st', P a st' → Q a st') : Ok m st Q := by
  obtain ⟨a, st', h1, h2⟩ := h
  exact ⟨a, st', h1, hi a st' h2⟩
theorem Ok.call {f : Nat → M α} {Q : α → St → Prop}
    (h : Ok (f st.next) { st with next := st.next + 1, calls := st.next :: st.calls } fun a st' =>
      Q a { st' with calls := st'.calls.erase st.next }) : Ok (Aliasing.call f) st Q := by
  obtain ⟨a, st', h1, h2⟩ := h
  exact ⟨a, _, by simp [Aliasing.call, Aliasing.fresh, Bind.bind, StateT.bind, h1, _root_.modify, modifyGet, MonadStateOf.modifyGet,
    StateT.modifyGet, Pure.pure, StateT.pure], h2⟩

/-- Then undefined behaviour. -/
theorem Ok.bad {m : M α} {f : α → M β} (h : Ok m st fun a st' => f a st' = none) : (m >>= f) st = none := by
  obtain ⟨a, st', h1, h2⟩ := h
  simp [Bind.bind, StateT.bind, h1, h2]
theorem bad_bind {m : M α} {f : α → M β} (h : m st = none) : (m >>= f) st = none := by
  simp [Bind.bind, StateT.bind, h]
theorem bad_call {f : Nat → M α} (h : f st.next { st with next := st.next + 1, calls := st.next :: st.calls } = none) :
    Aliasing.call f st = none := by
  simp [Aliasing.call, Aliasing.fresh, Bind.bind, StateT.bind, h, modify, modifyGet, MonadStateOf.modifyGet,
    StateT.modifyGet, Pure.pure]

theorem Ok.eachAt {r : Range} {f : Loc → List Nat → Stack → Option Stack} {Q : Unit → St → Prop} (g : Loc → Stack)
    (h : ∀ l, r l → f l st.calls (st.stacks l) = some (g l))
    (hq : Q () { st with stacks := fun l => if r l then g l else st.stacks l }) : Ok (eachAt r f) st Q := by
  refine ⟨(), _, ?_, hq⟩
  have h1 : ∀ l, r l → f l st.calls (st.stacks l) ≠ none := fun l hl => by rw [h l hl]; simp
  simp only [Aliasing.eachAt, if_pos h1, Option.some.injEq, Prod.mk.injEq, true_and]
  congr 1
  funext l
  by_cases hl : r l
  · simp [hl, h l hl]
  · simp [hl]

theorem bad_eachAt {r : Range} {f : Loc → List Nat → Stack → Option Stack} {l : Loc} (hl : r l)
    (h : f l st.calls (st.stacks l) = none) : eachAt r f st = none := by
  have h1 : ¬ ∀ l, r l → f l st.calls (st.stacks l) ≠ none := fun h' => h' l hl h
  simp only [eachAt, if_neg h1]
end

/-- The values of the fields. -/
structure Fields where
  cap : Nat
  len : Nat
  block : Nat
  ptr : Nat

/-- The bytes of `H` are used as `Fine` says, with the bottoms `ch`. -/
structure Inv (v : Cfg) (d : Fields) (H : Range) (ch : Loc → Stack) (live : Loc → Nat → Prop) (outer inner : List Nat) (st : St) :
    Prop where
  cap : st.cap = d.cap
  len : st.len = d.len
  block : st.block = d.block
  ptr : st.ptr = d.ptr
  calls : st.calls = inner ++ outer
  young : ∀ c ∈ st.calls, c < st.next
  nodup : st.calls.Nodup
  fine : ∀ l, H l → Fine (sharedPerm v l) (ch l) (live l) outer st.calls st.next (st.stacks l)

theorem sharedPerm_cases (v : Cfg) (l : Loc) : sharedPerm v l = .sro ∨ sharedPerm v l = .srw := by
  cases l <;> simp [sharedPerm] <;> cases v.freeze <;> simp

section
variable {v : Cfg} {d : Fields} {H : Range} {ch : Loc → Stack} {live : Loc → Nat → Prop} {outer inner : List Nat} {st : St}
variable {t : Nat} {r : Range}

theorem Inv.mono (h : Inv v d H ch live outer inner st) {H' : Range} {ch' : Loc → Stack} {live' : Loc → Nat → Prop}
    (hH : ∀ l, H' l → H l) (hc : ∀ l, H' l → ch' l = ch l) (hl : ∀ l u, H' l → live' l u → live l u) :
    Inv v d H' ch' live' outer inner st :=
  { h with fine := fun l hh => by rw [hc l hh]; exact (h.fine l (hH l hh)).less fun u hu => hl l u hh hu }

theorem Inv.beginShared (h : Inv v d H ch live outer inner st) :
    Inv v d H ch live outer (st.next :: inner) { st with next := st.next + 1, calls := st.next :: st.calls } where
  cap := h.cap
  len := h.len
  block := h.block
  ptr := h.ptr
  calls := by simp [h.calls]
  young := by
    intro c hc
    rcases List.mem_cons.mp hc with rfl | hc
    · exact Nat.lt_succ_self _
    · exact Nat.lt_succ_of_lt (h.young c hc)
  nodup := List.nodup_cons.mpr ⟨fun hc => Nat.lt_irrefl _ (h.young _ hc), h.nodup⟩
  fine l hl := (h.fine l hl).begin

theorem Inv.endShared {c : Nat} (h : Inv v d H ch live outer (c :: inner) st) :
    Inv v d H ch live outer inner { st with calls := st.calls.erase c } where
  cap := h.cap
  len := h.len
  block := h.block
  ptr := h.ptr
  calls := by simp [h.calls]
  young := fun c' hc => h.young c' (List.mem_of_mem_erase hc)
  nodup := h.nodup.erase c
  fine l hl := (h.fine l hl).return c

theorem Inv.beginMut (h : Inv v d H ch live outer [] st) :
    Inv v d H ch live (st.next :: outer) [] { st with next := st.next + 1, calls := st.next :: st.calls } where
  cap := h.cap
  len := h.len
  block := h.block
  ptr := h.ptr
  calls := by simp [h.calls]
  young := h.beginShared.young
  nodup := h.beginShared.nodup
  fine l hl := by
    have := h.fine l hl
    obtain ⟨⟨ys, h1, h2, h3, h4⟩, h5, h6⟩ := this.begin
    refine ⟨⟨ys, h1, h2, h3, fun i hi => ?_⟩, h5, h6⟩
    have hg := h4 i hi
    have ho := ((this.old i (by rw [h1]; simp [hi])).2)
    cases hp : i.prot with
    | none => simp [Item.guarded, hp]
    | some c =>
      have := ho c hp
      simp only [Item.guarded, hp] at hg ⊢
      have hne : c ≠ st.next := by omega
      simpa [hne] using hg

theorem Inv.fold (h : Inv v d H ch live outer inner st) {ch' : Loc → Stack}
    (hc : ∀ l, H l → ch l = ch' l ∨ ∃ i, ch l = i :: ch' l ∧ i.prot = none) : Inv v d H ch' live outer inner st :=
  { h with
    fine := by
      intro l hl
      have := h.fine l hl
      rcases hc l hl with he | ⟨i, he, hp⟩
      · rw [← he]; exact this
      · rw [he] at this
        exact this.fold (by simp [Item.guarded, hp]) (by simp [Item.guarded, hp]) }

theorem Inv.endMut {c : Nat} (h : Inv v d H ch live (c :: outer) [] st) {ch' : Loc → Stack}
    (hc : ∀ l, H l → ch l = ch' l ∨ ∃ i, ch l = i :: ch' l ∧ i.prot = some c) :
    Inv v d H ch' live outer [] { st with calls := st.calls.erase c } where
  cap := h.cap
  len := h.len
  block := h.block
  ptr := h.ptr
  calls := by simp [h.calls]
  young := fun c' hc => h.young c' (List.mem_of_mem_erase hc)
  nodup := h.nodup.erase c
  fine l hl := by
    have hcalls := h.calls
    simp at hcalls
    have hnd := h.nodup
    rw [hcalls, List.nodup_cons] at hnd
    have := (((h.fine l hl).return c).outside (outer' := outer) (by simp +contextual))
    rcases hc l hl with he | ⟨i, he, hp⟩
    · rw [← he]; exact this
    · rw [he] at this
      refine this.fold ?_ ?_
      · simp [Item.guarded, hp, hcalls, hnd.1]
      · simp [Item.guarded, hp, hnd.1]

/-- The tag can be used like a `&`. -/
def Can (ch : Loc → Stack) (live : Loc → Nat → Prop) (r : Range) (t : Nat) : Prop := ∀ l, r l → live l t ∨ Heads (ch l) t

theorem Inv.ok_shared (h : Inv v d H ch live outer inner st) (hr : ∀ l, r l → H l) (ht : Can ch live r t) {prot : Option Nat}
    (hp : ∀ c, prot = some c → c ∈ inner) :
    Ok (shared v t r prot) st fun n st' => Inv v d H ch (fun l u => live l u ∨ (r l ∧ u = n)) outer inner st' := by
  have hpr : ∀ c, prot = some c → c ∉ outer ∧ c < st.next := by
    intro c hc
    have hm := hp c hc
    have hnd := h.nodup
    rw [h.calls, List.nodup_append] at hnd
    exact ⟨fun ho => hnd.2.2 c hm c ho rfl, h.young c (by rw [h.calls]; simp [hm])⟩
  have key : ∀ l, ∃ s', r l → retagStack st.calls ⟨sharedPerm v l, st.next, prot⟩ t (st.stacks l) = some s' ∧
      Fine (sharedPerm v l) (ch l) (fun u => live l u ∨ u = st.next) outer st.calls (st.next + 1) s' := by
    intro l
    by_cases hl : r l
    · obtain ⟨s', h1, h2⟩ := (h.fine l (hr l hl)).shared (sharedPerm_cases v l) (ht l hl) hpr
      exact ⟨s', fun _ => ⟨h1, h2⟩⟩
    · exact ⟨[], fun h => absurd h hl⟩
  obtain ⟨g, hg⟩ := Classical.axiomOfChoice key
  refine .bind (.fresh (.bind (.eachAt g (fun l hl => (hg l hl).1) (.pure ?_))))
  refine ⟨h.cap, h.len, h.block, h.ptr, h.calls, fun c hc => Nat.lt_succ_of_lt (h.young c hc), h.nodup, fun l hl => ?_⟩
  by_cases hrl : r l
  · have : Fine (sharedPerm v l) (ch l) (fun u => live l u ∨ u = st.next) outer st.calls (st.next + 1) (g l) := (hg l hrl).2
    simp only [if_pos hrl]
    exact this.less fun u hu => hu.elim .inl fun h => .inr h.2
  · simp only [if_neg hrl]
    exact ((h.fine l hl).later (Nat.le_succ _)).less fun u hu => hu.elim id fun h => absurd h.1 hrl

theorem Inv.ok_read (h : Inv v d H ch live outer inner st) (hr : ∀ l, r l → H l) (ht : Can ch live r t) :
    Ok (touch .read t r) st fun _ st' => Inv v d H ch live outer inner st' := by
  have key : ∀ l, ∃ s', r l → readStack st.calls t (st.stacks l) = some s' ∧
      Fine (sharedPerm v l) (ch l) (live l) outer st.calls st.next s' := by
    intro l
    by_cases hl : r l
    · obtain ⟨s', h1, h2⟩ := (h.fine l (hr l hl)).read (sharedPerm_cases v l) (ht l hl)
      exact ⟨s', fun _ => ⟨h1, h2⟩⟩
    · exact ⟨[], fun h => absurd h hl⟩
  obtain ⟨g, hg⟩ := Classical.axiomOfChoice key
  refine .eachAt g (fun l hl => (hg l hl).1) { h with fine := fun l hl => ?_ }
  by_cases hrl : r l
  · simp only [if_pos hrl]; exact (hg l hrl).2
  · simp only [if_neg hrl]; exact h.fine l hl

theorem Inv.ok_write (h : Inv v d H ch live outer [] st) (hr : ∀ l, r l → H l)
    (ht : ∀ l, r l → Heads (ch l) t ∨ (sharedPerm v l = .srw ∧ live l t)) :
    Ok (touch .write t r) st fun _ st' => Inv v d H ch (fun l u => live l u ∧ ¬ r l) outer [] st' := by
  have hcalls := h.calls
  simp at hcalls
  have key : ∀ l, ∃ s', r l → writeStack st.calls t (st.stacks l) = some s' ∧
      Fine (sharedPerm v l) (ch l) (fun _ => False) outer st.calls st.next s' := by
    intro l
    by_cases hl : r l
    · have hf := h.fine l (hr l hl)
      rw [hcalls] at hf ⊢
      rcases ht l hl with ht | ⟨hp, ht⟩
      · obtain ⟨s', h1, h2⟩ := hf.write ht
        exact ⟨s', fun _ => ⟨h1, h2⟩⟩
      · rw [hp] at hf ⊢
        obtain ⟨s', h1, h2⟩ := hf.writeRaw ht
        exact ⟨s', fun _ => ⟨h1, h2⟩⟩
    · exact ⟨[], fun h => absurd h hl⟩
  obtain ⟨g, hg⟩ := Classical.axiomOfChoice key
  refine .eachAt g (fun l hl => (hg l hl).1) { h with fine := fun l hl => ?_ }
  by_cases hrl : r l
  · simp only [if_pos hrl]; exact (hg l hrl).2.less fun u hu => hu.2 hrl
  · simp only [if_neg hrl]; exact (h.fine l hl).less fun u hu => hu.1

/-- Writing by a `&` is undefined behaviour. -/
theorem Inv.bad_write (h : Inv v d H ch live outer inner st) {l : Loc} (hr : r l) (hl : H l) (hp : sharedPerm v l = .sro)
    (ht : live l t) : touch .write t r st = none := by
  have := h.fine l hl
  rw [hp] at this
  exact bad_eachAt hr (this.writeShared ht)

theorem Inv.ok_exclusive (h : Inv v d H ch live outer [] st) (hr : ∀ l, r l → H l) (ht : ∀ l, r l → Heads (ch l) t)
    {prot : Option Nat} (hp : ∀ c, prot = some c → c ∈ outer) :
    Ok (exclusive t r prot) st fun n st' =>
      Inv v d H (fun l => if r l then ⟨.unique, n, prot⟩ :: ch l else ch l) (fun l u => live l u ∧ ¬ r l) outer [] st' := by
  have hcalls := h.calls
  simp at hcalls
  have hpr : ∀ c, prot = some c → c < st.next := fun c hc => h.young c (by rw [hcalls]; exact hp c hc)
  have key : ∀ l, ∃ s', r l → retagStack st.calls ⟨.unique, st.next, prot⟩ t (st.stacks l) = some s' ∧
      Fine (sharedPerm v l) (⟨.unique, st.next, prot⟩ :: ch l) (fun _ => False) outer st.calls (st.next + 1) s' := by
    intro l
    by_cases hl : r l
    · have hf := h.fine l (hr l hl)
      rw [hcalls] at hf ⊢
      obtain ⟨s', h1, h2⟩ := hf.exclusive (ht l hl) hpr
      exact ⟨s', fun _ => ⟨h1, h2⟩⟩
    · exact ⟨[], fun h => absurd h hl⟩
  obtain ⟨g, hg⟩ := Classical.axiomOfChoice key
  refine .bind (.fresh (.bind (.eachAt g (fun l hl => (hg l hl).1) (.pure ?_))))
  refine ⟨h.cap, h.len, h.block, h.ptr, h.calls, fun c hc => Nat.lt_succ_of_lt (h.young c hc), h.nodup, fun l hl => ?_⟩
  by_cases hrl : r l
  · simp only [if_pos hrl]
    exact (hg l hrl).2.less fun u hu => hu.2 hrl
  · simp only [if_neg hrl]
    exact ((h.fine l hl).later (Nat.le_succ _)).less fun u hu => hu.1

/-- The fields get other values. -/
theorem Inv.set (h : Inv v d H ch live outer inner st) (d' : Fields) :
    Inv v d' H ch live outer inner { st with cap := d'.cap, len := d'.len, block := d'.block, ptr := d'.ptr } :=
  ⟨rfl, rfl, rfl, rfl, h.calls, h.young, h.nodup, h.fine⟩

/-! ## The parts -/

theorem ptrBytes_own {l : Loc} (h : ptrBytes l) : own v l := by
  cases l <;> simp_all [ptrBytes, own]; omega
theorem bufBytes_own {l : Loc} (h : bufBytes v l) : own v l := by
  cases l <;> simp_all [bufBytes, own]; omega
theorem inlineElems_buf {l : Loc} {a b : Nat} (hb : b ≤ v.N) (h : inlineElems v a b l) : bufBytes v l := by
  cases l <;> simp_all [inlineElems, bufBytes]
  exact Nat.lt_of_lt_of_le h.2 (Nat.mul_le_mul_right _ hb)

/-- A call of a function that makes a `&` from a `&`, such as `ManuallyDrop::deref`. -/
theorem Inv.ok_deref (h : Inv v d H ch live outer inner st) (hr : ∀ l, r l → H l) (ht : Can ch live r t) :
    Ok (call fun c => do shared v (← shared v t r (some c)) r none) st fun n st' =>
      Inv v d H ch (fun l u => live l u ∨ (r l ∧ u = n)) outer inner st' := by
  refine .call (.bind ((h.beginShared.ok_shared hr ht (by simp)).mono fun a st' h1 => ?_))
  refine (h1.ok_shared hr (fun l hl => .inl (.inr ⟨hl, rfl⟩)) (by simp)).mono fun n st'' h2 => ?_
  exact h2.endShared.mono (fun _ => id) (fun _ _ => rfl) fun l u _ hu => hu.elim (fun h => .inl (.inl h)) .inr

variable (hown : ∀ l, own v l → H l)
include hown

theorem Inv.ok_isHeap (h : Inv v d H ch live outer inner st) (ht : Can ch live (own v) t) :
    Ok (isHeap v t) st fun b st' => b = decide (v.N < d.cap) ∧ Inv v d H ch live outer inner st' := by
  refine .call (.bind ((h.beginShared.ok_shared hown ht (by simp)).mono fun a st' h1 => ?_))
  refine .bind ((h1.ok_read (fun l hl => hown l (by rw [hl]; trivial)) (fun l hl => .inl (.inr ⟨by rw [hl]; trivial, rfl⟩))).mono
    fun _ st'' h2 => ?_)
  refine .bind (.get (.pure ⟨by rw [h2.cap], ?_⟩))
  exact h2.endShared.mono (fun _ => id) (fun _ _ => rfl) fun l u _ hu => .inl hu

theorem Inv.ok_isEmpty (h : Inv v d H ch live outer inner st) (ht : Can ch live (own v) t) :
    Ok (isEmpty v t) st fun b st' => b = decide (d.len = 0) ∧ Inv v d H ch live outer inner st' := by
  refine .call (.bind ((h.beginShared.ok_shared hown ht (by simp)).mono fun a st' h1 => ?_))
  refine .bind ((h1.ok_read (fun l hl => hown l (by rw [hl]; trivial)) (fun l hl => .inl (.inr ⟨by rw [hl]; trivial, rfl⟩))).mono
    fun _ st'' h2 => ?_)
  refine .bind (.get (.pure ⟨by rw [h2.len], ?_⟩))
  exact h2.endShared.mono (fun _ => id) (fun _ _ => rfl) fun l u _ hu => .inl hu

theorem Inv.ok_asPtrStack (h : Inv v d H ch live outer inner st) (ht : Can ch live (own v) t) :
    Ok (asPtrStack v t) st fun p st' => Inv v d H ch (fun l u => live l u ∨ (bufBytes v l ∧ u = p)) outer inner st' := by
  have hb : ∀ l, bufBytes v l → H l := fun l hl => hown l (bufBytes_own hl)
  refine .call (.bind ((h.beginShared.ok_shared hown ht (by simp)).mono fun a st' h1 => ?_))
  refine .bind ((h1.ok_deref hb fun l hl => .inl (.inr ⟨bufBytes_own hl, rfl⟩)).mono fun b st'' h2 => ?_)
  refine (h2.ok_deref hb fun l hl => .inl (.inr ⟨hl, rfl⟩)).mono fun p st''' h3 => ?_
  exact h3.endShared.mono (fun _ => id) (fun _ _ => rfl) fun l u _ hu => hu.elim (fun h => .inl (.inl (.inl h))) .inr

theorem Inv.ok_asPtrHeap (h : Inv v d H ch live outer inner st) (ht : Can ch live (own v) t) :
    Ok (asPtrHeap v t) st fun p st' => p = d.ptr ∧ Inv v d H ch live outer inner st' := by
  have hb : ∀ l, ptrBytes l → H l := fun l hl => hown l (ptrBytes_own hl)
  refine .call (.bind ((h.beginShared.ok_shared hown ht (by simp)).mono fun a st' h1 => ?_))
  refine .bind ((h1.ok_deref hb fun l hl => .inl (.inr ⟨ptrBytes_own hl, rfl⟩)).mono fun b st'' h2 => ?_)
  refine .bind ((h2.ok_read hb fun l hl => .inl (.inr ⟨hl, rfl⟩)).mono fun _ st''' h3 => ?_)
  refine .bind (.get (.pure ⟨h3.ptr, ?_⟩))
  exact h3.endShared.mono (fun _ => id) (fun _ _ => rfl) fun l u _ hu => .inl (.inl hu)

theorem Inv.ok_asPtr (h : Inv v d H ch live outer inner st) (ht : Can ch live (own v) t) :
    Ok (asPtr v t) st fun p st' => (v.N < d.cap → p = d.ptr) ∧
      Inv v d H ch (fun l u => live l u ∨ (¬ v.N < d.cap ∧ bufBytes v l ∧ u = p)) outer inner st' := by
  refine .call (.bind ((h.beginShared.ok_shared hown ht (by simp)).mono fun a st' h1 => ?_))
  refine .bind ((h1.ok_isHeap hown fun l hl => .inl (.inr ⟨hl, rfl⟩)).mono fun b st'' ⟨hb, h2⟩ => ?_)
  by_cases hc : v.N < d.cap
  · simp only [hb, hc, decide_true, if_true]
    refine (h2.ok_asPtrHeap hown fun l hl => .inl (.inr ⟨hl, rfl⟩)).mono fun p st''' ⟨hp, h3⟩ => ⟨fun _ => hp, ?_⟩
    exact h3.endShared.mono (fun _ => id) (fun _ _ => rfl) fun l u _ hu => hu.elim .inl fun h => absurd trivial h.1
  · simp only [hb, hc, decide_false, Bool.false_eq_true, if_false]
    refine (h2.ok_asPtrStack hown fun l hl => .inl (.inr ⟨hl, rfl⟩)).mono fun p st''' h3 => ⟨fun h => absurd h id, ?_⟩
    exact h3.endShared.mono (fun _ => id) (fun _ _ => rfl) fun l u _ hu => hu.elim (fun h => .inl (.inl h)) fun h => .inr h.2

end

end Parcom.Aliasing
