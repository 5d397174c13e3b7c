import Verif.Lemmas.AliasingOps
/-!
# C121: ShortVec and the aliasing rules
-/
namespace Parcom.Aliasing

/-! ## The claim -/

/-- C121: whatever the element type, however many elements are inline and whatever its owner does with it, a `ShortVec` is made,
used and dropped without using a pointer in a way that is undefined. -/
def C121Statement : Prop := ∀ (v : Cfg) (n : Nat) (ops : List Op), life v n ops ≠ none

/-- The capacity a call asks for. -/
def asks : Op → Nat
  | .reserve c | .reserveExact c => c
  | _ => 0

/-- Some `push` comes while the vector has never had more than its inline capacity, of which there is some. -/
def PushesInline (N n : Nat) (ops : List Op) : Prop :=
  0 < N ∧ n ≤ N ∧ ∃ pre post, ops = pre ++ .push :: post ∧ ∀ o ∈ pre, asks o ≤ N

/-! ## One call -/

/-- The stack of what the owner owns. -/
def owner : Stack := [⟨.unique, 0, none⟩]
theorem owner_heads : Heads owner 0 := ⟨_, _, rfl, rfl, rfl⟩

variable {v : Cfg} {d : Fields} {st : St}

theorem Base.init (v : Cfg) (n : Nat) :
    Base v { cap := if v.N < n then n else v.N, len := 0, block := 1, ptr := 1 } owner [] (init v n) where
  cap := rfl
  len := rfl
  block := rfl
  ptr := rfl
  calls := rfl
  young := by simp [Aliasing.init]
  nodup := by simp [Aliasing.init]
  fine := by
    intro l hl
    have hs : (Aliasing.init v n).stacks l = chain owner ⟨if v.N < n then n else v.N, 0, 1, 1⟩ l := by
      rcases hl with hl | ⟨hc, hl⟩
      · cases l <;> simp_all [own, chain, Aliasing.init, owner]
      · have : v.N < n := by
          simp only at hc
          split at hc <;> omega
        cases l <;> simp_all [heapElems, chain, Aliasing.init]
    rw [hs]
    refine ⟨⟨[], rfl, by simp, by simp, by simp⟩, ?_, ?_⟩ <;> cases l <;> simp [chain, owner, Aliasing.init]

theorem Wf.init (v : Cfg) (n : Nat) : Wf v { cap := if v.N < n then n else v.N, len := 0, block := 1, ptr := 1 } := by
  constructor <;> simp
  split <;> omega

/-- Every call but `push`. -/
theorem Base.ok_other (h : Base v d owner [] st) (hw : Wf v d) {op : Op} (ho : op ≠ .push) :
    Ok (op.run v) st fun _ st' => ∃ d', Wf v d' ∧ d'.len ≤ d.len ∧ d.cap ≤ d'.cap ∧ asks op ≤ d'.cap ∧
      (asks op ≤ d.cap → d'.cap = d.cap) ∧ Base v d' owner [] st' := by
  cases op with
  | push => exact absurd rfl ho
  | pop =>
    exact (h.ok_pop hw owner_heads).mono fun _ st' h1 => ⟨{ d with len := d.len - 1 }, ⟨hw.cap, by have := hw.len; simp; omega, hw.block⟩, by simp,
      Nat.le_refl _, Nat.zero_le _, fun _ => rfl, h1⟩
  | reserve c =>
    refine (h.ok_reserve hw owner_heads c).mono fun _ st' ⟨d', h1, h2, h3, h4⟩ => ⟨d', h1, by omega, ?_, ?_, ?_, h4⟩
    · split at h2 <;> omega
    · simp only [asks]; split at h2 <;> omega
    · intro ha; simp only [asks] at ha; rw [if_pos ha] at h2; exact h2
  | reserveExact c =>
    refine (h.ok_reserveExact hw owner_heads c).mono fun _ st' ⟨d', h1, h2, h3, h4⟩ => ⟨d', h1, by omega, ?_, ?_, ?_, h4⟩
    · omega
    · simp only [asks]; omega
    · intro ha; simp only [asks] at ha; omega
  | isEmpty =>
    exact Ok.bind <| (Inv.ok_isEmpty (fun _ => own_home) h (Base.can owner_heads)).mono
      fun _ _ ⟨_, h1⟩ => .pure ⟨d, hw, Nat.le_refl _, Nat.le_refl _, Nat.zero_le _, fun _ => rfl, h1⟩
  | asPtr =>
    exact Ok.bind <| (Base.ok_asPtr h owner_heads).mono
      fun _ _ ⟨_, _, _, h1⟩ => .pure ⟨d, hw, Nat.le_refl _, Nat.le_refl _, Nat.zero_le _, fun _ => rfl, Base.of h1⟩
  | asSlice =>
    exact (h.ok_asSlice hw owner_heads).mono
      fun _ _ h1 => ⟨d, hw, Nat.le_refl _, Nat.le_refl _, Nat.zero_le _, fun _ => rfl, h1⟩
  | asSliceMut =>
    exact (h.ok_asSliceMut hw owner_heads).mono
      fun _ _ h1 => ⟨d, hw, Nat.le_refl _, Nat.le_refl _, Nat.zero_le _, fun _ => rfl, h1⟩

/-! ## A whole life -/

/-- Nothing undefined is ahead. -/
def Safe (v : Cfg) (d : Fields) (ops : List Op) : Prop :=
  ¬ (v.freeze = true ∧ 0 < v.size) ∨ v.N = 0 ∨ v.N < d.cap ∨
    (d.len = 0 ∧ ∀ pre post, ops = pre ++ .push :: post → ∃ o ∈ pre, v.N < asks o)

theorem Safe.ok : ∀ {ops : List Op} {d : Fields} {st : St}, Base v d owner [] st → Wf v d → Safe v d ops →
    Ok (use v ops) st fun _ _ => True
  | [], d, st, h, hw, hs => by
    refine h.ok_drop hw owner_heads ?_
    have := hw.len
    rcases hs with hs | hs | hs | ⟨hs, -⟩
    · exact .inl (.inr hs)
    · by_cases hc : 0 < d.cap
      · exact .inl (.inl (by omega))
      · exact .inr (by omega)
    · exact .inl (.inl hs)
    · exact .inr hs
  | op :: ops, d, st, h, hw, hs => by
    have hstep : Ok (op.run v) st fun _ st' => ∃ d', Wf v d' ∧ Base v d' owner [] st' ∧ Safe v d' ops := by
      by_cases ho : op = .push
      · subst ho
        have hin : v.N < max d.cap (d.len + 1) ∨ ¬ (v.freeze = true ∧ 0 < v.size) := by
          rcases hs with hs | hs | hs | ⟨-, hs⟩
          · exact .inr hs
          · exact .inl (by omega)
          · exact .inl (by omega)
          · obtain ⟨o, ho, -⟩ := hs [] ops rfl; cases ho
        refine (h.ok_push hw owner_heads hin).mono fun _ st' ⟨d', h1, h2, h3, h4⟩ => ⟨d', h1, h4, ?_⟩
        rcases hs with hs | hs | hs | ⟨-, hs⟩
        · exact .inl hs
        · exact .inr (.inl hs)
        · exact .inr (.inr (.inl (by omega)))
        · obtain ⟨o, ho, -⟩ := hs [] ops rfl; cases ho
      · refine (h.ok_other hw ho).mono fun _ st' ⟨d', h1, h2, h3, h4, h5, h6⟩ => ⟨d', h1, h6, ?_⟩
        rcases hs with hs | hs | hs | ⟨h0, hs⟩
        · exact .inl hs
        · exact .inr (.inl hs)
        · exact .inr (.inr (.inl (by omega)))
        · by_cases ha : v.N < asks op
          · exact .inr (.inr (.inl (by omega)))
          · refine .inr (.inr (.inr ⟨by omega, fun pre post he => ?_⟩))
            obtain ⟨o, ho', hlt⟩ := hs (op :: pre) post (by rw [he]; rfl)
            rcases List.mem_cons.1 ho' with rfl | ho'
            · exact absurd hlt ha
            · exact ⟨o, ho', hlt⟩
    exact .bind (hstep.mono fun _ _ ⟨_, hw', hb, hs'⟩ => hs'.ok hb hw')

theorem pushesInline_bad (hf : v.freeze = true) (hsz : 0 < v.size) (hN : 0 < v.N) :
    ∀ {pre post : List Op} {d : Fields} {st : St}, Base v d owner [] st → Wf v d → d.cap = v.N → d.len = 0 →
      (∀ o ∈ pre, asks o ≤ v.N) → use v (pre ++ .push :: post) st = none := by
  intro pre
  induction pre with
  | nil =>
    intro post d st h hw hc hl _
    exact bad_bind (h.bad_push hw owner_heads (by omega) hf hsz)
  | cons op pre ih =>
    intro post d st h hw hc hl ha
    by_cases ho : op = .push
    · subst ho
      exact bad_bind (h.bad_push hw owner_heads (by omega) hf hsz)
    · refine Ok.bad ((h.ok_other hw ho).mono fun _ st' ⟨d', h1, h2, h3, h4, h5, h6⟩ => ?_)
      exact ih h6 h1 (by rw [h5 (by rw [hc]; exact ha op (by simp))]; exact hc) (by omega) fun o ho => ha o (by simp [ho])

/-- Exactly: it goes wrong if and only if an element that takes room and has no interior mutability is pushed into the inline
buffer. -/
theorem C121_exact (v : Cfg) (n : Nat) (ops : List Op) :
    life v n ops = none ↔ v.freeze = true ∧ 0 < v.size ∧ PushesInline v.N n ops := by
  constructor
  · intro h
    refine Classical.byContradiction fun hn => ?_
    have hs : Safe v { cap := if v.N < n then n else v.N, len := 0, block := 1, ptr := 1 } ops := by
      by_cases h1 : v.freeze = true ∧ 0 < v.size
      · by_cases h2 : v.N = 0
        · exact .inr (.inl h2)
        · by_cases h3 : v.N < n
          · exact .inr (.inr (.inl (by simp [h3])))
          · refine .inr (.inr (.inr ⟨rfl, fun pre post he => Classical.byContradiction fun hno => hn ?_⟩))
            exact ⟨h1.1, h1.2, by omega, by omega, pre, post, he, fun o ho => Nat.not_lt.1 fun hlt => hno ⟨o, ho, hlt⟩⟩
      · exact .inl h1
    obtain ⟨a, st', he, -⟩ := hs.ok (Base.init v n) (Wf.init v n)
    simp [life, he] at h
  · rintro ⟨hf, hsz, hN, hn, pre, post, rfl, ha⟩
    have := pushesInline_bad (post := post) hf hsz hN (Base.init v n) (Wf.init v n) (by simp; omega) rfl ha
    simp [life, this]

/-- C121 does not hold: `ShortVec::<usize, 4>::new()`, then one `push`, as `bin_expr` does. -/
theorem C121_false : ¬ C121Statement := fun h =>
  h ⟨4, 8, true⟩ 0 [.push] ((C121_exact _ _ _).2 ⟨rfl, by simp, by simp, by simp, [], [], rfl, by simp⟩)

/-- C121 for a vector that is never inline when something is pushed: made with room for more than `N`. What is missing is
the inline buffer, for which see `C121_exact`. -/
theorem C121_partial (v : Cfg) (n : Nat) (ops : List Op) (h : v.N < n) : life v n ops ≠ none := fun hn => by
  obtain ⟨-, -, -, h', -⟩ := (C121_exact v n ops).1 hn
  omega

/-- C121 for elements with interior mutability, for those that take no room, and for vectors without an inline buffer. -/
theorem C121_elements_partial (v : Cfg) (n : Nat) (ops : List Op) (h : v.freeze = false ∨ v.size = 0 ∨ v.N = 0) :
    life v n ops ≠ none := fun hn => by
  obtain ⟨h1, h2, h3, -⟩ := (C121_exact v n ops).1 hn
  rcases h with h | h | h
  · rw [h] at h1; cases h1
  · omega
  · omega

/-- Whatever comes before and after, the first `push` into `ShortVec::new()` is undefined if only calls without a capacity come
before it. -/
theorem C121_first_push (v : Cfg) (pre post : List Op) (hf : v.freeze = true) (hs : 0 < v.size) (hN : 0 < v.N)
    (hp : ∀ o ∈ pre, asks o = 0) : life v 0 (pre ++ .push :: post) = none :=
  (C121_exact _ _ _).2 ⟨hf, hs, hN, by omega, pre, post, rfl, fun o ho => by rw [hp o ho]; exact Nat.zero_le _⟩

/-- A life on the heap, with everything in it. -/
theorem C121_case_heap : life ⟨4, 8, true⟩ 5 [.push, .push, .asSliceMut, .asSlice, .pop, .reserve 9, .reserveExact 30, .push] ≠ none :=
  C121_partial _ _ _ (by simp)

/-- One that begins inline, and moves to the heap before the first `push`. -/
theorem C121_case_moves : life ⟨4, 8, true⟩ 0 [.pop, .asSlice, .reserve 3, .reserveExact 5, .push, .asSliceMut, .pop] ≠ none :=
  fun h => by
    obtain ⟨-, -, -, -, pre, post, he, hp⟩ := (C121_exact _ _ _).1 h
    match pre, he with
    | [_, _, _, _], he =>
      have := hp (.reserveExact 5) (by simp only [List.cons_append, List.cons.injEq] at he; simp [← he.2.2.2.1])
      simp [asks] at this
    | [_, _, _, _, _], he => simp at he
    | [_, _, _, _, _, _], he => simp at he
    | _ :: _ :: _ :: _ :: _ :: _ :: _ :: _, he => simp at he

/-- One that pushes, pops and then asks for more: the `push` is what goes wrong. -/
theorem C121_case_inline : life ⟨4, 8, true⟩ 0 [.asSlice, .push, .pop, .reserve 9] = none :=
  C121_first_push _ [.asSlice] [.pop, .reserve 9] rfl (by simp) (by simp) (by simp [asks])

/-- The same with `Cell<u64>`: all is well. -/
theorem C121_case_cell : life ⟨4, 8, false⟩ 0 [.asSlice, .push, .pop, .reserve 9, .push, .asSliceMut] ≠ none :=
  C121_elements_partial _ _ _ (.inl rfl)

/-- Where raw pointers go: made from a `&mut`, directly above it; made from another one, above those directly above that. -/
example : insertStack ⟨.srw, 4, none⟩ 1 [⟨.srw, 3, none⟩, ⟨.srw, 2, none⟩, ⟨.unique, 1, none⟩] =
      some [⟨.srw, 3, none⟩, ⟨.srw, 2, none⟩, ⟨.srw, 4, none⟩, ⟨.unique, 1, none⟩] ∧
    insertStack ⟨.srw, 4, none⟩ 2 [⟨.srw, 3, none⟩, ⟨.srw, 2, none⟩, ⟨.unique, 1, none⟩] =
      some [⟨.srw, 4, none⟩, ⟨.srw, 3, none⟩, ⟨.srw, 2, none⟩, ⟨.unique, 1, none⟩] ∧
    insertStack ⟨.srw, 4, none⟩ 2 [⟨.unique, 5, none⟩, ⟨.srw, 3, none⟩, ⟨.srw, 2, none⟩, ⟨.unique, 1, none⟩] =
      some [⟨.unique, 5, none⟩, ⟨.srw, 4, none⟩, ⟨.srw, 3, none⟩, ⟨.srw, 2, none⟩, ⟨.unique, 1, none⟩] := ⟨rfl, rfl, rfl⟩

/-- Before anything is allocated there is nothing on the heap, and a vector of more than `N` elements is in block 1 alone. -/
example (v : Cfg) (n b i : Nat) : (init v n).stacks (.heap b i) ≠ [] ↔ b = 1 ∧ v.N < n := by
  show (if b = 1 ∧ v.N < n then _ else _) ≠ [] ↔ _
  split <;> simp_all

end Parcom.Aliasing
