import Verif.Lemmas.NotifyCalls
/-!
# Notify: invariants
-/
namespace Parcom.Notify

/-- The registered wakers. -/
structure Registered (st : State) : Prop where
  keys : (st.slab.map Prod.fst).Nodup
  wakers : (st.slab.map Prod.snd).Nodup
  owner : ∀ k p, (k, p) ∈ st.slab → (∃ i, st.pc p = .pollRecheck i k) ∨ st.pc p = .pollRemove k ∨ .pollChecked p ∈ st.log
  atRecheck : ∀ p i k, st.pc p = .pollRecheck i k → (k, p) ∈ st.slab
  atRemove : ∀ p k, st.pc p = .pollRemove k → (k, p) ∈ st.slab
  asleep : ∀ k p c, (k, p) ∈ st.slab → .woke c p ∉ st.log
  woken : ∀ c p, .woke c p ∈ st.log → .pollChecked p ∈ st.log

theorem registered_init : Registered init := by
  constructor <;> simp [init]

theorem nodup_snd {slab : List (Nat × Nat)} (h : (slab.map Prod.snd).Nodup) {k k' p : Nat} (hk : (k, p) ∈ slab)
    (hk' : (k', p) ∈ slab) : k = k' := by
  induction slab with
  | nil => simp at hk
  | cons e slab ih =>
    simp only [List.map_cons, List.nodup_cons, List.mem_map, not_exists, not_and] at h
    simp only [List.mem_cons] at hk hk'
    rcases hk with rfl | hk <;> rcases hk' with hk' | hk'
    · simp at hk'; exact hk'.symm
    · exact absurd (by simp) (h.1 _ hk')
    · exact absurd (by simp [← hk']) (h.1 _ hk)
    · exact ih h.2 hk hk'

theorem nodup_fst {slab : List (Nat × Nat)} (h : (slab.map Prod.fst).Nodup) {k p p' : Nat} (hk : (k, p) ∈ slab)
    (hk' : (k, p') ∈ slab) : p = p' := by
  induction slab with
  | nil => simp at hk
  | cons e slab ih =>
    simp only [List.map_cons, List.nodup_cons, List.mem_map, not_exists, not_and] at h
    simp only [List.mem_cons] at hk hk'
    rcases hk with rfl | hk <;> rcases hk' with hk' | hk'
    · simp at hk'; exact hk'.symm
    · exact absurd (by simp) (h.1 _ hk')
    · exact absurd (by simp [← hk']) (h.1 _ hk)
    · exact ih h.2 hk hk'

theorem nodup_remove {β : Type} {pre post : List β} {x : β} (h : (pre ++ x :: post).Nodup) :
    (pre ++ post).Nodup ∧ x ∉ pre ++ post := by
  rw [List.perm_middle.nodup_iff, List.nodup_cons] at h
  exact ⟨h.2, h.1⟩

set_option maxHeartbeats 4000000 in
theorem registered_step {st st' : State} (hc : Calls st) (h : Registered st) (hs : Step st st') : Registered st' := by
  have hc' := calls_step hc hs
  obtain ⟨h1, h2, h3, h4, h5, h6, h7⟩ := h
  cases hs with
  | sendWake c key p pre post hpc hsl =>
    have hmem : (key, p) ∈ st.slab := by rw [hsl]; simp
    have hdr : ∀ q, st.pc q ≠ .pollRemove key := by
      intro q hq
      have h1 := (hc.lock q).mp (by rw [hq]; rfl)
      have h2 := (hc.lock c).mp (by rw [hpc]; rfl)
      grind
    have hrc : ∀ q i, st.pc q ≠ .pollRecheck i key := by
      intro q i hq
      have h1 := (hc.lock q).mp (by rw [hq]; rfl)
      have h2 := (hc.lock c).mp (by rw [hpc]; rfl)
      grind
    have hck := h3 key p hmem
    rw [hsl] at h1 h2
    simp only [List.map_append, List.map_cons] at h1 h2
    have n1 := nodup_remove h1
    have n2 := nodup_remove h2
    have hsub : ∀ e, e ∈ pre ++ post → e ∈ st.slab := by intro e he; rw [hsl]; simp at he ⊢; grind
    constructor <;> simp only [State.emit]
    · simpa using n1.1
    · simpa using n2.1
    · intro k q hq; rcases h3 k q (hsub _ hq) with h | h | h <;> grind
    · intro q i k hq
      have := h4 q i k hq
      rw [hsl] at this
      have : k ≠ key := fun h => hrc q i (h ▸ hq)
      grind
    · intro q k hq
      have := h5 q k hq
      rw [hsl] at this
      have : k ≠ key := fun h => hdr q (h ▸ hq)
      grind
    · intro k q d hq hw
      have hq' := hsub _ hq
      simp only [List.mem_append, List.mem_singleton] at hw
      rcases hw with hw | hw
      · exact h6 k q d hq' hw
      · injection hw with _ hw
        subst hw
        apply n2.2
        rw [← List.map_append]
        exact List.mem_map_of_mem hq
    · intro d q hq
      grind
  | pollInsert p i key hpc hk =>
    have hnew : ∀ k, (k, p) ∉ st.slab := by
      intro k hkp
      rcases h3 k p hkp with h | h | h
      · grind
      · grind
      · have := hc.checkedAt p h; grind
    have hlock := (hc.lock p).mp (by rw [hpc]; rfl)
    constructor <;> simp only [State.goto]
    · rw [List.map_append, List.nodup_append]
      refine ⟨h1, by simp, ?_⟩
      intro a ha b hb hab
      simp at hb
      subst hb
      subst hab
      exact hk ha
    · rw [List.map_append, List.nodup_append]
      refine ⟨h2, by simp, ?_⟩
      intro a ha b hb hab
      simp at hb
      subst hb
      subst hab
      simp at ha
      obtain ⟨k, hk⟩ := ha
      exact hnew k hk
    · intro k q hq
      simp only [List.mem_append, List.mem_singleton, Prod.mk.injEq] at hq
      rcases hq with hq | ⟨rfl, rfl⟩
      · have : q ≠ p := fun h => hnew k (h ▸ hq)
        rw [if_neg this]; exact h3 k q hq
      · simp
    · intro q j k hq
      by_cases h : q = p
      · subst h; simp at hq ⊢; right; exact hq.2.symm
      · simp [h] at hq; simp; left; exact h4 q j k hq
    · intro q k hq
      by_cases h : q = p
      · subst h; simp at hq
      · simp [h] at hq; simp; left; exact h5 q k hq
    · intro k q c hq
      simp only [List.mem_append, List.mem_singleton, Prod.mk.injEq] at hq
      rcases hq with hq | ⟨rfl, rfl⟩
      · exact h6 k q c hq
      · intro hw
        have := hc.checkedAt q (h7 c q hw)
        grind
    · exact h7
  | pollRemove p key hpc =>
    have hmem := h5 p key hpc
    have hsub : ∀ e, e ∈ st.slab.filter (fun e => e.1 ≠ key) ↔ e ∈ st.slab ∧ e.1 ≠ key := by simp
    have hlock := (hc.lock p).mp (by rw [hpc]; rfl)
    constructor <;> simp only [State.goto, State.emit]
    · exact h1.sublist (List.filter_sublist.map _)
    · exact h2.sublist (List.filter_sublist.map _)
    · intro k q hq
      have hq := (hsub _).mp hq
      have : q ≠ p := by
        rintro rfl
        exact hq.2 (nodup_snd h2 hq.1 hmem)
      rw [if_neg this]
      rcases h3 k q hq.1 with h | h | h
      · exact .inl h
      · exact .inr (.inl h)
      · exact .inr (.inr (by simp [h]))
    · intro q i k hq
      by_cases h : q = p
      · subst h; simp at hq
      · simp only [if_neg h] at hq
        have := (hc.lock q).mp (by rw [hq]; rfl)
        grind
    · intro q k hq
      by_cases h : q = p
      · subst h; simp at hq
      · simp only [if_neg h] at hq
        have := (hc.lock q).mp (by rw [hq]; rfl)
        grind
    · intro k q c hq
      have hq := (hsub _).mp hq
      have := h6 k q c hq.1
      simp [this]
    · intro c q hq
      have := h7 c q (by simpa using hq)
      simp [this]
  | pollRecheckReady p i key hpc hv =>
    constructor <;> simp only [State.goto] <;> first | assumption | skip
    · intro k q hq
      rcases h3 k q hq with ⟨j, h⟩ | h | h <;> by_cases hqp : q = p
      · subst hqp; grind
      · rw [if_neg hqp]; exact .inl ⟨j, h⟩
      · subst hqp; grind
      · rw [if_neg hqp]; exact .inr (.inl h)
      · exact .inr (.inr h)
      · exact .inr (.inr h)
    · grind
    · intro q k hq
      by_cases hqp : q = p
      · subst hqp; simp at hq; subst hq; exact h4 q i key hpc
      · rw [if_neg hqp] at hq; exact h5 q k hq
  | pollRecheck p i key hpc hv =>
    constructor <;> simp only [State.goto, State.emit] <;> first | assumption | skip
    · intro k q hq
      rcases h3 k q hq with ⟨j, h⟩ | h | h <;> by_cases hqp : q = p
      · subst hqp; simp
      · rw [if_neg hqp]; exact .inl ⟨j, h⟩
      · subst hqp; grind
      · rw [if_neg hqp]; exact .inr (.inl h)
      · exact .inr (.inr (by simp [h]))
      · exact .inr (.inr (by simp [h]))
    · grind
    · grind
    · grind
    · grind
  | _ =>
    constructor <;> simp only [State.goto, State.emit] <;> first | assumption | grind [Calls]

theorem registered {st : State} (h : Reachable st) : Registered st := by
  induction h with
  | init => exact registered_init
  | step hr hs ih => exact registered_step (calls hr) ih hs

end Parcom.Notify
