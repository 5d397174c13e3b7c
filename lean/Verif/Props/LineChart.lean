import Verif.Model.LineChart
/-!
# C116: the axes of the chart
-/
namespace Parcom
open LineChart

namespace LineChart

/-- A number `lo`, not above zero or any of the values that are numbers, and one of these. -/
def Lowest (lo : F64) (values : List F64) : Prop :=
  ∃ l, lo = .num l ∧ l ≤ 0 ∧ (∀ k, .num k ∈ values → l ≤ k) ∧ (l = 0 ∨ .num l ∈ values)

/-- A number `hi`, not below zero or any of the values that are numbers, and one of these. -/
def Highest (hi : F64) (values : List F64) : Prop :=
  ∃ h, hi = .num h ∧ 0 ≤ h ∧ (∀ k, .num k ∈ values → k ≤ h) ∧ (h = 0 ∨ .num h ∈ values)

theorem Lowest.add {lo : F64} {values : List F64} (h : Lowest lo values) (x : F64) : Lowest (lo.min x) (values ++ [x]) := by
  obtain ⟨l, rfl, h1, h2, h3⟩ := h
  cases x with
  | nan =>
    refine ⟨l, rfl, h1, fun k hk => h2 k (by simpa using hk), ?_⟩
    rcases h3 with h3 | h3
    · exact .inl h3
    · exact .inr (by simp [h3])
  | num j =>
    simp only [F64.min]
    by_cases hj : l ≤ j
    · rw [if_pos hj]
      refine ⟨l, rfl, h1, ?_, ?_⟩
      · intro k hk
        simp at hk
        rcases hk with hk | rfl
        · exact h2 k hk
        · exact hj
      · rcases h3 with h3 | h3
        · exact .inl h3
        · exact .inr (by simp [h3])
    · rw [if_neg hj]
      refine ⟨j, rfl, by omega, ?_, .inr (by simp)⟩
      intro k hk
      simp at hk
      rcases hk with hk | rfl
      · have := h2 k hk; omega
      · omega

theorem Highest.add {hi : F64} {values : List F64} (h : Highest hi values) (x : F64) : Highest (hi.max x) (values ++ [x]) := by
  obtain ⟨l, rfl, h1, h2, h3⟩ := h
  cases x with
  | nan =>
    refine ⟨l, rfl, h1, fun k hk => h2 k (by simpa using hk), ?_⟩
    rcases h3 with h3 | h3
    · exact .inl h3
    · exact .inr (by simp [h3])
  | num j =>
    simp only [F64.max]
    by_cases hj : l ≤ j
    · rw [if_pos hj]
      refine ⟨j, rfl, by omega, ?_, .inr (by simp)⟩
      intro k hk
      simp at hk
      rcases hk with hk | rfl
      · have := h2 k hk; omega
      · omega
    · rw [if_neg hj]
      refine ⟨l, rfl, h1, ?_, ?_⟩
      · intro k hk
        simp at hk
        rcases hk with hk | rfl
        · exact h2 k hk
        · omega
      · rcases h3 with h3 | h3
        · exact .inl h3
        · exact .inr (by simp [h3])

/-- The ranges for these samples. -/
def Covers (r : Rect) (samples : List (F64 × F64)) : Prop :=
  Lowest r.minx (samples.map (·.1)) ∧ Highest r.maxx (samples.map (·.1)) ∧
  Lowest r.miny (samples.map (·.2)) ∧ Highest r.maxy (samples.map (·.2))

theorem Covers.add {r : Rect} {samples : List (F64 × F64)} (h : Covers r samples) (s : F64 × F64) :
    Covers (r.add s) (samples ++ [s]) := by
  obtain ⟨h1, h2, h3, h4⟩ := h
  refine ⟨?_, ?_, ?_, ?_⟩ <;> rw [List.map_append]
  · exact h1.add s.1
  · exact h2.add s.1
  · exact h3.add s.2
  · exact h4.add s.2

theorem Covers.fold {r : Rect} {samples : List (F64 × F64)} (h : Covers r samples) (more : List (F64 × F64)) :
    Covers (more.foldl Rect.add r) (samples ++ more) := by
  induction more generalizing r samples with
  | nil => simpa using h
  | cons s more ih =>
    have := ih (h.add s)
    simpa using this

end LineChart

/-- C116: each end of each axis is a number; zero and every coordinate that is a number lie on the axis; and the axis is no longer
than that takes. Coordinates that are no numbers have no influence. -/
theorem C116_ranges (series : List (List (F64 × F64))) : Covers (ranges series) series.flatten := by
  suffices h : ∀ (r : Rect) (samples : List (F64 × F64)), Covers r samples →
      Covers (series.foldl (fun rect samples => samples.foldl Rect.add rect) r) (samples ++ series.flatten) by
    have h0 : Lowest F64.zero [] ∧ Highest F64.zero [] :=
      ⟨⟨0, rfl, by omega, by simp, .inl rfl⟩, ⟨0, rfl, by omega, by simp, .inl rfl⟩⟩
    exact h _ [] ⟨h0.1, h0.2, h0.1, h0.2⟩
  induction series with
  | nil => intro r samples h; simpa using h
  | cons s series ih =>
    intro r samples h
    have := ih _ _ (h.fold s)
    simpa using this

/-- C116: so it does not matter how the samples are ordered or split into series. -/
theorem C116_order (series series' : List (List (F64 × F64))) (h : ∀ s, s ∈ series.flatten ↔ s ∈ series'.flatten) :
    ranges series = ranges series' := by
  have lo : ∀ {a b : F64} {v w : List F64}, Lowest a v → Lowest b w → (∀ x, x ∈ v ↔ x ∈ w) → a = b := by
    rintro a b v w ⟨l, rfl, h1, h2, h3⟩ ⟨l', rfl, h1', h2', h3'⟩ hv
    congr 1
    refine Int.le_antisymm ?_ ?_
    · rcases h3' with h | h
      · omega
      · exact h2 _ ((hv _).mpr h)
    · rcases h3 with h | h
      · omega
      · exact h2' _ ((hv _).mp h)
  have hi : ∀ {a b : F64} {v w : List F64}, Highest a v → Highest b w → (∀ x, x ∈ v ↔ x ∈ w) → a = b := by
    rintro a b v w ⟨l, rfl, h1, h2, h3⟩ ⟨l', rfl, h1', h2', h3'⟩ hv
    congr 1
    refine Int.le_antisymm ?_ ?_
    · rcases h3 with h | h
      · omega
      · exact h2' _ ((hv _).mp h)
    · rcases h3' with h | h
      · omega
      · exact h2 _ ((hv _).mpr h)
  have hx : ∀ x, x ∈ series.flatten.map (·.1) ↔ x ∈ series'.flatten.map (·.1) := by
    intro x; simp only [List.mem_map, h]
  have hy : ∀ x, x ∈ series.flatten.map (·.2) ↔ x ∈ series'.flatten.map (·.2) := by
    intro x; simp only [List.mem_map, h]
  obtain ⟨a, b, c, d⟩ := C116_ranges series
  obtain ⟨a', b', c', d'⟩ := C116_ranges series'
  have e : ∀ r : Rect, r = ⟨r.minx, r.miny, r.maxx, r.maxy⟩ := fun _ => rfl
  rw [e (ranges series), e (ranges series'), lo a a' hx, lo c c' hy, hi b b' hx, hi d d' hy]

/-- Two series, one with a sample that has no height. -/
example : ranges [[(.num 1, .num 5), (.num 2, .nan)], [(.num (-3), .num 4)]] = ⟨.num (-3), .num 0, .num 2, .num 5⟩ := by decide

end Parcom
