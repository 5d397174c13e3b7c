import Verif.Model.Sequences
import Verif.Spec.Sequence
/-!
# Facts about texts cut at byte positions
-/
namespace Parcom
open Spec

@[simp] theorem byteLen_nil : byteLen [] = 0 := rfl
@[simp] theorem byteLen_cons (c : Char) (cs : List Char) : byteLen (c :: cs) = c.utf8Size + byteLen cs := rfl

@[simp] theorem byteLen_append (a b : List Char) : byteLen (a ++ b) = byteLen a + byteLen b := by
  induction a with
  | nil => simp
  | cons c a ih => simp [ih]; omega

theorem utf8Size_pos' (c : Char) : 0 < c.utf8Size := Char.utf8Size_pos c

@[simp] theorem byteLen_eq_zero {cs : List Char} : byteLen cs = 0 ↔ cs = [] := by
  cases cs with
  | nil => simp
  | cons c cs => have := utf8Size_pos' c; simp; omega

theorem extent_str (cs : List Char) : extent Str cs = byteLen cs := by
  induction cs with
  | nil => rfl
  | cons c cs ih =>
    simp only [extent, List.map_cons, List.sum_cons, byteLen_cons] at *
    rw [ih]; rfl

theorem extent_list {α : Type} (xs : List α) : extent (List α) xs = xs.length := by
  induction xs with
  | nil => rfl
  | cons c cs ih =>
    simp only [extent, List.map_cons, List.sum_cons, List.length_cons] at *
    rw [ih]; show 1 + _ = _; omega

@[simp] theorem cutBytes_zero (cs : List Char) : cutBytes cs 0 = some ([], cs) := by
  cases cs <;> rfl

theorem cutBytes_append (a b : List Char) : cutBytes (a ++ b) (byteLen a) = some (a, b) := by
  induction a with
  | nil => simp
  | cons c a ih =>
    have hc := utf8Size_pos' c
    obtain ⟨n, hn⟩ : ∃ n, byteLen (c :: a) = n + 1 := ⟨byteLen (c :: a) - 1, by simp; omega⟩
    rw [hn, List.cons_append, cutBytes]
    simp at hn
    rw [if_pos (by omega), show n + 1 - c.utf8Size = byteLen a by omega, ih]
    rfl

theorem cutBytes_some {cs a b : List Char} {n : Nat} (h : cutBytes cs n = some (a, b)) :
    cs = a ++ b ∧ byteLen a = n := by
  induction cs generalizing n a b with
  | nil =>
    cases n with
    | zero => simp at h; simp [h.1, ← h.2]
    | succ n => simp [cutBytes] at h
  | cons c cs ih =>
    cases n with
    | zero => simp at h; simp [← h.1, ← h.2]
    | succ n =>
      rw [cutBytes] at h
      split at h
      · rename_i hc
        simp only [Option.map_eq_some_iff] at h
        obtain ⟨⟨a', b'⟩, h1, h2⟩ := h
        obtain ⟨h3, h4⟩ := ih h1
        simp only [Prod.mk.injEq] at h2
        obtain ⟨rfl, rfl⟩ := h2
        simp [h3, h4]; omega
      · simp at h

theorem cutBytes_eq_some {cs a b : List Char} {n : Nat} :
    cutBytes cs n = some (a, b) ↔ cs = a ++ b ∧ byteLen a = n := by
  constructor
  · exact cutBytes_some
  · rintro ⟨rfl, rfl⟩; exact cutBytes_append a b

theorem cutBytes_eq_none {cs : List Char} {n : Nat} :
    cutBytes cs n = none ↔ ∀ a b, cs = a ++ b → byteLen a ≠ n := by
  constructor
  · rintro h a b rfl rfl; rw [cutBytes_append] at h; simp at h
  · intro h
    rcases hc : cutBytes cs n with _ | ⟨a, b⟩
    · rfl
    · exact absurd (cutBytes_some hc).2 (h a b (cutBytes_some hc).1)

/-- Two cuts of a text: the later one continues the earlier one. -/
theorem append_split_of_byteLen_le {a b a' b' : List Char} (h : a ++ b = a' ++ b') (hl : byteLen a ≤ byteLen a') :
    ∃ m, a' = a ++ m ∧ b = m ++ b' := by
  rcases List.append_eq_append_iff.mp h with ⟨m, h1, h2⟩ | ⟨m, h1, h2⟩
  · exact ⟨m, h1, h2⟩
  · subst h1 h2
    have : m = [] := byteLen_eq_zero.mp (by simp at hl; omega)
    subst this; exact ⟨[], by simp⟩

end Parcom
