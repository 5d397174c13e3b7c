import Verif.Spec.StdLines
import Verif.Props.Resume
/-!
# C89 for CRLF: exactly when a meter goes on counting
-/
namespace Parcom
open Spec

/-- Lines never go down. -/
theorem lines_grow {ε : Type} [EndOfLine ε] (cs : List Char) (m : LineColumnMeter ε) :
    m.location.line ≤ (cs.foldl LineColumnMeter.step m).location.line := by
  induction cs generalizing m with
  | nil => exact Nat.le_refl _
  | cons c cs ih =>
    refine Nat.le_trans ?_ (ih (m.step c))
    rw [(meter_step_line m c).1]
    exact Nat.le_add_right _ _

/-- Meters on the same line in different columns agree once a further line has begun, and not before. -/
theorem columns_apart {ε : Type} [EndOfLine ε] (cs : List Char) (m d : LineColumnMeter ε) (hs : m.state = d.state)
    (hn : m.nextIsNewLine = d.nextIsNewLine) (ht : m.location.totalCount = d.location.totalCount)
    (hl : m.location.line = d.location.line) (hc : m.location.column ≠ d.location.column) :
    (cs.foldl LineColumnMeter.step m).location = (cs.foldl LineColumnMeter.step d).location ↔
      d.location.line < (cs.foldl LineColumnMeter.step d).location.line := by
  induction cs generalizing m d with
  | nil =>
    simp only [List.foldl_nil, Nat.lt_irrefl, iff_false]
    intro h; exact hc (by rw [h])
  | cons c cs ih =>
    have hm := meter_step_line m c
    have hd := meter_step_line d c
    have hs' : (m.step c).state = (d.step c).state := by rw [meter_step_state, meter_step_state, hs]
    have hn' : (m.step c).nextIsNewLine = (d.step c).nextIsNewLine := by rw [Bool.eq_iff_iff, hm.2, hd.2, hs]
    simp only [List.foldl_cons]
    cases hnl : d.nextIsNewLine with
    | true =>
      have he : m.step c = d.step c := by
        have hloc : (m.step c).location = (d.step c).location := by
          rw [hm.1, hd.1, hn, hnl, ht, hl]; rfl
        generalize m.step c = x at *
        generalize d.step c = y at *
        cases x; cases y; simp_all
      rw [he]
      have := lines_grow cs (d.step c)
      rw [hd.1, hnl] at this
      simp at this
      simp
      omega
    | false =>
      rw [ih _ _ hs' hn' (by rw [hm.1, hd.1, ht]) (by rw [hm.1, hd.1, hn, hl]) (by
        rw [hm.1, hd.1, hn, hnl]; simpa using hc)]
      rw [hd.1, hnl]; simp

theorem cutShort_lf (cs : List Char) : CutShort ('\n' :: cs) ↔ 2 ≤ lineCount endsOddCRLF cs := by
  constructor
  · rintro ⟨j, rest, h, hr⟩
    cases j with
    | zero => simp at h; rwa [h]
    | succ j => simp [Nat.mul_add, List.replicate_succ] at h
  · intro h; exact ⟨0, cs, rfl, h⟩

theorem cutShort_cr (cs : List Char) : CutShort ('\r' :: '\r' :: cs) ↔ CutShort cs := by
  constructor
  · rintro ⟨j, rest, h, hr⟩
    cases j with
    | zero => simp at h
    | succ j =>
      simp [Nat.mul_add, List.replicate_succ] at h
      exact ⟨j, rest, h, hr⟩
  · rintro ⟨j, rest, rfl, hr⟩
    exact ⟨j + 1, rest, by simp [Nat.mul_add, List.replicate_succ], hr⟩

theorem cutShort_other {c : Char} (cs : List Char) (h1 : c ≠ '\n') (h2 : c ≠ '\r') : ¬ CutShort (c :: cs) := by
  rintro ⟨j, rest, h, -⟩
  cases j with
  | zero => simp at h; exact h1 h.1
  | succ j => simp [Nat.mul_add, List.replicate_succ] at h; exact h2 h.1

theorem cutShort_cr_other {c : Char} (cs : List Char) (h2 : c ≠ '\r') : ¬ CutShort ('\r' :: c :: cs) := by
  rintro ⟨j, rest, h, -⟩
  cases j with
  | zero => simp at h
  | succ j => simp [Nat.mul_add, List.replicate_succ] at h; exact h2 h.1

theorem not_cutShort_nil : ¬ CutShort [] := by
  rintro ⟨j, rest, h, -⟩
  simp at h

theorem not_cutShort_cr : ¬ CutShort ['\r'] := by
  rintro ⟨j, rest, h, -⟩
  cases j <;> simp [Nat.mul_add, List.replicate_succ] at h

/-- One step of the CRLF meter. -/
theorem crlf_step (m : LineColumnMeter CRLF) (c : Char) :
    (m.step c).state = (if m.state = .initial ∧ c = '\r' then .cr else .initial) ∧
    ((m.step c).nextIsNewLine = true ↔ m.state = .cr ∧ c = '\n') := by
  rw [meter_step_state, (meter_step_line m c).2]
  rcases m with ⟨l, n, s⟩
  cases s <;> by_cases hc : c = '\r' <;> by_cases hd : c = '\n' <;> simp_all [EndOfLine.next]

/-- The meter that stopped within a line end (`d`) and the one started there (`m`), from which a line more has begun. -/
theorem crlf_split (post : List Char) (m d : LineColumnMeter CRLF) (hm : m.state = .initial) (hd : d.state = .cr)
    (hn : d.nextIsNewLine = false) (ht : m.location.totalCount = d.location.totalCount)
    (hl : m.location.line + (if m.nextIsNewLine then 1 else 0) = d.location.line + 1)
    (hp : post ≠ []) :
    (post.foldl LineColumnMeter.step m).location = (post.foldl LineColumnMeter.step d).location ↔ CutShort post := by
  match post, hp with
  | c :: cs, _ =>
    have m1 := (meter_step_line m c).1
    have d1 := (meter_step_line d c).1
    have m2 := crlf_step m c
    have d2 := crlf_step d c
    simp only [hm, hd, hn, true_and, false_and, reduceCtorEq, Bool.false_eq_true, if_neg, not_false_eq_true, iff_false] at m1 d1 m2 d2
    have hline : (m.step c).location.line = (d.step c).location.line + 1 := by rw [m1, d1]; simpa using hl
    have htot : (m.step c).location.totalCount = (d.step c).location.totalCount := by rw [m1, d1]; simpa using ht
    have hcol : (m.step c).location.column ≠ 0 := by rw [m1]; dsimp only; split <;> omega
    have mn : (m.step c).nextIsNewLine = false := by simpa using m2.2
    simp only [List.foldl_cons]
    generalize m.step c = m' at *
    generalize d.step c = d' at *
    by_cases hlf : c = '\n'
    · subst hlf
      rw [cutShort_lf]
      have dn : d'.nextIsNewLine = true := d2.2.mpr rfl
      have ms : m'.state = .initial := by rw [m2.1, if_neg (by decide)]
      have hd' : d' = LineColumnMeter.new d'.location := by
        obtain ⟨l, n, s⟩ := d'
        cases dn; cases d2.1; rfl
      have hcount : (cs.foldl LineColumnMeter.step d').location.line = d'.location.line + lineCount endsOddCRLF cs := by
        rw [hd']
        have := (new_follows (ε := CRLF) d'.location cs).2.2.2.1
        rw [(crlf_follows cs).1.line] at this
        exact this
      cases cs with
      | nil =>
        simp only [List.foldl_nil] at hcount ⊢
        constructor
        · intro h; rw [h] at hline; omega
        · intro h; omega
      | cons e es =>
        have m3 := (meter_step_line m' e).1
        have d3 := (meter_step_line d' e).1
        rw [mn] at m3
        rw [dn] at d3
        simp only [List.foldl_cons] at hcount ⊢
        have hs : (m'.step e).state = (d'.step e).state := by rw [meter_step_state, meter_step_state, ms, d2.1]
        have hnn : (m'.step e).nextIsNewLine = (d'.step e).nextIsNewLine := by
          rw [Bool.eq_iff_iff, (meter_step_line m' e).2, (meter_step_line d' e).2, ms, d2.1]
        rw [columns_apart es _ _ hs hnn (by rw [m3, d3, htot]) (by rw [m3, d3]; simpa using hline)
          (by rw [m3, d3]; simpa using hcol), hcount, d3]
        simp
        omega
    · have dn : d'.nextIsNewLine = false := by simpa [hlf] using d2.2
      by_cases hcr : c = '\r'
      · subst hcr
        rw [if_pos rfl] at m2
        cases cs with
        | nil =>
          simp only [List.foldl_nil]
          exact ⟨fun h => (by rw [h] at hline; omega), fun h => absurd h not_cutShort_cr⟩
        | cons e es =>
          have m3 := (meter_step_line m' e).1
          have d3 := (meter_step_line d' e).1
          have m4 := crlf_step m' e
          have d4 := crlf_step d' e
          rw [mn] at m3
          rw [dn] at d3
          simp only [m2.1, d2.1, true_and, false_and, if_false, reduceCtorEq, iff_false] at m4 d4
          simp only [List.foldl_cons]
          have hline' : (m'.step e).location.line = (d'.step e).location.line + 1 := by rw [m3, d3]; simpa using hline
          have htot' : (m'.step e).location.totalCount = (d'.step e).location.totalCount := by rw [m3, d3, htot]
          generalize m'.step e = m'' at *
          generalize d'.step e = d'' at *
          have dn' : d''.nextIsNewLine = false := by simpa using d4.2
          by_cases her : e = '\r'
          · subst her
            rw [if_pos rfl] at d4
            have mn' : m''.nextIsNewLine = false := by
              have := m4.2; simpa using this
            rw [cutShort_cr]
            cases es with
            | nil =>
              simp only [List.foldl_nil]
              exact ⟨fun h => (by rw [h] at hline'; omega), fun h => absurd h not_cutShort_nil⟩
            | cons f fs =>
              exact crlf_split (f :: fs) m'' d'' m4.1 d4.1 dn' htot' (by rw [mn']; simpa using hline') (List.cons_ne_nil _ _)
          · refine ⟨fun h => ?_, fun h => absurd h (cutShort_cr_other es her)⟩
            rw [if_neg her] at d4
            exfalso
            cases es with
            | nil => simp only [List.foldl_nil] at h; rw [h] at hline'; omega
            | cons f fs =>
              have m5 := meter_step_line m'' f
              have d5 := meter_step_line d'' f
              simp only [List.foldl_cons] at h
              have := lines_apart (1 + if m''.nextIsNewLine then 1 else 0) fs (m''.step f) (d''.step f)
                (by rw [meter_step_state, meter_step_state, m4.1, d4.1]) (by rw [Bool.eq_iff_iff, m5.2, d5.2, m4.1, d4.1])
                (by rw [m5.1, d5.1, dn', hline']; simp; omega)
              rw [h] at this
              omega
      · refine ⟨fun h => ?_, fun h => absurd h (cutShort_other cs hlf hcr)⟩
        exfalso
        rw [if_neg hcr] at m2
        have := lines_apart 1 cs m' d' (by rw [m2.1, d2.1]) (by rw [mn, dn]) hline
        rw [h] at this
        omega
termination_by post.length

/-- C89, exactly when it holds for CRLF: from where a line has ended or nothing has begun, and, by coincidence, from within a
line end if the text goes on into another line. -/
theorem C89_exact_crlf (pre post : List Char) :
    metricsFrom CRLF (metricsAfter CRLF [pre]) [post] = metricsAfter CRLF [pre, post] ↔
      post = [] ∨ pre = [] ∨ endsOddCRLF pre ∨ (trailingCR pre % 2 = 1 ∧ CutShort post) := by
  by_cases hp : post = []
  · subst hp
    simp only [true_or, iff_true]
    simp only [metricsFrom, metricsAfter, feed_chunks, List.flatten_cons, List.flatten_nil, List.append_nil, List.foldl_nil]
    rfl
  by_cases hpre : pre = [] ∨ endsOddCRLF pre
  · refine ⟨fun _ => ?_, fun _ => C89_partial_crlf pre post hpre⟩
    rcases hpre with h | h
    · exact Or.inr (Or.inl h)
    · exact Or.inr (Or.inr (Or.inl h))
  obtain ⟨hf, hs⟩ := crlf_follows pre
  have hn : (pre.foldl LineColumnMeter.step (LineColumnMeter.default : LineColumnMeter CRLF)).nextIsNewLine = false := by
    rw [← Bool.not_eq_true, hf.fresh]; exact hpre
  have hor : (post = [] ∨ pre = [] ∨ endsOddCRLF pre ∨ (trailingCR pre % 2 = 1 ∧ CutShort post)) ↔
      (trailingCR pre % 2 = 1 ∧ CutShort post) := by
    simp only [not_or] at hpre
    simp [hp, hpre.1, hpre.2]
  rw [hor]
  simp only [metricsFrom, metricsAfter, feed_chunks, List.flatten_cons, List.flatten_nil, List.append_nil, List.foldl_append]
  generalize pre.foldl LineColumnMeter.step (LineColumnMeter.default : LineColumnMeter CRLF) = d at hn hs
  have hmet : ∀ x : LineColumnMeter CRLF, Meter.metrics Str x = x.location := fun _ => rfl
  rw [hmet, hmet, hmet]
  by_cases ho : trailingCR pre % 2 = 1
  · rw [if_pos ho] at hs
    rw [crlf_split post (LineColumnMeter.new d.location) d rfl hs hn rfl rfl hp]
    simp [ho]
  · rw [if_neg ho] at hs
    simp only [ho, false_and, iff_false]
    intro h
    match post, hp with
    | c :: cs, _ =>
      have m1 := meter_step_line (LineColumnMeter.new d.location : LineColumnMeter CRLF) c
      have d1 := meter_step_line d c
      have hst : (LineColumnMeter.new d.location : LineColumnMeter CRLF).state = d.state := hs.symm
      have := lines_apart 1 cs ((LineColumnMeter.new d.location : LineColumnMeter CRLF).step c) (d.step c)
        (by rw [meter_step_state, meter_step_state, hst]) (by rw [Bool.eq_iff_iff, m1.2, d1.2, hst])
        (by rw [m1.1, d1.1, hn]; rfl)
      simp only [List.foldl_cons] at h
      rw [h] at this
      omega

/-- The coincidence: `a\r`, then `\nb\r\nc`. -/
example : trailingCR ['a', '\r'] % 2 = 1 ∧ CutShort ['\n', 'b', '\r', '\n', 'c'] :=
  ⟨by decide, (cutShort_lf _).mpr (by decide)⟩
/-- Without the further line it fails. -/
example : ¬ CutShort ['\n', 'b'] := by rw [cutShort_lf]; decide

end Parcom
