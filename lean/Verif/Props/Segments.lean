import Verif.Props.Runner
/-!
# C59, C64: segment by segment

What the iterator of the buffer and `next()` of the default runner's sequence return are the segments that were made
visible, one by one. Only the first may be cut: by what was skipped.
-/
namespace Parcom
open Spec
variable {T E : Type}

/-! ## Segments ahead -/

theorem aheadOf_append (l : List (Obs T E)) (o : Obs T E) : aheadOf (l ++ [o]) = match o with
    | .committed xs => aheadOf l ++ [xs]
    | .advanced n _ => skipSegments n (aheadOf l)
    | _ => aheadOf l := by
  simp only [aheadOf, List.foldl_append, List.foldl_cons, List.foldl_nil]
  cases o <;> rfl

theorem shownOf_append (l : List (Obs T E)) (o : Obs T E) : shownOf (l ++ [o]) = match o with
    | .iterates => []
    | .yielded seg => shownOf l ++ [seg]
    | _ => shownOf l := by
  simp only [shownOf, List.foldl_append, List.foldl_cons, List.foldl_nil]
  cases o <;> rfl

theorem skipSegments_flatten (n : Nat) (segs : List (List T)) : (skipSegments n segs).flatten = segs.flatten.drop n := by
  induction segs generalizing n with
  | nil => simp [skipSegments]
  | cons xs segs ih =>
    rw [skipSegments]
    split
    · rw [List.flatten_cons, List.flatten_cons, List.drop_append_of_le_length (by omega)]
    · rw [ih, List.flatten_cons, List.drop_append, List.drop_eq_nil_of_le (as := xs) (by omega), List.nil_append]

theorem skipSegments_front (front segs : List (List T)) (n : Nat) :
    skipSegments (front.flatten.length + n) (front ++ segs) = skipSegments n segs := by
  induction front with
  | nil => simp
  | cons xs front ih =>
    rw [List.cons_append, skipSegments, List.flatten_cons, List.length_append, if_neg (by omega), ← ih]
    congr 1
    omega

/-- The segments from here on. -/
def cutFirst (off : Nat) : List (List T) → List (List T)
  | [] => []
  | xs :: segs => xs.drop off :: segs

/-- These segments are ahead of the cursor. -/
def SegAt (h : Cells T) (tail : Nat) (c : Cursor) (segs : List (List T)) : Prop :=
  ∃ rest, Chain h c.node rest tail ∧ (∀ xs rest', rest = xs :: rest' → c.offset ≤ xs.length) ∧ (rest = [] → c.offset = 0) ∧
    segs = cutFirst c.offset rest

theorem SegAt.commit {h h' : Cells T} {tail tail' : Nat} {c : Cursor} {segs : List (List T)} {buf : RawVec T} {xs : List T}
    (hat : SegAt h tail c segs) (hok : CellsOk h tail) (he : commitTo h tail buf = Run.ret (h', tail')) (hb : Holds buf xs) :
    SegAt h' tail' c (segs ++ [xs]) := by
  obtain ⟨rest, hc, h1, h2, rfl⟩ := hat
  refine ⟨rest ++ [xs], commitTo_chain hok he hb hc, ?_, by simp, ?_⟩
  · intro ys rest' e
    cases rest with
    | nil => rw [h2 rfl]; exact Nat.zero_le _
    | cons zs rest =>
      simp only [List.cons_append, List.cons.injEq] at e
      rw [← e.1]
      exact h1 zs rest rfl
  · cases rest with
    | nil => rw [h2 rfl]; simp [cutFirst]
    | cons zs rest => simp [cutFirst]

theorem advanceTurn_segs (b : Build) {h : Cells T} {tail : Nat} {c : Cursor} {segs : List (List T)} {remain : Nat}
    (hat : SegAt h tail c segs) :
    (∃ r c', advanceTurn b h remain c = Run.ret (.inl (r, c')) ∧ SegAt h tail c' (skipSegments remain segs)) ∨
    (∃ xs segs' c', segs = xs :: segs' ∧ xs.length ≤ remain ∧
      advanceTurn b h remain c = Run.ret (.inr (remain - xs.length, c')) ∧ SegAt h tail c' segs') := by
  obtain ⟨rest, hc, h1, h2, rfl⟩ := hat
  cases hc with
  | nil hget =>
    left
    refine ⟨remain, c, ?_, [], .nil hget, h1, h2, rfl⟩
    unfold advanceTurn
    rw [hget]
    rfl
  | @cons _ _ n xs segs hget hxs hrest =>
    have hoff := h1 xs segs rfl
    have hsub : usizeSub b n.buf.len c.offset = Run.ret (xs.length - c.offset) := by
      rw [hxs.len]; exact usizeSub_ret b hoff
    have hlen : (xs.drop c.offset).length = xs.length - c.offset := List.length_drop
    by_cases hlt : remain < xs.length - c.offset
    · left
      refine ⟨0, { c with offset := c.offset + remain }, ?_, xs :: segs, .cons hget hxs hrest, ?_, by simp, ?_⟩
      · unfold advanceTurn
        rw [hget]
        simp only [hsub, Run.ret_bind]
        rw [if_pos hlt]
        rfl
      · intro ys rest' e
        simp only [List.cons.injEq] at e
        rw [← e.1]
        show c.offset + remain ≤ _
        omega
      · rw [cutFirst, skipSegments, hlen, if_pos hlt, List.drop_drop, cutFirst]
    · right
      refine ⟨xs.drop c.offset, segs, { offset := 0, node := n.next }, rfl, by omega, ?_, segs, hrest, fun _ _ _ => Nat.zero_le _,
        fun _ => rfl, ?_⟩
      · unfold advanceTurn
        rw [hget]
        simp only [hsub, Run.ret_bind]
        rw [if_neg hlt, hlen]
        rfl
      · cases segs <;> simp [cutFirst]

theorem iterNext_segs {h : Cells T} {tail : Nat} {c : Cursor} {segs : List (List T)} (hat : SegAt h tail c segs) :
    (iterNext h c = Run.ret (none, c) ∧ segs = []) ∨
    (∃ seg segs' c', segs = seg :: segs' ∧ iterNext h c = Run.ret (some seg, c') ∧ SegAt h tail c' segs') := by
  obtain ⟨rest, hc, h1, h2, rfl⟩ := hat
  cases hc with
  | nil hget =>
    left
    refine ⟨?_, rfl⟩
    unfold iterNext
    rw [hget]
    rfl
  | @cons _ _ n xs segs hget hxs hrest =>
    have hoff := h1 xs segs rfl
    right
    refine ⟨xs.drop c.offset, segs, { offset := 0, node := n.next }, rfl, ?_, segs, hrest, fun _ _ _ => Nat.zero_le _, fun _ => rfl, ?_⟩
    · unfold iterNext
      rw [hget]
      simp only [hxs.len]
      rw [if_pos hoff, hxs.readMany (by omega), Run.ret_bind, List.take_of_length_le (by rw [List.length_drop]; omega)]
      rfl
    · cases segs <;> simp [cutFirst]

/-! ## The invariant -/

/-- Where the thread of the buffer is, in segments. -/
def ReaderSegs (s : Loading T E) : Prop :=
  match s.reader with
  | .idle => True
  | .advancing length remain c => ∃ front segs, aheadOf s.log = front ++ segs ∧ length = front.flatten.length + remain ∧
      SegAt s.cells s.loader.tail c segs
  | .iterating c => ∃ segs, aheadOf s.log = shownOf s.log ++ segs ∧ SegAt s.cells s.loader.tail c segs

/-- The position and the reader, in segments. -/
def SegInv (s : Loading T E) : Prop := SegAt s.cells s.loader.tail s.head (aheadOf s.log) ∧ ReaderSegs s

theorem SegInv.same {s s' : Loading T E} (hi : SegInv s) (h1 : s'.cells = s.cells) (h2 : s'.loader.tail = s.loader.tail)
    (h3 : s'.head = s.head) (h4 : s'.reader = s.reader) {ls : List (Obs T E)} (h5 : s'.log = s.log ++ ls) (hq : ∀ o ∈ ls, Quiet o) :
    SegInv s' := by
  have hl : aheadOf s'.log = aheadOf s.log ∧ shownOf s'.log = shownOf s.log := by
    rw [h5]
    clear h5
    generalize s.log = l
    induction ls generalizing l with
    | nil => simp
    | cons o ls ih =>
      have := ih (fun o h => hq o (List.mem_cons_of_mem _ h)) (l ++ [o])
      rw [List.append_assoc, List.singleton_append] at this
      obtain ⟨told, r, rfl⟩ := hq o List.mem_cons_self
      rw [aheadOf_append, shownOf_append] at this
      exact this
  obtain ⟨hh, hr⟩ := hi
  refine ⟨by rw [h1, h2, h3, hl.1]; exact hh, ?_⟩
  unfold ReaderSegs at hr ⊢
  rw [h4, h1, h2, hl.1, hl.2]
  exact hr

theorem SegInv.commit {s s' : Loading T E} {xs : List T} {buf : RawVec T} (hi : SegInv s) (hok : CellsOk s.cells s.loader.tail)
    (hb : Holds buf xs) (he : commitTo s.cells s.loader.tail buf = Run.ret (s'.cells, s'.loader.tail))
    (h3 : s'.head = s.head) (h4 : s'.reader = s.reader) (h5 : s'.log = s.log ++ [.committed xs]) : SegInv s' := by
  have e1 : aheadOf s'.log = aheadOf s.log ++ [xs] := by rw [h5, aheadOf_append]
  have e2 : shownOf s'.log = shownOf s.log := by rw [h5, shownOf_append]
  obtain ⟨hh, hr⟩ := hi
  refine ⟨by rw [e1, h3]; exact hh.commit hok he hb, ?_⟩
  unfold ReaderSegs at hr ⊢
  rw [h4]
  cases hrd : s.reader with
  | idle => trivial
  | advancing length remain c =>
    simp only [hrd] at hr ⊢
    obtain ⟨front, segs, h6, h7, h8⟩ := hr
    exact ⟨front, segs ++ [xs], by rw [e1, h6]; simp, h7, h8.commit hok he hb⟩
  | iterating c =>
    simp only [hrd] at hr ⊢
    obtain ⟨segs, h6, h7⟩ := hr
    exact ⟨segs ++ [xs], by rw [e1, e2, h6]; simp, h7.commit hok he hb⟩

/-- What an observation says about the segments ahead. -/
def SegRight (pre : List (Obs T E)) : Obs T E → Prop
  | .yielded seg => shownOf pre ++ [seg] <+: aheadOf pre
  | .exhausted => shownOf pre = aheadOf pre
  | _ => True

theorem move_segs {b : Build} {s s' : Loading T E} {m : Move T E} (hi : Inv s) (hs : SegInv s) (he : s.move b m = Run.ret s') :
    SegInv s' ∧ ∃ ls, s'.log = s.log ++ ls ∧ ∀ pre o post, ls = pre ++ o :: post → SegRight (s.log ++ pre) o := by
  obtain ⟨pend, hp⟩ := hi.pending
  have quiet : ∀ ls : List (Obs T E), (∀ o ∈ ls, ∀ pre, SegRight pre o) → ∀ pre o post, ls = pre ++ o :: post → SegRight (s.log ++ pre) o := by
    rintro ls h pre o post rfl
    exact h o (by simp) _
  have one : ∀ o : Obs T E, SegRight s.log o → ∀ pre o' post, [o] = pre ++ o' :: post → SegRight (s.log ++ pre) o' := by
    intro o h pre o' post e
    cases pre with
    | nil => simp at e; rw [← e.1, List.append_nil]; exact h
    | cons _ _ => simp at e
  cases m with
  | load env script =>
    obtain ⟨r, told, hc, h1, h2, ⟨h3, h4, h5⟩ | ⟨h3, h5⟩⟩ := move_load hi hp he
    · exact ⟨hs.same h3 h4 h1 h2 h5 (by simp [Quiet]), _, h5, quiet _ (by simp [SegRight])⟩
    · refine ⟨?_, [.committed pend, .loaded told r], by rw [h5]; simp, quiet _ (by simp [SegRight])⟩
      have hm := hs.commit (s' := { s' with log := s.log ++ [.committed pend] }) hi.cells hp h3 h1 h2 rfl
      exact hm.same (s' := s') rfl rfl rfl rfl h5 (by simp [Quiet])
  | forceCommit env =>
    obtain ⟨s₁, e, hp', h1, h2, h3, h4⟩ := move_forceCommit (b := b) (env := env) hi hp
    rw [e] at he
    simp at he
    subst he
    exact ⟨hs.commit hi.cells hp h3 h1 h2 h4, _, h4, quiet _ (by simp [SegRight])⟩
  | advance length =>
    simp only [Loading.move] at he
    split at he <;> simp at he <;> subst he
    · refine ⟨⟨hs.1, ?_⟩, [], by simp, quiet _ (by simp)⟩
      exact ⟨[], aheadOf s.log, rfl, by simp, hs.1⟩
    · exact ⟨hs, [], by simp, quiet _ (by simp)⟩
  | get =>
    simp only [Loading.move] at he
    split at he
    · rename_i length remain c hrd
      have hr := hs.2
      unfold ReaderSegs at hr
      rw [hrd] at hr
      obtain ⟨front, segs, h1, h2, hat⟩ := hr
      rcases advanceTurn_segs b (remain := remain) hat with ⟨r, c', e, hat'⟩ | ⟨xs, segs', c', rfl, hle, e, hat'⟩
      · rw [e] at he
        simp only [Run.ret_bind, Run.pure_eq_ret] at he
        subst he
        refine ⟨⟨?_, trivial⟩, _, rfl, one _ trivial⟩
        show SegAt s.cells s.loader.tail c' (aheadOf (s.log ++ [.advanced length r]))
        rw [aheadOf_append]
        show SegAt s.cells s.loader.tail c' (skipSegments length (aheadOf s.log))
        rw [h1, h2, skipSegments_front]
        exact hat'
      · rw [e] at he
        simp at he
        subst he
        refine ⟨⟨hs.1, ?_⟩, [], by simp, quiet _ (by simp)⟩
        exact ⟨front ++ [xs], segs', by rw [h1]; simp, by rw [h2]; simp; omega, hat'⟩
    · simp at he
      subst he
      exact ⟨hs, [], by simp, quiet _ (by simp)⟩
  | segments =>
    simp only [Loading.move] at he
    split at he <;> simp at he <;> subst he
    · have e1 : aheadOf (s.log ++ [.iterates]) = aheadOf s.log := by rw [aheadOf_append]
      have e2 : shownOf (s.log ++ [.iterates]) = [] := by rw [shownOf_append]
      refine ⟨⟨?_, ?_⟩, _, rfl, one _ trivial⟩
      · show SegAt s.cells s.loader.tail s.head (aheadOf (s.log ++ [.iterates]))
        rw [e1]; exact hs.1
      · refine ⟨aheadOf s.log, ?_, hs.1⟩
        show aheadOf (s.log ++ [.iterates]) = shownOf (s.log ++ [.iterates]) ++ _
        rw [e1, e2]; rfl
    · exact ⟨hs, [], by simp, quiet _ (by simp)⟩
  | next =>
    simp only [Loading.move] at he
    split at he
    · rename_i c hrd
      have hr := hs.2
      unfold ReaderSegs at hr
      rw [hrd] at hr
      obtain ⟨segs, h1, hat⟩ := hr
      rcases iterNext_segs hat with ⟨e, rfl⟩ | ⟨seg, segs', c', rfl, e, hat'⟩
      · rw [e] at he
        simp at he
        subst he
        have e1 : aheadOf (s.log ++ [.exhausted]) = aheadOf s.log := by rw [aheadOf_append]
        have e2 : shownOf (s.log ++ [.exhausted]) = shownOf s.log := by rw [shownOf_append]
        refine ⟨⟨?_, ?_⟩, _, rfl, one _ ?_⟩
        · show SegAt s.cells s.loader.tail s.head (aheadOf (s.log ++ [.exhausted]))
          rw [e1]; exact hs.1
        · refine ⟨[], ?_, hat⟩
          show aheadOf (s.log ++ [.exhausted]) = shownOf (s.log ++ [.exhausted]) ++ _
          rw [e1, e2]; exact h1
        · show shownOf s.log = aheadOf s.log
          rw [h1, List.append_nil]
      · rw [e] at he
        simp at he
        subst he
        have e1 : aheadOf (s.log ++ [.yielded seg]) = aheadOf s.log := by rw [aheadOf_append]
        have e2 : shownOf (s.log ++ [.yielded seg]) = shownOf s.log ++ [seg] := by rw [shownOf_append]
        refine ⟨⟨?_, ?_⟩, _, rfl, one _ ?_⟩
        · show SegAt s.cells s.loader.tail s.head (aheadOf (s.log ++ [.yielded seg]))
          rw [e1]; exact hs.1
        · refine ⟨segs', ?_, hat'⟩
          show aheadOf (s.log ++ [.yielded seg]) = shownOf (s.log ++ [.yielded seg]) ++ _
          rw [e1, e2, h1]; simp
        · exact ⟨segs', by rw [h1]; simp⟩
    · simp at he
      subst he
      exact ⟨hs, [], by simp, quiet _ (by simp)⟩
  | dropIter =>
    simp only [Loading.move] at he
    split at he <;> simp at he <;> subst he
    · exact ⟨⟨hs.1, trivial⟩, [], by simp, quiet _ (by simp)⟩
    · exact ⟨hs, [], by simp, quiet _ (by simp)⟩

theorem segs_right {b : Build} {ms : List (Move T E)} {s : Loading T E} (h : Reaches b ms s) :
    SegInv s ∧ ∀ pre o post, s.log = pre ++ o :: post → SegRight pre o := by
  refine (reaches_induction (P := fun s => SegInv s ∧ ∀ pre o post, s.log = pre ++ o :: post → SegRight pre o) ?_ ?_ h).2
  · intro c
    refine ⟨⟨⟨[], .nil rfl, by simp, fun _ => rfl, rfl⟩, trivial⟩, ?_⟩
    intro pre o post e
    simp [Loading.init] at e
  · intro s s' m hi ⟨hs, ih⟩ he
    obtain ⟨hs', ls, h1, h2⟩ := move_segs hi hs he
    refine ⟨hs', ?_⟩
    intro pre o post e
    rw [h1] at e
    rcases List.append_eq_append_iff.mp e with ⟨a, e1, e2⟩ | ⟨a, e1, e2⟩
    · rw [e1]; exact h2 _ _ _ e2
    · cases a with
      | nil =>
        rw [List.append_nil] at e1
        have := h2 [] o post (by simpa using e2.symm)
        rw [← e1]
        simpa using this
      | cons x a =>
        simp at e2
        rw [← e2.1] at e1
        exact ih _ _ _ e1

/-! ## C59 -/

/-- C59: the segments an iterator yields are the segments ahead, one by one. -/
theorem C59_segments {b : Build} {ms : List (Move T E)} {s : Loading T E} {pre post : List (Obs T E)} {seg : List T} (h : Reaches b ms s)
    (hl : s.log = pre ++ .yielded seg :: post) : shownOf pre ++ [seg] <+: aheadOf pre := (segs_right h).2 pre _ post hl

/-- C59: it returns `None` only when it has yielded all of them. -/
theorem C59_all_segments {b : Build} {ms : List (Move T E)} {s : Loading T E} {pre post : List (Obs T E)} (h : Reaches b ms s)
    (hl : s.log = pre ++ .exhausted :: post) : shownOf pre = aheadOf pre := (segs_right h).2 pre _ post hl

theorem skipSegments_cut (n : Nat) : ∀ segs : List (List T), skipSegments n segs = [] ∨
    ∃ front xs rest k, segs = front ++ xs :: rest ∧ k < xs.length ∧ skipSegments n segs = xs.drop k :: rest := by
  intro segs
  induction segs generalizing n with
  | nil => exact .inl rfl
  | cons xs segs ih =>
    rw [skipSegments]
    split
    · exact .inr ⟨[], xs, segs, n, rfl, by assumption, rfl⟩
    · rcases ih (n - xs.length) with h | ⟨front, ys, rest, k, rfl, h1, h2⟩
      · exact .inl h
      · exact .inr ⟨xs :: front, ys, rest, k, rfl, h1, h2⟩

/-- The segments ahead are the last of those made visible; of the first of them a part may be gone, but not all. -/
theorem C59_cut (log : List (Obs T E)) : aheadOf log = [] ∨ ∃ front xs rest k, segmentsOf log = front ++ xs :: rest ∧
    (k = 0 ∨ k < xs.length) ∧ aheadOf log = xs.drop k :: rest := by
  suffices H : ∀ l : List (Obs T E), ∃ log, log = l.reverse ∧ (aheadOf log = [] ∨ ∃ front xs rest k, segmentsOf log = front ++ xs :: rest ∧
    (k = 0 ∨ k < xs.length) ∧ aheadOf log = xs.drop k :: rest) by
    obtain ⟨l, rfl, h⟩ := H log.reverse
    rw [List.reverse_reverse] at h
    exact h
  intro l
  induction l with
  | nil => exact ⟨[], rfl, .inl rfl⟩
  | cons o l ih =>
    obtain ⟨log, e, ih⟩ := ih
    refine ⟨log ++ [o], by rw [e]; simp, ?_⟩
    rw [aheadOf_append, segmentsOf_append]
    cases o with
    | committed ys =>
      right
      rcases ih with h | ⟨front, xs, rest, k, h1, h2, h3⟩
      · exact ⟨segmentsOf log, ys, [], 0, rfl, .inl rfl, by simp [h]⟩
      · exact ⟨front, xs, rest ++ [ys], k, by rw [h1]; simp [segmentsOf], h2, by simp [h3]⟩
    | advanced n r =>
      simp only [segmentsOf, List.append_nil]
      rcases ih with h | ⟨front, xs, rest, k, h1, h2, h3⟩
      · left; rw [h]; rfl
      · rw [h3]
        rcases skipSegments_cut n (xs.drop k :: rest) with h | ⟨front', ys, rest', k', h4, h5, h6⟩
        · exact .inl h
        · right
          rw [h6]
          cases front' with
          | nil =>
            simp at h4
            obtain ⟨rfl, rfl⟩ := h4
            rw [List.length_drop] at h5
            exact ⟨front, xs, rest, k + k', h1, .inr (by omega), by rw [List.drop_drop]⟩
          | cons z front' =>
            simp at h4
            obtain ⟨-, rfl⟩ := h4
            exact ⟨front ++ xs :: front', ys, rest', k', by rw [h1]; simp, .inr h5, rfl⟩
    | _ =>
      simp only [segmentsOf, List.append_nil]
      exact ih

theorem Chain.unique {h : Cells T} {i t : Nat} {segs segs' : List (List T)} (hc : Chain h i segs t) (hc' : Chain h i segs' t) :
    segs = segs' := by
  induction hc generalizing segs' with
  | nil hget =>
    cases hc' with
    | nil => rfl
    | cons hget' => rw [hget] at hget'; cases hget'
  | cons hget hxs _ ih =>
    cases hc' with
    | nil hget' => rw [hget] at hget'; cases hget'
    | cons hget' hxs' hrest' =>
      rw [hget] at hget'
      cases hget'
      rw [ih hrest', hxs.unique hxs']

/-- C59: they hold the visible items behind the position. -/
theorem C59_items {b : Build} {ms : List (Move T E)} {s : Loading T E} (h : Reaches b ms s) :
    (aheadOf s.log).flatten = (committedOf s.log).drop (consumedOf s.log) := by
  obtain ⟨-, rest, hc, -, -, he⟩ := (inv_reaches h).head
  obtain ⟨rest', hc', h1, h2, he'⟩ := (segs_right h).1.1
  cases hc.unique hc'
  rw [he', committedOf, ← he]
  cases rest with
  | nil => simp [cutFirst]
  | cons xs rest =>
    rw [cutFirst, List.flatten_cons, List.flatten_cons, List.drop_append_of_le_length (h1 _ _ rfl)]

end Parcom

/-! ## C64 -/

namespace Parcom.Runner
open Parcom Spec
variable {T E : Type} {b : Build} {st : State T E}

theorem receivedOf_append (l l' : List (Event T E)) : receivedOf (l ++ l') = l'.foldl (fun segs e => match e with
    | .sys .iterates => []
    | .nextReady _ (some seg) => segs ++ [seg]
    | _ => segs) (receivedOf l) := List.foldl_append

theorem receivedOf_still {l l' : List (Event T E)} (h : ∀ e ∈ l', e.still = true) : receivedOf (l ++ l') = receivedOf l := by
  rw [receivedOf_append]
  generalize receivedOf l = ys
  induction l' generalizing ys with
  | nil => rfl
  | cons e l' ih =>
    have he := h e List.mem_cons_self
    rw [List.foldl_cons, ih fun e' h' => h e' (List.mem_cons_of_mem _ h')]
    cases e with
    | sys o => cases o <;> first | rfl | simp [Event.still] at he
    | nextReady k r => cases r <;> first | rfl | simp [Event.still] at he
    | _ => rfl

theorem shownOf_still {l l' : List (Obs T E)} (h : ∀ o ∈ l', o ≠ .iterates ∧ ∀ seg, o ≠ .yielded seg) : shownOf (l ++ l') = shownOf l := by
  induction l' generalizing l with
  | nil => rw [List.append_nil]
  | cons o l' ih =>
    have := @ih (l ++ [o]) (fun o' h' => h o' (List.mem_cons_of_mem _ h'))
    rw [List.append_assoc] at this
    rw [show o :: l' = [o] ++ l' from rfl, this, shownOf_append]
    have ho := h o List.mem_cons_self
    cases o with
    | iterates => exact absurd rfl ho.1
    | yielded seg => exact absurd rfl (ho.2 seg)
    | _ => rfl

/-- What the user received is what the iterator yielded. -/
theorem received (h : Reachable b st) : receivedOf st.log = shownOf st.sys.log := by
  induction h with
  | init c => rfl
  | @step st st' hr hs ih =>
    have hi := inv hr
    have hfits := hi.fits
    cases hs with
    | loader m sys new hm he hl =>
      obtain ⟨-, hnew⟩ := move_loader hm he hl
      rw [hl, shownOf_still, receivedOf_still, ih]
      · intro e he
        obtain ⟨o, ho, rfl⟩ := List.mem_map.mp he
        rcases hnew o ho with ⟨xs, rfl⟩ | ⟨t, r, rfl⟩ <;> rfl
      · intro o ho
        rcases hnew o ho with ⟨xs, rfl⟩ | ⟨t, r, rfl⟩ <;> simp
    | signal signal new hstep hl =>
      rw [receivedOf_still, ih]
      intro e he
      obtain ⟨o, -, rfl⟩ := List.mem_map.mp he
      rfl
    | segments sys ht he =>
      rw [ht] at hfits
      have hfits : st.sys.reader = .idle := hfits
      simp only [Loading.move, hfits, Run.pure_eq_ret] at he
      subst he
      rw [receivedOf_append, shownOf_append]; rfl
    | dropStream sys ht he =>
      rw [ht] at hfits
      obtain ⟨c, hfits⟩ := hfits
      simp only [Loading.move, hfits, Run.pure_eq_ret] at he
      subst he
      exact ih
    | firstSome k fut sys seg ht he hl | secondSome k i fut sys seg ht he hl =>
      rw [hl, receivedOf_append, shownOf_append]; simp [ih]
    | firstNone k fut sys ht he hl | secondNone k i fut sys ht he hl =>
      rw [hl, receivedOf_append, shownOf_append]; simp [ih]
    | replace k remain fut sys ht he =>
      rw [ht] at hfits
      have hfits : st.sys.reader = .idle := hfits
      simp only [Loading.move, hfits, Run.pure_eq_ret] at he
      subst he
      exact ih
    | advancing k remain fut sys ht he hl => rw [hl]; exact ih
    | advanced k remain n r fut sys ht he hl => rw [hl, receivedOf_append, shownOf_append]; exact ih
    | _ =>
      first
      | exact ih
      | (rw [receivedOf_append]; exact ih)

/-- C64: the segments `next()` resolves to are the segments ahead, one by one: those made visible, the first perhaps cut
(`C59_cut`). -/
theorem C64_segments (h : Reachable b st) {pre post : List (Event T E)} {k : Nat} {seg : List T}
    (hl : st.log = pre ++ .nextReady k (some seg) :: post) : receivedOf pre ++ [seg] <+: aheadOf (sysLog pre) := by
  obtain ⟨st₀, st₁, n₁, n₂, hr, hs, hn, rfl⟩ := moment h hl
  have hi := inv hr
  have key : ∀ sys, st₀.sys.move b .next = Run.ret sys → sys.log = st₀.sys.log ++ [.yielded seg] →
      receivedOf (st₀.log ++ [.sys (.yielded seg)]) ++ [seg] <+: aheadOf (sysLog (st₀.log ++ [.sys (.yielded seg)])) := by
    intro sys he hl
    obtain ⟨ms, hm⟩ := reaches_move hi.sys he
    have := C59_segments (post := []) hm hl
    rw [receivedOf_still (by simp [Event.still]), received hr, sysLog_append, ← hi.sysLog]
    show _ <+: aheadOf (st₀.sys.log ++ [.yielded seg])
    rw [aheadOf_append]
    exact this
  cases hs with
  | firstSome k' fut sys seg' ht he hl' | secondSome k' i fut sys seg' ht he hl' =>
    replace hn := List.append_cancel_left hn
    rcases n₁ with _ | ⟨e₁, _ | ⟨e₂, n₁⟩⟩ <;> simp at hn
    obtain ⟨rfl, ⟨rfl, rfl⟩, rfl⟩ := hn
    exact key sys he hl'
  | _ =>
    first
    | (replace hn := List.append_cancel_left hn; have := congrArg (Event.nextReady k (some seg) ∈ ·) hn; simp at this)
    | (simp at hn)

/-- `[7]` and an empty segment are made visible, one item is skipped, and with it the empty segment; `[7]` is made visible
again, and `next()` yields it. -/
def skipMoves : List (Move Nat Nat) := [load7, .forceCommit plainEnv, .forceCommit plainEnv, .advance 1, .get, .get, .get, load7, .forceCommit plainEnv,
  .segments, .next]

example : ∃ s : Loading Nat Nat, ∃ pre, Reaches .checked skipMoves s ∧ s.log = pre ++ .yielded [7] :: [] ∧ aheadOf pre = [[7]] ∧
    segmentsOf pre = [[7], [], [7]] := by
  exact ⟨_, [.loaded [7] (some (.ok (.new 0 1 1))), .committed [7], .committed [], .advanced 1 0, .loaded [7] (some (.ok (.new 0 1 1))),
    .committed [7], .iterates], ⟨0, rfl⟩, rfl, rfl, rfl⟩

/-- The hypotheses of `C64_segments` are met. -/
example : ∃ st : State Nat Nat, ∃ pre, Reachable .checked st ∧ st.log = pre ++ .nextReady 0 (some [7]) :: [] ∧ aheadOf (sysLog pre) = [[7], []] := by
  have h := Reachable.init (T := Nat) (E := Nat) (b := .checked) 0
  have h := h.step (.loader _ load7 _ [.loaded [7] (some (.ok (.new 0 1 1)))] (.inl ⟨_, _, rfl⟩) rfl rfl)
  have h := h.step (.loader _ (.forceCommit plainEnv) _ [.committed [7]] (.inr ⟨_, rfl⟩) rfl rfl)
  have h := h.step (.loader _ (.forceCommit plainEnv) _ [.committed []] (.inr ⟨_, rfl⟩) rfl rfl)
  have h := h.step (.segments _ _ rfl rfl)
  have h := h.step (.next _ rfl)
  have h := h.step (.nextPoll _ rfl)
  have h := h.step (.firstSome _ 0 none _ [7] rfl rfl rfl)
  exact ⟨_, [.sys (.loaded [7] (some (.ok (.new 0 1 1)))), .sys (.committed [7]), .sys (.committed []), .sys .iterates, .nextCall,
    .pollBegin .next 0 none, .sys (.yielded [7])], h, rfl, rfl⟩

end Parcom.Runner
