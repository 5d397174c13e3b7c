import Verif.Spec.Loading
import Verif.Lemmas.Writer
/-!
# The loader and the list of cells
-/
namespace Parcom
open Spec
variable {T E : Type}

/-! ## One load -/

theorem requestWriter_cases {env : Env} {buf : RawVec T} {xs : List T} (h : Holds buf xs) {n : Nat} {r : Request T}
    (he : Control.requestWriter env { buf := buf } n = Run.ret r) :
    (xs.length + n ≤ buf.cap ∧ RequestView (.empty env.newCapacity) xs r [] (buf.cap - xs.length)) ∨
    (buf.cap < xs.length + n ∧ ∃ c got, env.calcCapacity n = Run.ret c ∧ env.withCapacity c = Run.ret got ∧
      RequestView buf [] r [] got) := by
  unfold Control.requestWriter at he
  simp only [h.len] at he
  rw [usizeSub_ret _ h.fits, Run.ret_bind] at he
  have hf := h.fits
  split at he
  · simp at he
    subst he
    left
    exact ⟨by omega, ⟨rfl, rfl, by rw [List.append_nil]; exact h, by show buf.cap = _; omega⟩⟩
  · obtain ⟨c, hc, he⟩ := Run.bind_eq_ret.mp he
    obtain ⟨got, hg, he⟩ := Run.bind_eq_ret.mp he
    simp at he
    subst he
    right
    exact ⟨by omega, c, got, hc, hg, ⟨rfl, rfl, holds_empty _, by show got = _; simp⟩⟩

/-- The ways a load can go, for a loader with `pend` pending. -/
inductive LoadCase (env : Env) (h : Cells T) (l : Loader T) (pend : List T) :
    Script T E → Option (Except E LoadInfo) → List T → Cells T → Loader T → Prop where
  | append {n : Nat} {ops : List (WriterOp T)} {told : List T} {buf : RawVec T} : pend.length + n ≤ l.buf.cap →
      Holds buf (pend ++ told) → buf.cap = l.buf.cap →
      LoadCase env h l pend (.request n ops .advance) (some (.ok (.new 0 (pend ++ told).length buf.cap))) told h { l with buf }
  | fresh {n : Nat} {ops : List (WriterOp T)} {told : List T} {buf : RawVec T} : l.buf.cap < pend.length + n → pend = [] →
      Holds buf told →
      LoadCase env h l pend (.request n ops .advance) (some (.ok (.new 0 told.length buf.cap))) told h { l with buf }
  | switch {n : Nat} {ops : List (WriterOp T)} {told : List T} {buf : RawVec T} {h' : Cells T} {tail' : Nat} :
      l.buf.cap < pend.length + n → pend ≠ [] → Holds buf told → commitTo h l.tail l.buf = Run.ret (h', tail') →
      LoadCase env h l pend (.request n ops .advance) (some (.ok (.new pend.length told.length buf.cap))) told h'
        { buf, tail := tail' }
  | cancelWriter {n : Nat} {ops : List (WriterOp T)} {told : List T} {buf : RawVec T} {e : E} :
      pend.length + n ≤ l.buf.cap → Holds buf pend → buf.cap = l.buf.cap →
      LoadCase env h l pend (.request n ops (.cancel e)) (some (.error e)) told h { l with buf }
  | cancelFresh {n : Nat} {ops : List (WriterOp T)} {told : List T} {buf : RawVec T} {e : E} :
      l.buf.cap < pend.length + n → Holds buf [] →
      LoadCase env h l pend (.request n ops (.cancel e)) (some (.error e)) told h { l with buf }
  | dropWriter {n : Nat} {ops : List (WriterOp T)} {told : List T} {buf : RawVec T} :
      pend.length + n ≤ l.buf.cap → Holds buf (pend ++ told) → buf.cap = l.buf.cap →
      LoadCase env h l pend (.request n ops .drop) none told h { l with buf }
  | dropFresh {n : Nat} {ops : List (WriterOp T)} {told : List T} {buf : RawVec T} :
      l.buf.cap < pend.length + n → Holds buf told →
      LoadCase env h l pend (.request n ops .drop) none told h { l with buf }
  | cancel {e : E} : LoadCase env h l pend (.cancel e) (some (.error e)) [] h l
  | finish {h' : Cells T} {tail' : Nat} : commitTo h l.tail l.buf = Run.ret (h', tail') →
      LoadCase env h l pend .finish (some (.ok (.done pend.length))) [] h' { buf := .empty env.newCapacity, tail := tail' }
  | drop : LoadCase env h l pend .drop none [] h l
  /-- The script is done as it would be, but the list of cells stays as it is. -/
  | lost {s : Script T E} {r : Option (Except E LoadInfo)} {told : List T} {h' : Cells T} {l' : Loader T} :
      LoadCase env h l pend s r told h' l' → LoadCase env h l pend (.lost s) none told h { l with buf := l'.buf }

theorem finishLoad_ret {h : Cells T} {tail : Nat} (hu : h.get tail = none) (res : Response T E) :
    ∃ r h' t, finishLoad h tail res = Run.ret (r, h', t) := by
  cases res with
  | appended | cancel => exact ⟨_, _, _, rfl⟩
  | advance | finish =>
    simp only [finishLoad, commitTo, hu, Run.pure_bind']
    exact ⟨_, _, _, rfl⟩

theorem load_cases {env : Env} {s : Script T E} {h h' : Cells T} {l l' : Loader T} {pend told : List T}
    {r : Option (Except E LoadInfo)} (hu : h.get l.tail = none) (hp : Holds l.buf pend)
    (he : load env s h l = Run.ret ((r, told), h', l')) : LoadCase env h l pend s r told h' l' := by
  induction s generalizing r told h' l' with
  | lost s ih =>
    unfold load at he
    obtain ⟨⟨out, told₁⟩, h1, h2⟩ := Run.bind_eq_ret.mp he
    simp only [Script.run] at h1
    obtain ⟨⟨out', told'⟩, h3, h1⟩ := Run.bind_eq_ret.mp h1
    cases out' with
    | done x =>
      obtain ⟨res, buf⟩ := x
      simp at h1
      obtain ⟨rfl, rfl⟩ := h1
      simp at h2
      obtain ⟨⟨rfl, rfl⟩, rfl, rfl⟩ := h2
      obtain ⟨r₁, h₁, t₁, e⟩ := finishLoad_ret hu res
      refine .lost (r := some r₁) (h' := h₁) (l' := { buf, tail := t₁ }) (ih ?_)
      unfold load
      rw [h3, Run.ret_bind]
      simp only [e, Run.ret_bind]
      rfl
    | droppedWriter w =>
      simp at h1
      obtain ⟨rfl, rfl⟩ := h1
      simp at h2
      obtain ⟨⟨rfl, rfl⟩, rfl, rfl⟩ := h2
      refine .lost (r := none) (h' := h) (l' := { l with buf := w.buf }) (ih ?_)
      unfold load
      rw [h3]
      rfl
    | droppedControl c =>
      simp at h1
      obtain ⟨rfl, rfl⟩ := h1
      simp at h2
      obtain ⟨⟨rfl, rfl⟩, rfl, rfl⟩ := h2
      refine .lost (r := none) (h' := h) (l' := { l with buf := c.buf }) (ih ?_)
      unfold load
      rw [h3]
      rfl
    | droppedResult x =>
      obtain ⟨res, buf⟩ := x
      simp at h1
      obtain ⟨rfl, rfl⟩ := h1
      simp at h2
      obtain ⟨⟨rfl, rfl⟩, rfl, rfl⟩ := h2
      refine .lost (r := none) (h' := h) (l' := { l with buf }) (ih ?_)
      unfold load
      rw [h3]
      rfl
  | cancel e =>
    unfold load at he
    obtain ⟨⟨out, told₁⟩, h1, h2⟩ := Run.bind_eq_ret.mp he
    clear he
    simp [Script.run, genericControl] at h1
    obtain ⟨rfl, rfl⟩ := h1
    simp [finishLoad] at h2
    obtain ⟨⟨rfl, rfl⟩, rfl, rfl⟩ := h2
    exact .cancel
  | finish =>
    unfold load at he
    obtain ⟨⟨out, told₁⟩, h1, h2⟩ := Run.bind_eq_ret.mp he
    clear he
    simp [Script.run, genericControl] at h1
    obtain ⟨rfl, rfl⟩ := h1
    simp only [finishLoad] at h2
    obtain ⟨⟨r₁, h₁, t₁⟩, h3, h2⟩ := Run.bind_eq_ret.mp h2
    obtain ⟨⟨h₂, t₂⟩, h4, h3⟩ := Run.bind_eq_ret.mp h3
    simp at h2 h3
    obtain ⟨rfl, rfl, rfl⟩ := h3
    obtain ⟨⟨rfl, rfl⟩, rfl, rfl⟩ := h2
    rw [hp.len]
    exact .finish h4
  | drop =>
    unfold load at he
    obtain ⟨⟨out, told₁⟩, h1, h2⟩ := Run.bind_eq_ret.mp he
    clear he
    simp [Script.run] at h1
    obtain ⟨rfl, rfl⟩ := h1
    simp at h2
    obtain ⟨⟨rfl, rfl⟩, rfl, rfl⟩ := h2
    exact .drop
  | request n ops fin =>
    unfold load at he
    obtain ⟨⟨out, told₁⟩, h1, h2⟩ := Run.bind_eq_ret.mp he
    clear he
    simp only [Script.run] at h1
    obtain ⟨w₀, hreq, h1⟩ := Run.bind_eq_ret.mp h1
    obtain ⟨⟨w, told₂⟩, hops, h1⟩ := Run.bind_eq_ret.mp h1
    have hreq : Control.requestWriter env { buf := l.buf } n = Run.ret w₀ := hreq
    rcases requestWriter_cases hp hreq with ⟨hfit, hv⟩ | ⟨hfit, c, got, hc, hg, hv⟩
    · have hv' := (request_lawful (E := E) env _ _).runOps hv hops
      have hcap : w.buf.cap = l.buf.cap := by rw [hv'.room]; omega
      cases fin with
      | advance =>
        have hadv : w.advance (E := E) = (.appended w.buf.len w.buf.cap, w.buf) := by
          unfold Request.advance
          rw [if_pos (by rw [hv'.toAppend]; rfl)]
        simp [genericControl, requestBufferWriter, hadv] at h1
        obtain ⟨rfl, rfl⟩ := h1
        simp [finishLoad] at h2
        obtain ⟨⟨rfl, rfl⟩, rfl, rfl⟩ := h2
        rw [hv'.holds.len]
        exact .append hfit hv'.holds hcap
      | cancel e =>
        simp only [genericControl, requestBufferWriter] at h1
        have hle : w.offset ≤ w.buf.len := by rw [hv'.offset, hv'.holds.len, List.length_append]; omega
        have hd : w.buf.drain w.offset = Run.ret _ := if_pos hle
        rw [hd] at h1
        simp at h1
        obtain ⟨rfl, rfl⟩ := h1
        simp [finishLoad] at h2
        obtain ⟨⟨rfl, rfl⟩, rfl, rfl⟩ := h2
        refine .cancelWriter hfit ⟨hv'.offset, ?_, ?_⟩ hcap
        · show pend.length ≤ w.buf.cap
          rw [hcap]; omega
        · intro i
          show (if w.offset ≤ i ∧ i < w.buf.len then none else w.buf.cells i) = _
          rw [hv'.offset, hv'.holds.len, hv'.holds.cells i, List.length_append]
          by_cases hi : i < pend.length
          · rw [if_neg (by omega), List.getElem?_append_left hi]
          · rw [List.getElem?_eq_none (l := pend) (by omega)]
            by_cases hi' : i < pend.length + told₂.length
            · rw [if_pos (by omega)]
            · rw [if_neg (by omega), List.getElem?_eq_none (by rw [List.length_append]; omega)]
      | drop =>
        simp at h1
        obtain ⟨rfl, rfl⟩ := h1
        simp at h2
        obtain ⟨⟨rfl, rfl⟩, rfl, rfl⟩ := h2
        exact .dropWriter hfit hv'.holds hcap
    · have hv' := (request_lawful (E := E) env _ _).runOps hv hops
      have hholds : Holds w.buf told₂ := hv'.holds
      cases fin with
      | advance =>
        by_cases hnil : pend = []
        · have hadv : w.advance (E := E) = (.appended w.buf.len w.buf.cap, w.buf) := by
            unfold Request.advance
            rw [if_pos (by rw [hv'.toAppend, hp.len, hnil]; rfl)]
          simp [genericControl, requestBufferWriter, hadv] at h1
          obtain ⟨rfl, rfl⟩ := h1
          simp [finishLoad] at h2
          obtain ⟨⟨rfl, rfl⟩, rfl, rfl⟩ := h2
          rw [hholds.len]
          exact .fresh hfit hnil hholds
        · have hadv : w.advance (E := E) = (.advance l.buf w.buf.len w.buf.cap, w.buf) := by
            unfold Request.advance
            rw [if_neg (by rw [hv'.toAppend, hp.len]; intro h; exact hnil (List.eq_nil_of_length_eq_zero h)), hv'.toAppend]
          simp [genericControl, requestBufferWriter, hadv] at h1
          obtain ⟨rfl, rfl⟩ := h1
          simp only [finishLoad] at h2
          obtain ⟨⟨r₁, h₁, t₁⟩, h3, h2⟩ := Run.bind_eq_ret.mp h2
          obtain ⟨⟨h₂, t₂⟩, h4, h3⟩ := Run.bind_eq_ret.mp h3
          simp at h2 h3
          obtain ⟨rfl, rfl, rfl⟩ := h3
          obtain ⟨⟨rfl, rfl⟩, rfl, rfl⟩ := h2
          rw [hholds.len, hp.len]
          exact .switch hfit hnil hholds h4
      | cancel e =>
        simp only [genericControl, requestBufferWriter] at h1
        have hle : w.offset ≤ w.buf.len := by rw [hv'.offset]; exact Nat.zero_le _
        have hd : w.buf.drain w.offset = Run.ret _ := if_pos hle
        rw [hd] at h1
        simp at h1
        obtain ⟨rfl, rfl⟩ := h1
        simp [finishLoad] at h2
        obtain ⟨⟨rfl, rfl⟩, rfl, rfl⟩ := h2
        refine .cancelFresh hfit ⟨hv'.offset, Nat.zero_le _, fun i => ?_⟩
        show (if w.offset ≤ i ∧ i < w.buf.len then none else w.buf.cells i) = _
        rw [hv'.offset, hholds.len, hholds.cells i]
        by_cases hi : i < told₂.length
        · rw [if_pos ⟨Nat.zero_le _, hi⟩]; rfl
        · rw [if_neg (by omega), List.getElem?_eq_none (by omega)]; rfl
      | drop =>
        simp at h1
        obtain ⟨rfl, rfl⟩ := h1
        simp at h2
        obtain ⟨⟨rfl, rfl⟩, rfl, rfl⟩ := h2
        exact .dropFresh hfit hholds

/-! ## The list of cells -/

/-- From cell `i` on there are nodes with these segments, up to the unset cell `t`. -/
inductive Chain (h : Cells T) : Nat → List (List T) → Nat → Prop where
  | nil {t : Nat} : h.get t = none → Chain h t [] t
  | cons {i t : Nat} {n : Node T} {xs : List T} {segs : List (List T)} : h.get i = some n → Holds n.buf xs →
      Chain h n.next segs t → Chain h i (xs :: segs) t

theorem Chain.tail_unset {h : Cells T} {i t : Nat} {segs : List (List T)} (hc : Chain h i segs t) : h.get t = none := by
  induction hc with
  | nil h => exact h
  | cons _ _ _ ih => exact ih

/-- The cells are as `commit_to` leaves them. -/
structure CellsOk (h : Cells T) (tail : Nat) : Prop where
  unset : h.get tail = none
  below : tail < h.fresh
  above : ∀ i : Nat, h.fresh ≤ i → h.get i = none

theorem commitTo_ret {h : Cells T} {tail : Nat} (hok : CellsOk h tail) (buf : RawVec T) :
    commitTo h tail buf = Run.ret
      ({ get := fun i => if i = tail then some { buf, next := h.fresh } else h.get i, fresh := h.fresh + 1 }, h.fresh) := by
  unfold commitTo
  rw [hok.unset]
  rfl

theorem commitTo_ok {h h' : Cells T} {tail tail' : Nat} {buf : RawVec T} (hok : CellsOk h tail)
    (he : commitTo h tail buf = Run.ret (h', tail')) : CellsOk h' tail' := by
  rw [commitTo_ret hok] at he
  simp only [Run.ret_inj, Prod.mk.injEq] at he
  obtain ⟨rfl, rfl⟩ := he
  have hb := hok.below
  refine ⟨?_, Nat.lt_succ_self _, fun i hi => ?_⟩
  · show (if h.fresh = tail then _ else h.get h.fresh) = none
    rw [if_neg (by omega)]
    exact hok.above _ (Nat.le_refl _)
  · show (if i = tail then _ else h.get i) = none
    have hi : h.fresh + 1 ≤ i := hi
    rw [if_neg (by omega)]
    exact hok.above _ (by omega)

theorem commitTo_chain {h h' : Cells T} {tail tail' i : Nat} {buf : RawVec T} {xs : List T} {segs : List (List T)}
    (hok : CellsOk h tail) (he : commitTo h tail buf = Run.ret (h', tail')) (hb : Holds buf xs)
    (hc : Chain h i segs tail) : Chain h' i (segs ++ [xs]) tail' := by
  have hok' := commitTo_ok hok he
  rw [commitTo_ret hok] at he
  simp only [Run.ret_inj, Prod.mk.injEq] at he
  obtain ⟨rfl, rfl⟩ := he
  induction hc with
  | nil _ => exact .cons (by exact if_pos rfl) hb (.nil hok'.unset)
  | @cons i t n ys segs hget hys _ ih =>
    refine .cons (n := n) ?_ hys (ih hok hok')
    show (if i = t then _ else h.get i) = some n
    rw [if_neg, hget]
    rintro rfl
    rw [hok.unset] at hget
    cases hget

/-- The cursor is at item `p` of all the items. -/
structure At (h : Cells T) (tail : Nat) (all : List (List T)) (c : Cursor) (p : Nat) : Prop where
  within : p ≤ all.flatten.length
  chain : ∃ rest, Chain h c.node rest tail ∧ (∀ xs rest', rest = xs :: rest' → c.offset ≤ xs.length) ∧
    (rest = [] → c.offset = 0) ∧ rest.flatten.drop c.offset = all.flatten.drop p

theorem At.commit {h h' : Cells T} {tail tail' : Nat} {all : List (List T)} {c : Cursor} {p : Nat} {buf : RawVec T}
    {xs : List T} (hat : At h tail all c p) (hok : CellsOk h tail) (he : commitTo h tail buf = Run.ret (h', tail'))
    (hb : Holds buf xs) : At h' tail' (all ++ [xs]) c p := by
  obtain ⟨hw, rest, hc, h1, h2, h3⟩ := hat
  have hflat : (all ++ [xs]).flatten = all.flatten ++ xs := by simp
  have hflat' : (rest ++ [xs]).flatten = rest.flatten ++ xs := by simp
  refine ⟨by rw [hflat, List.length_append]; omega, rest ++ [xs], commitTo_chain hok he hb hc, ?_, by simp, ?_⟩
  · intro ys rest' e
    cases rest with
    | nil => rw [h2 rfl]; exact Nat.zero_le _
    | cons zs rest'' =>
      simp only [List.cons_append, List.cons.injEq] at e
      rw [← e.1]
      exact h1 zs rest'' rfl
  · have hoff : c.offset ≤ rest.flatten.length := by
      cases rest with
      | nil => rw [h2 rfl]; exact Nat.zero_le _
      | cons zs rest'' =>
        have := h1 zs rest'' rfl
        simp only [List.flatten_cons, List.length_append]
        omega
    rw [hflat, hflat', List.drop_append_of_le_length hoff, List.drop_append_of_le_length hw, h3]

/-! ## The reader -/

theorem advanceTurn_spec (b : Build) {h : Cells T} {tail : Nat} {all : List (List T)} {c : Cursor} {p remain : Nat}
    (hat : At h tail all c p) :
    (∃ c', advanceTurn b h remain c = Run.ret (.inl (remain - (all.flatten.length - p), c')) ∧
      At h tail all c' (p + (remain - (remain - (all.flatten.length - p)))) ∧
      (all.flatten.length - p ≤ remain → p = all.flatten.length)) ∨
    (∃ k c', advanceTurn b h remain c = Run.ret (.inr (remain - k, c')) ∧ k ≤ remain ∧ At h tail all c' (p + k)) := by
  obtain ⟨hw, rest, hc, h1, h2, h3⟩ := hat
  have hlen := congrArg List.length h3
  simp only [List.length_drop] at hlen
  cases hc with
  | nil hget =>
    have h2 := h2 rfl
    rw [h2] at hlen
    simp only [List.flatten_nil, List.length_nil] at hlen
    left
    refine ⟨c, ?_, ?_, fun _ => by omega⟩
    · unfold advanceTurn
      rw [hget]
      show Run.ret _ = _
      rw [show remain - (all.flatten.length - p) = remain by omega]
    · rw [show p + (remain - (remain - (all.flatten.length - p))) = p by omega]
      exact ⟨hw, [], .nil hget, h1, fun _ => h2, h3⟩
  | @cons _ _ n xs segs hget hxs hrest =>
    have hoff := h1 xs segs rfl
    simp only [List.flatten_cons, List.length_append] at hlen
    have hsub : usizeSub b n.buf.len c.offset = Run.ret (xs.length - c.offset) := by
      rw [hxs.len]; exact usizeSub_ret b hoff
    by_cases hlt : remain < xs.length - c.offset
    · left
      refine ⟨{ c with offset := c.offset + remain }, ?_, ?_, fun h => by omega⟩
      · unfold advanceTurn
        rw [hget]
        simp only [hsub, Run.ret_bind]
        rw [if_pos hlt, show remain - (all.flatten.length - p) = 0 by omega]
        rfl
      · rw [show p + (remain - (remain - (all.flatten.length - p))) = p + remain by omega]
        refine ⟨by omega, xs :: segs, .cons hget hxs hrest, ?_, by simp, ?_⟩
        · intro ys rest' e
          simp only [List.cons.injEq] at e
          rw [← e.1]
          show c.offset + remain ≤ _
          omega
        · show List.drop (c.offset + remain) _ = _
          rw [← List.drop_drop, ← List.drop_drop, h3]
    · right
      refine ⟨xs.length - c.offset, { offset := 0, node := n.next }, ?_, by omega, by omega, segs, hrest, fun _ _ _ => Nat.zero_le _,
        fun _ => rfl, ?_⟩
      · unfold advanceTurn
        rw [hget]
        simp only [hsub, Run.ret_bind]
        rw [if_neg hlt]
        rfl
      · rw [← List.drop_drop, ← h3, List.drop_drop, show c.offset + (xs.length - c.offset) = xs.length by omega,
          List.flatten_cons, List.drop_append_of_le_length (Nat.le_refl _)]
        simp

theorem iterNext_spec {h : Cells T} {tail : Nat} {all : List (List T)} {c : Cursor} {p : Nat}
    (hat : At h tail all c p) :
    (iterNext h c = Run.ret (none, c) ∧ p = all.flatten.length) ∨
    (∃ seg c', iterNext h c = Run.ret (some seg, c') ∧ At h tail all c' (p + seg.length) ∧ seg <+: all.flatten.drop p) := by
  obtain ⟨hw, rest, hc, h1, h2, h3⟩ := hat
  have hlen := congrArg List.length h3
  simp only [List.length_drop] at hlen
  cases hc with
  | nil hget =>
    have h2 := h2 rfl
    rw [h2] at hlen
    simp only [List.flatten_nil, List.length_nil] at hlen
    left
    refine ⟨?_, by omega⟩
    unfold iterNext
    rw [hget]
    rfl
  | @cons _ _ n xs segs hget hxs hrest =>
    have hoff := h1 xs segs rfl
    simp only [List.flatten_cons, List.length_append] at hlen
    right
    have hsplit : xs.drop c.offset ++ segs.flatten = all.flatten.drop p := by
      rw [← h3, List.flatten_cons, List.drop_append_of_le_length hoff]
    refine ⟨xs.drop c.offset, { offset := 0, node := n.next }, ?_, ?_, segs.flatten, hsplit⟩
    · unfold iterNext
      rw [hget]
      simp only [hxs.len]
      rw [if_pos hoff, hxs.readMany (by omega), Run.ret_bind, List.take_of_length_le (by rw [List.length_drop]; omega)]
      rfl
    · refine ⟨by rw [List.length_drop]; omega, segs, hrest, fun _ _ _ => Nat.zero_le _, fun _ => rfl, ?_⟩
      rw [← List.drop_drop, ← hsplit, List.drop_append_of_le_length (Nat.le_refl _)]
      simp
      omega

/-! ## Logs -/

theorem segmentsOf_append (l l' : List (Obs T E)) : segmentsOf (l ++ l') = segmentsOf l ++ segmentsOf l' := by
  induction l with
  | nil => rfl
  | cons o l ih => cases o <;> simp [segmentsOf, ih]

theorem acceptedOf_append (l l' : List (Obs T E)) : acceptedOf (l ++ l') = acceptedOf l ++ acceptedOf l' := by
  induction l with
  | nil => rfl
  | cons o l ih =>
    rcases o with ⟨told, _ | _ | _⟩ | _ | _ | _ | _ | _ <;> simp [acceptedOf, ih]

theorem consumedOf_append (l l' : List (Obs T E)) : consumedOf (l ++ l') = consumedOf l + consumedOf l' := by
  induction l with
  | nil => simp [consumedOf]
  | cons o l ih => cases o <;> simp [consumedOf, ih] <;> omega

theorem yieldedOf_append (l : List (Obs T E)) (o : Obs T E) : yieldedOf (l ++ [o]) = match o with
    | .iterates => []
    | .yielded seg => yieldedOf l ++ seg
    | _ => yieldedOf l := by
  simp only [yieldedOf, List.foldl_append, List.foldl_cons, List.foldl_nil]
  cases o <;> rfl

/-! ## The invariant -/

/-- What the thread of the buffer is doing. -/
def ReaderOk (s : Loading T E) : Prop :=
  match s.reader with
  | .idle => True
  | .advancing length remain c => remain ≤ length ∧
      At s.cells s.loader.tail (segmentsOf s.log) c (consumedOf s.log + (length - remain))
  | .iterating c => At s.cells s.loader.tail (segmentsOf s.log) c (consumedOf s.log + (yieldedOf s.log).length) ∧
      yieldedOf s.log <+: (committedOf s.log).drop (consumedOf s.log)

structure Inv (s : Loading T E) : Prop where
  pending : ∃ pend, Holds s.loader.buf pend
  cells : CellsOk s.cells s.loader.tail
  chain : Chain s.cells 0 (segmentsOf s.log) s.loader.tail
  head : At s.cells s.loader.tail (segmentsOf s.log) s.head (consumedOf s.log)
  reader : ReaderOk s

theorem inv_init (c : Nat) : Inv (Loading.init c : Loading T E) where
  pending := ⟨[], holds_empty c⟩
  cells := ⟨rfl, Nat.zero_lt_one, fun _ _ => rfl⟩
  chain := .nil rfl
  head := ⟨Nat.zero_le _, [], .nil rfl, by simp, fun _ => rfl, rfl⟩
  reader := trivial

theorem newlyCommitted_same (h : Cells T) (tail : Nat) (hu : h.get tail = none) : newlyCommitted h h tail = Run.ret [] := by
  unfold newlyCommitted
  rw [hu]
  rfl

theorem newlyCommitted_commit {h h' : Cells T} {tail tail' : Nat} {buf : RawVec T} {xs : List T} (hok : CellsOk h tail)
    (he : commitTo h tail buf = Run.ret (h', tail')) (hb : Holds buf xs) : newlyCommitted h h' tail = Run.ret [xs] := by
  rw [commitTo_ret hok] at he
  simp only [Run.ret_inj, Prod.mk.injEq] at he
  obtain ⟨rfl, rfl⟩ := he
  unfold newlyCommitted
  simp only [hok.unset, if_true]
  rw [hb.len, hb.readMany (by omega)]
  simp [List.take_length]

/-- Events that say nothing about segments, positions or iteration. -/
def Quiet (o : Obs T E) : Prop := ∃ told r, o = .loaded told r

theorem quiet_log {l : List (Obs T E)} {o : Obs T E} (h : Quiet o) : segmentsOf (l ++ [o]) = segmentsOf l ∧
    consumedOf (l ++ [o]) = consumedOf l ∧ yieldedOf (l ++ [o]) = yieldedOf l := by
  obtain ⟨told, r, rfl⟩ := h
  refine ⟨?_, ?_, ?_⟩
  · simp [segmentsOf_append, segmentsOf]
  · simp [consumedOf_append, consumedOf]
  · rw [yieldedOf_append]

/-- A loader operation that commits nothing. -/
theorem inv_same {s s' : Loading T E} {ls : List (Obs T E)} (hi : Inv s) (hq : ∀ o ∈ ls, Quiet o) (hp : ∃ pend, Holds s'.loader.buf pend)
    (h1 : s'.cells = s.cells) (h2 : s'.loader.tail = s.loader.tail) (h3 : s'.head = s.head) (h4 : s'.reader = s.reader)
    (h5 : s'.log = s.log ++ ls) : Inv s' := by
  have hl : segmentsOf s'.log = segmentsOf s.log ∧ consumedOf s'.log = consumedOf s.log ∧ yieldedOf s'.log = yieldedOf s.log := by
    rw [h5]
    clear h5
    generalize s.log = l
    induction ls generalizing l with
    | nil => simp
    | cons o ls ih =>
      have := ih (fun o h => hq o (List.mem_cons_of_mem _ h)) (l ++ [o])
      rw [List.append_assoc, List.singleton_append] at this
      obtain ⟨q1, q2, q3⟩ := quiet_log (l := l) (hq o List.mem_cons_self)
      exact ⟨this.1.trans q1, this.2.1.trans q2, this.2.2.trans q3⟩
  obtain ⟨e1, e2, e3⟩ := hl
  refine ⟨hp, by rw [h1, h2]; exact hi.cells, by rw [h1, h2, e1]; exact hi.chain, by rw [h1, h2, h3, e1, e2]; exact hi.head, ?_⟩
  have hr := hi.reader
  unfold ReaderOk committedOf at hr ⊢
  rw [h4, h1, h2, e1, e2, e3]
  exact hr

/-- A loader operation that commits a segment. -/
theorem inv_commit {s s' : Loading T E} {xs : List T} {buf : RawVec T} (hi : Inv s) (hb : Holds buf xs)
    (he : commitTo s.cells s.loader.tail buf = Run.ret (s'.cells, s'.loader.tail)) (hp : ∃ pend, Holds s'.loader.buf pend)
    (h3 : s'.head = s.head) (h4 : s'.reader = s.reader) (h5 : s'.log = s.log ++ [.committed xs]) : Inv s' := by
  have e1 : segmentsOf s'.log = segmentsOf s.log ++ [xs] := by rw [h5, segmentsOf_append]; rfl
  have e2 : consumedOf s'.log = consumedOf s.log := by rw [h5, consumedOf_append]; rfl
  have e3 : yieldedOf s'.log = yieldedOf s.log := by rw [h5, yieldedOf_append]
  refine ⟨hp, commitTo_ok hi.cells he, ?_, ?_, ?_⟩
  · rw [e1]; exact commitTo_chain hi.cells he hb hi.chain
  · rw [e1, e2, h3]; exact hi.head.commit hi.cells he hb
  · have hr := hi.reader
    unfold ReaderOk committedOf at hr ⊢
    rw [h4]
    cases hrd : s.reader with
    | idle => trivial
    | advancing length remain c =>
      simp only [hrd] at hr ⊢
      rw [e1, e2]
      exact ⟨hr.1, hr.2.commit hi.cells he hb⟩
    | iterating c =>
      simp only [hrd] at hr ⊢
      rw [e1, e2, e3]
      refine ⟨hr.1.commit hi.cells he hb, ?_⟩
      have hw := hi.head.within
      rw [List.flatten_append, List.drop_append_of_le_length hw]
      exact hr.2.trans (List.prefix_append _ _)

end Parcom

namespace Parcom
open Spec
variable {T E : Type}

/-- What a load does to the system. -/
theorem move_load {b : Build} {env : Env} {script : Script T E} {s s' : Loading T E} {pend : List T} (hi : Inv s)
    (hp : Pending s pend) (he : s.move b (.load env script) = Run.ret s') :
    ∃ r told, LoadCase env s.cells s.loader pend script r told s'.cells s'.loader ∧ s'.head = s.head ∧ s'.reader = s.reader ∧
      ((s'.cells = s.cells ∧ s'.loader.tail = s.loader.tail ∧ s'.log = s.log ++ [.loaded told r]) ∨
       (commitTo s.cells s.loader.tail s.loader.buf = Run.ret (s'.cells, s'.loader.tail) ∧
        s'.log = s.log ++ [.committed pend] ++ [.loaded told r])) := by
  simp only [Loading.move] at he
  obtain ⟨⟨⟨r, told⟩, cells, loader⟩, h1, h2⟩ := Run.bind_eq_ret.mp he
  obtain ⟨new, h3, h4⟩ := Run.bind_eq_ret.mp h2
  simp at h4
  subst h4
  have hc := load_cases hi.cells.unset hp h1
  refine ⟨r, told, hc, rfl, rfl, ?_⟩
  have hsame : cells = s.cells → loader.tail = s.loader.tail →
      (cells = s.cells ∧ loader.tail = s.loader.tail ∧ s.log ++ (new.map .committed ++ [.loaded told r]) = s.log ++ [.loaded told r]) := by
    intro e1 e2
    subst e1
    simp only at h3
    rw [newlyCommitted_same _ _ hi.cells.unset] at h3
    simp at h3
    subst h3
    exact ⟨rfl, e2, rfl⟩
  have hcommit : commitTo s.cells s.loader.tail s.loader.buf = Run.ret (cells, loader.tail) →
      (commitTo s.cells s.loader.tail s.loader.buf = Run.ret (cells, loader.tail) ∧
       s.log ++ (new.map .committed ++ [.loaded told r]) = s.log ++ [.committed pend] ++ [.loaded told r]) := by
    intro e
    simp only at h3
    rw [newlyCommitted_commit hi.cells e hp] at h3
    simp at h3
    subst h3
    exact ⟨e, by simp⟩
  cases hc with
  | append | fresh | cancelWriter | cancelFresh | dropWriter | dropFresh | cancel | drop | lost => exact .inl (hsame rfl rfl)
  | switch _ _ _ e => exact .inr (hcommit e)
  | finish e => exact .inr (hcommit e)

/-- What is pending after a load. -/
theorem LoadCase.pending {env : Env} {h h' : Cells T} {l l' : Loader T} {pend told : List T} {s : Script T E}
    {r : Option (Except E LoadInfo)} (hp : Holds l.buf pend) (hc : LoadCase env h l pend s r told h' l') : ∃ pend', Holds l'.buf pend' := by
  induction hc with
  | lost _ ih => exact ih
  | append _ h => exact ⟨_, h⟩
  | fresh _ _ h => exact ⟨_, h⟩
  | switch _ _ h => exact ⟨_, h⟩
  | cancelWriter _ h => exact ⟨_, h⟩
  | cancelFresh _ h => exact ⟨_, h⟩
  | dropWriter _ h => exact ⟨_, h⟩
  | dropFresh _ h => exact ⟨_, h⟩
  | cancel => exact ⟨_, hp⟩
  | finish => exact ⟨_, holds_empty _⟩
  | drop => exact ⟨_, hp⟩

/-- What `force_commit` does to the system. -/
theorem move_forceCommit {b : Build} {env : Env} {s : Loading T E} {pend : List T} (hi : Inv s) (hp : Pending s pend) :
    ∃ s', s.move b (.forceCommit env) = Run.ret s' ∧ Pending s' [] ∧ s'.head = s.head ∧ s'.reader = s.reader ∧
      commitTo s.cells s.loader.tail s.loader.buf = Run.ret (s'.cells, s'.loader.tail) ∧ s'.log = s.log ++ [.committed pend] := by
  have e := commitTo_ret hi.cells s.loader.buf
  have hn := newlyCommitted_commit hi.cells e hp
  refine ⟨{ s with cells := _, loader := { buf := .empty env.newCapacity, tail := s.cells.fresh }, log := s.log ++ [.committed pend] },
    ?_, holds_empty _, rfl, rfl, e, rfl⟩
  simp only [Loading.move, Parcom.forceCommit, e, Run.ret_bind, Run.pure_bind', hn]
  rfl

theorem inv_move {b : Build} {s s' : Loading T E} {m : Move T E} (hi : Inv s) (he : s.move b m = Run.ret s') : Inv s' := by
  obtain ⟨pend, hp⟩ := hi.pending
  cases m with
  | load env script =>
    obtain ⟨r, told, hc, h1, h2, ⟨h3, h4, h5⟩ | ⟨h3, h5⟩⟩ := move_load hi hp he
    · exact inv_same hi (ls := [.loaded told r]) (by simp [Quiet]) (hc.pending hp) h3 h4 h1 h2 h5
    · let s₁ : Loading T E := { s' with log := s.log ++ [.committed pend] }
      have : Inv s₁ := inv_commit hi hp h3 (hc.pending hp) h1 h2 rfl
      exact inv_same this (ls := [.loaded told r]) (by simp [Quiet]) (hc.pending hp) rfl rfl rfl rfl h5
  | forceCommit env =>
    obtain ⟨s₁, e, hp', h1, h2, h3, h4⟩ := move_forceCommit (b := b) (env := env) hi hp
    rw [e] at he
    simp at he
    subst he
    exact inv_commit hi hp h3 ⟨_, hp'⟩ h1 h2 h4
  | advance length =>
    simp only [Loading.move] at he
    split at he
    · simp at he
      subst he
      refine ⟨hi.pending, hi.cells, hi.chain, hi.head, ?_⟩
      exact ⟨Nat.le_refl _, by rw [Nat.sub_self]; exact hi.head⟩
    · simp at he
      subst he
      exact hi
  | get =>
    simp only [Loading.move] at he
    split at he
    · rename_i length remain c hrd
      have hr := hi.reader
      unfold ReaderOk at hr
      rw [hrd] at hr
      obtain ⟨hle, hat⟩ := hr
      have hw := hat.within
      rcases advanceTurn_spec b (remain := remain) hat with ⟨c', e, hat', hend⟩ | ⟨k, c', e, hk, hat'⟩
      · rw [e] at he
        simp only [Run.ret_bind, Run.pure_eq_ret] at he
        subst he
        have hcons : consumedOf (s.log ++ [Obs.advanced length (remain -
            ((segmentsOf s.log).flatten.length - (consumedOf s.log + (length - remain))))]) = consumedOf s.log + (length - remain) +
            (remain - (remain - ((segmentsOf s.log).flatten.length - (consumedOf s.log + (length - remain))))) := by
          rw [consumedOf_append]
          simp only [consumedOf]
          omega
        have hseg : segmentsOf (s.log ++ [Obs.advanced (T := T) (E := E) length (remain -
            ((segmentsOf s.log).flatten.length - (consumedOf s.log + (length - remain))))]) = segmentsOf s.log := by
          rw [segmentsOf_append]; simp [segmentsOf]
        refine ⟨hi.pending, hi.cells, ?_, ?_, trivial⟩
        · show Chain _ _ (segmentsOf (_ ++ _)) _
          rw [hseg]; exact hi.chain
        · show At _ _ (segmentsOf (_ ++ _)) _ (consumedOf (_ ++ _))
          rw [hseg, hcons]; exact hat'
      · rw [e] at he
        simp at he
        subst he
        refine ⟨hi.pending, hi.cells, hi.chain, hi.head, ?_⟩
        refine ⟨?_, ?_⟩
        · omega
        · have : consumedOf s.log + (length - (remain - k)) = consumedOf s.log + (length - remain) + k := by omega
          show At _ _ _ _ (consumedOf s.log + (length - (remain - k)))
          rw [this]; exact hat'
    · simp at he
      subst he
      exact hi
  | segments =>
    simp only [Loading.move] at he
    split at he
    · simp at he
      subst he
      have h1 : segmentsOf (s.log ++ [Obs.iterates (T := T) (E := E)]) = segmentsOf s.log := by rw [segmentsOf_append]; simp [segmentsOf]
      have h2 : consumedOf (s.log ++ [Obs.iterates (T := T) (E := E)]) = consumedOf s.log := by rw [consumedOf_append]; simp [consumedOf]
      have h3 : yieldedOf (s.log ++ [Obs.iterates (T := T) (E := E)]) = [] := by rw [yieldedOf_append]
      refine ⟨hi.pending, hi.cells, ?_, ?_, ?_⟩
      · show Chain _ _ (segmentsOf (_ ++ _)) _
        rw [h1]; exact hi.chain
      · show At _ _ (segmentsOf (_ ++ _)) _ (consumedOf (_ ++ _))
        rw [h1, h2]; exact hi.head
      · show At _ _ (segmentsOf (_ ++ _)) _ (consumedOf (_ ++ _) + (yieldedOf (_ ++ _)).length) ∧ yieldedOf (_ ++ _) <+: _
        rw [h1, h2, h3]
        exact ⟨hi.head, List.nil_prefix⟩
    · simp at he
      subst he
      exact hi
  | next =>
    simp only [Loading.move] at he
    split at he
    · rename_i c hrd
      have hr := hi.reader
      unfold ReaderOk at hr
      rw [hrd] at hr
      obtain ⟨hat, hpre⟩ := hr
      rcases iterNext_spec hat with ⟨e, hend⟩ | ⟨seg, c', e, hat', hseg⟩
      · rw [e] at he
        simp at he
        subst he
        have h1 : segmentsOf (s.log ++ [Obs.exhausted (T := T) (E := E)]) = segmentsOf s.log := by rw [segmentsOf_append]; simp [segmentsOf]
        have h2 : consumedOf (s.log ++ [Obs.exhausted (T := T) (E := E)]) = consumedOf s.log := by rw [consumedOf_append]; simp [consumedOf]
        have h3 : yieldedOf (s.log ++ [Obs.exhausted (T := T) (E := E)]) = yieldedOf s.log := by rw [yieldedOf_append]
        refine ⟨hi.pending, hi.cells, ?_, ?_, ?_⟩
        · show Chain _ _ (segmentsOf (_ ++ _)) _
          rw [h1]; exact hi.chain
        · show At _ _ (segmentsOf (_ ++ _)) _ (consumedOf (_ ++ _))
          rw [h1, h2]; exact hi.head
        · show At _ _ (segmentsOf (_ ++ _)) _ (consumedOf (_ ++ _) + (yieldedOf (_ ++ _)).length) ∧
            yieldedOf (_ ++ _) <+: ((segmentsOf (_ ++ _)).flatten).drop (consumedOf (_ ++ _))
          rw [h1, h2, h3]
          exact ⟨hat, hpre⟩
      · rw [e] at he
        simp at he
        subst he
        have h1 : segmentsOf (s.log ++ [Obs.yielded (E := E) seg]) = segmentsOf s.log := by rw [segmentsOf_append]; simp [segmentsOf]
        have h2 : consumedOf (s.log ++ [Obs.yielded (E := E) seg]) = consumedOf s.log := by rw [consumedOf_append]; simp [consumedOf]
        have h3 : yieldedOf (s.log ++ [Obs.yielded (E := E) seg]) = yieldedOf s.log ++ seg := by rw [yieldedOf_append]
        refine ⟨hi.pending, hi.cells, ?_, ?_, ?_⟩
        · show Chain _ _ (segmentsOf (_ ++ _)) _
          rw [h1]; exact hi.chain
        · show At _ _ (segmentsOf (_ ++ _)) _ (consumedOf (_ ++ _))
          rw [h1, h2]; exact hi.head
        · show At _ _ (segmentsOf (_ ++ _)) _ (consumedOf (_ ++ _) + (yieldedOf (_ ++ _)).length) ∧
            yieldedOf (_ ++ _) <+: ((segmentsOf (_ ++ _)).flatten).drop (consumedOf (_ ++ _))
          rw [h1, h2, h3, List.length_append, ← Nat.add_assoc]
          refine ⟨hat', ?_⟩
          obtain ⟨y, hy⟩ := hpre
          obtain ⟨z, hz⟩ := hseg
          rw [← List.drop_drop] at hz
          have hy' : yieldedOf s.log ++ y = (segmentsOf s.log).flatten.drop (consumedOf s.log) := hy
          rw [← hy', List.drop_append_of_le_length (Nat.le_refl _), List.drop_length, List.nil_append] at hz
          exact ⟨z, by rw [List.append_assoc, hz]; exact hy'⟩
    · simp at he
      subst he
      exact hi
  | dropIter =>
    simp only [Loading.move] at he
    split at he
    · simp at he
      subst he
      exact ⟨hi.pending, hi.cells, hi.chain, hi.head, trivial⟩
    · simp at he
      subst he
      exact hi

theorem run_append {b : Build} {s s' : Loading T E} {ms ms' : List (Move T E)} :
    s.run b (ms ++ ms') = Run.ret s' ↔ ∃ s₁, s.run b ms = Run.ret s₁ ∧ s₁.run b ms' = Run.ret s' := by
  induction ms generalizing s with
  | nil => simp [Loading.run]
  | cons m ms ih =>
    simp only [List.cons_append, Loading.run, Run.bind_eq_ret, ih]
    constructor
    · rintro ⟨s₁, h1, s₂, h2, h3⟩; exact ⟨s₂, ⟨s₁, h1, h2⟩, h3⟩
    · rintro ⟨s₂, ⟨s₁, h1, h2⟩, h3⟩; exact ⟨s₁, h1, s₂, h2, h3⟩

theorem run_single {b : Build} {s s' : Loading T E} {m : Move T E} : s.run b [m] = Run.ret s' ↔ s.move b m = Run.ret s' := by
  simp [Loading.run]

/-- Induction over histories. -/
theorem reaches_induction {b : Build} {P : Loading T E → Prop} (h0 : ∀ c, P (Loading.init c))
    (hs : ∀ {s s' m}, Inv s → P s → s.move b m = Run.ret s' → P s') {ms : List (Move T E)} {s : Loading T E} (h : Reaches b ms s) :
    Inv s ∧ P s := by
  obtain ⟨c, h⟩ := h
  have key : ∀ (ms : List (Move T E)) (s₀ : Loading T E), Inv s₀ → P s₀ → s₀.run b ms = Run.ret s → Inv s ∧ P s := by
    intro ms
    induction ms with
    | nil => intro s₀ hi hp h; simp [Loading.run] at h; subst h; exact ⟨hi, hp⟩
    | cons m ms ih =>
      intro s₀ hi hp h
      simp only [Loading.run] at h
      obtain ⟨s₁, h1, h2⟩ := Run.bind_eq_ret.mp h
      exact ih s₁ (inv_move hi h1) (hs hi hp h1) h2
  exact key ms _ (inv_init c) (h0 c) h

theorem inv_reaches {b : Build} {ms : List (Move T E)} {s : Loading T E} (h : Reaches b ms s) : Inv s :=
  (reaches_induction (P := fun _ => True) (fun _ => trivial) (fun _ _ _ => trivial) h).1

end Parcom

namespace Parcom
open Spec
variable {T E : Type}

theorem commitTo_ne {h h' : Cells T} {tail tail' : Nat} {buf : RawVec T} (hok : CellsOk h tail)
    (he : commitTo h tail buf = Run.ret (h', tail')) : h' ≠ h := by
  intro e
  rw [commitTo_ret hok] at he
  simp only [Run.ret_inj, Prod.mk.injEq] at he
  rw [← he.1] at e
  have := congrArg (fun h : Cells T => h.get tail) e
  simp [hok.unset] at this

/-- What a load makes visible. -/
theorem move_load_committed {b : Build} {env : Env} {script : Script T E} {s s' : Loading T E} {pend : List T} (hi : Inv s)
    (hp : Pending s pend) (he : s.move b (.load env script) = Run.ret s') :
    ∃ r told log, LoadCase env s.cells s.loader pend script r told s'.cells s'.loader ∧ s'.log = log ++ [.loaded told r] ∧
      (∃ l, log = s.log ++ l ∧ ∀ told r, .loaded told r ∉ l) ∧
      ((s'.cells = s.cells ∧ committedOf s'.log = committedOf s.log) ∨
       (s'.cells ≠ s.cells ∧ committedOf s'.log = committedOf s.log ++ pend)) := by
  obtain ⟨r, told, hc, -, -, hlog⟩ := move_load hi hp he
  rcases hlog with ⟨h1, -, e⟩ | ⟨h1, e⟩
  · exact ⟨r, told, _, hc, e, ⟨[], by simp, by simp⟩, .inl ⟨h1, by rw [e, committedOf, segmentsOf_append]; simp [segmentsOf, committedOf]⟩⟩
  · exact ⟨r, told, _, hc, e, ⟨[.committed pend], rfl, by simp⟩, .inr ⟨commitTo_ne hi.cells h1, by
      rw [e, committedOf, segmentsOf_append, segmentsOf_append]; simp [segmentsOf, committedOf]⟩⟩

end Parcom
