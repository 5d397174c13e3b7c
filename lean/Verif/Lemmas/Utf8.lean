import Verif.Spec.Utf8
import Verif.Model.Utf8
import Verif.Lemmas.Loader
/-!
# Lemmas about UTF-8 and the validator
-/
namespace Parcom
open Spec

/-! ## UTF-8 -/

theorem valid_nil : Valid [] := ⟨[], rfl⟩

theorem Spec.Valid.append {a b : List UInt8} (ha : Valid a) (hb : Valid b) : Valid (a ++ b) := by
  obtain ⟨cs, rfl⟩ := ha
  obtain ⟨ds, rfl⟩ := hb
  exact ⟨cs ++ ds, by simp⟩

theorem firstChar_encode (c : Char) (bs : List UInt8) : firstChar (String.utf8EncodeChar c ++ bs) = some c := by
  unfold firstChar
  rw [List.toByteArray_append]
  exact ByteArray.utf8DecodeChar?_utf8EncodeChar_append

theorem firstChar_some {bs : List UInt8} {c : Char} (h : firstChar bs = some c) :
    ∃ rest, bs = String.utf8EncodeChar c ++ rest := by
  unfold firstChar at h
  have := ByteArray.eq_of_utf8DecodeChar?_eq_some h
  refine ⟨((bs.toByteArray.extract c.utf8Size bs.toByteArray.size)).data.toList, ?_⟩
  have h' := congrArg (fun b : ByteArray => b.data.toList) this
  simpa [ByteArray.toList_data_append, List.data_toByteArray] using h'

/-- Text can be decoded in one way only: what follows valid bytes in valid bytes is valid. -/
theorem Spec.Valid.cancel {a b : List UInt8} (ha : Valid a) (hab : Valid (a ++ b)) : Valid b := by
  obtain ⟨cs, rfl⟩ := ha
  obtain ⟨ds, hd⟩ := hab
  induction cs generalizing ds with
  | nil => exact ⟨ds, by simpa using hd⟩
  | cons c cs ih =>
    simp only [List.flatMap_cons, List.append_assoc] at hd
    cases ds with
    | nil =>
      have := congrArg List.length hd
      have hp := c.utf8Size_pos
      simp [String.length_utf8EncodeChar] at this
      omega
    | cons d ds =>
      rw [List.flatMap_cons] at hd
      have h1 := firstChar_encode c (cs.flatMap String.utf8EncodeChar ++ b)
      rw [hd, firstChar_encode] at h1
      simp at h1
      subst h1
      exact ih ds (List.append_cancel_left hd)

/-- `valid_up_to` is what its documentation says. -/
theorem validUpTo_longest (bs : List UInt8) : LongestValid bs (validUpTo bs) := by
  induction hn : bs.length using Nat.strongRecOn generalizing bs with
  | _ n ih =>
    subst hn
    unfold validUpTo
    cases hf : firstChar bs with
    | none =>
      refine ⟨Nat.zero_le _, valid_nil, ?_⟩
      intro m hm hv
      obtain ⟨cs, hcs⟩ := hv
      cases cs with
      | nil =>
        have := congrArg List.length hcs
        simp at this
        rcases this with rfl | rfl
        · exact Nat.le_refl _
        · simp at hm; simp [hm]
      | cons c cs =>
        have : bs = String.utf8EncodeChar c ++ (cs.flatMap String.utf8EncodeChar ++ bs.drop m) := by
          rw [← List.append_assoc, ← List.flatMap_cons, ← hcs, List.take_append_drop]
        rw [this, firstChar_encode] at hf
        simp at hf
    | some c =>
      obtain ⟨rest, rfl⟩ := firstChar_some hf
      have hl := String.length_utf8EncodeChar c
      have hp := c.utf8Size_pos
      have hd : (String.utf8EncodeChar c ++ rest).drop c.utf8Size = rest := by rw [← hl]; simp
      have IH := ih rest.length (by rw [List.length_append]; omega) rest rfl
      simp only
      rw [if_pos (by rw [List.length_append]; omega), hd]
      have ht : ∀ k, (String.utf8EncodeChar c ++ rest).take (c.utf8Size + k) = String.utf8EncodeChar c ++ rest.take k := by
        intro k; rw [← hl, List.take_length_add_append]
      refine ⟨by rw [List.length_append]; have := IH.within; omega, ?_, ?_⟩
      · rw [ht]
        exact Valid.append ⟨[c], by simp⟩ IH.valid
      · intro m hm hv
        by_cases hmc : m < c.utf8Size
        · omega
        · obtain ⟨k, rfl⟩ := Nat.exists_eq_add_of_le (Nat.le_of_not_lt hmc)
          rw [ht] at hv
          have := IH.longest k (by rw [List.length_append] at hm; omega) (Valid.cancel ⟨[c], by simp⟩ hv)
          omega

theorem Spec.LongestValid.unique {bs : List UInt8} {n m : Nat} (h : LongestValid bs n) (h' : LongestValid bs m) : n = m :=
  Nat.le_antisymm (h'.longest _ h.within h.valid) (h.longest _ h'.within h'.valid)

/-- Every prefix of a text ends at most three bytes behind a character boundary. -/
theorem Spec.Valid.cut {bs : List UInt8} (h : Valid bs) {n : Nat} (hn : n ≤ bs.length) : ∃ k, k ≤ n ∧ n ≤ k + 3 ∧ Valid (bs.take k) := by
  obtain ⟨cs, rfl⟩ := h
  induction cs generalizing n with
  | nil =>
    simp at hn
    exact ⟨0, Nat.zero_le _, by omega, valid_nil⟩
  | cons c cs ih =>
    have hl := String.length_utf8EncodeChar c
    have h4 := c.utf8Size_le_four
    rw [List.flatMap_cons, List.length_append] at hn
    by_cases hlt : n < c.utf8Size
    · exact ⟨0, Nat.zero_le _, by omega, valid_nil⟩
    · obtain ⟨k, h1, h2, h3⟩ := ih (n := n - c.utf8Size) (by omega)
      refine ⟨c.utf8Size + k, by omega, by omega, ?_⟩
      rw [List.flatMap_cons, ← hl, List.take_length_add_append]
      exact Valid.append ⟨[c], by simp⟩ h3

theorem validUpTo_of_prefix {bs more : List UInt8} (h : Valid (bs ++ more)) : bs.length ≤ validUpTo bs + 3 := by
  obtain ⟨k, h1, h2, h3⟩ := h.cut (n := bs.length) (by simp)
  rw [List.take_append_of_le_length h1] at h3
  have := (validUpTo_longest bs).longest k h1 h3
  omega

theorem validUpTo_of_valid {bs : List UInt8} (h : Valid bs) : validUpTo bs = bs.length :=
  Nat.le_antisymm (validUpTo_longest bs).within ((validUpTo_longest bs).longest _ (Nat.le_refl _) (by rw [List.take_length]; exact h))

/-- Valid bytes in front do not matter. -/
theorem validUpTo_append {a bs : List UInt8} (h : Valid a) : validUpTo (a ++ bs) = a.length + validUpTo bs := by
  refine (validUpTo_longest (a ++ bs)).unique ?_
  have H := validUpTo_longest bs
  refine ⟨by rw [List.length_append]; have := H.within; omega, ?_, ?_⟩
  · rw [List.take_length_add_append]
    exact h.append H.valid
  · intro m hm hv
    by_cases hma : m < a.length
    · omega
    · obtain ⟨k, rfl⟩ := Nat.exists_eq_add_of_le (Nat.le_of_not_lt hma)
      rw [List.take_length_add_append] at hv
      have := H.longest k (by rw [List.length_append] at hm; omega) (h.cancel hv)
      omega

/-- More than three bytes behind the longest valid prefix will not become valid by what follows. -/
theorem validUpTo_stuck {bs more : List UInt8} (h : validUpTo bs + 3 < bs.length) : validUpTo (bs ++ more) = validUpTo bs := by
  have H := validUpTo_longest bs
  have H' := validUpTo_longest (bs ++ more)
  have hw := H'.within
  refine Nat.le_antisymm ?_ (H'.longest _ (by rw [List.length_append]; have := H.within; omega)
    (by rw [List.take_append_of_le_length H.within]; exact H.valid))
  by_cases hle : validUpTo (bs ++ more) ≤ bs.length
  · have hv := H'.valid
    rw [List.take_append_of_le_length hle] at hv
    exact H.longest _ hle hv
  · exfalso
    have hv := H'.valid
    rw [List.take_append, List.take_of_length_le (by omega)] at hv
    have := validUpTo_of_prefix hv
    omega

/-! ## The validator's writer on a lawful writer -/

section
variable {W R E : Type} {b : Build} {B : BufferWriter W UInt8 R (Utf8Error E)} {View : W → List UInt8 → Nat → Prop}

theorem utf8_writeMany (w : Utf8Writer W) (a : Nat) (xs : List UInt8) : (utf8BufferWriter b B).writeMany w a xs =
    (B.writeMany w.req (w.buffered + a) xs >>= fun req => Run.ret { w with req }) := by
  induction xs generalizing w a with
  | nil => rfl
  | cons x xs ih =>
    simp only [BufferWriter.writeMany, Run.bind_assoc']
    show ((B.write w.req (w.buffered + a) x >>= fun req => pure { w with req }) >>= fun w => _) = _
    rw [Run.bind_assoc']
    congr 1
    funext req
    rw [Run.pure_bind', ih]
    rfl

theorem utf8_dropMany (w : Utf8Writer W) (a n : Nat) : (utf8BufferWriter b B).dropMany w a n =
    (B.dropMany w.req (w.buffered + a) n >>= fun req => Run.ret { w with req }) := by
  induction n generalizing w a with
  | zero => rfl
  | succ n ih =>
    simp only [BufferWriter.dropMany, Run.bind_assoc']
    show ((B.dropAt w.req (w.buffered + a) >>= fun req => pure { w with req }) >>= fun w => _) = _
    rw [Run.bind_assoc']
    congr 1
    funext req
    rw [Run.pure_bind', ih]
    rfl

variable (L : Lawful B View)
include L

theorem utf8_len {w : Utf8Writer W} {rest told : List UInt8} {room : Nat} (h : View w.req (rest ++ told) room)
    (hb : w.buffered = rest.length) : (utf8BufferWriter b B).len w = Run.ret told.length := by
  show (B.len w.req >>= fun l => usizeSub b l w.buffered) = _
  rw [L.len h, Run.ret_bind, hb, usizeSub_ret _ (by rw [List.length_append]; omega), List.length_append]
  congr 1
  omega

/-- An operation of a source on the validator's writer is some operation of the validator on its own writer, or none. -/
theorem utf8_op {w w' : Utf8Writer W} {rest told told' : List UInt8} {room : Nat} (h : View w.req (rest ++ told) room)
    (hb : w.buffered = rest.length) {op : WriterOp UInt8} (he : op.run b (utf8BufferWriter b B) w told = Run.ret (w', told')) :
    w'.buffered = rest.length ∧ ∃ ops, runOps b B w.req (rest ++ told) ops = Run.ret (w'.req, rest ++ told') := by
  have hlen := utf8_len (b := b) L h hb
  have hlen' : B.len w.req = Run.ret (w.buffered + told.length) := by rw [L.len h, List.length_append, hb]
  have raw : ∀ ys, ((utf8BufferWriter b B).writeMany w told.length ys >>= fun w => (utf8BufferWriter b B).setLen w (told.length + ys.length) >>=
      fun w => Run.ret (w, told ++ ys)) = Run.ret (w', told') →
      w'.buffered = rest.length ∧ ∃ ops, runOps b B w.req (rest ++ told) ops = Run.ret (w'.req, rest ++ told') := by
    intro ys he
    rw [utf8_writeMany, Run.bind_assoc'] at he
    simp only [Run.ret_bind] at he
    obtain ⟨req, h1, he⟩ := Run.bind_eq_ret.mp he
    obtain ⟨w₁, h2, he⟩ := Run.bind_eq_ret.mp he
    obtain ⟨req₂, h3, h4⟩ := Run.bind_eq_ret.mp h2
    simp at h4 he
    obtain ⟨rfl, rfl⟩ := he
    subst h4
    refine ⟨hb, [.raw ys], ?_⟩
    simp only [runOps, WriterOp.run, hlen', Run.ret_bind, h1]
    rw [show w.buffered + told.length + ys.length = told.length + ys.length + w.buffered by omega, h3]
    simp [Run.pure_eq]
  cases op with
  | push x =>
    simp only [WriterOp.run] at he
    obtain ⟨⟨r, w₁⟩, hp, he⟩ := Run.bind_eq_ret.mp he
    unfold BufferWriter.pushItem at hp
    rw [hlen, Run.ret_bind] at hp
    obtain ⟨c, hc, hp⟩ := Run.bind_eq_ret.mp hp
    by_cases hx : told.length = c
    · rw [if_pos hx] at hp
      simp at hp
      obtain ⟨rfl, rfl⟩ := hp
      simp at he
      obtain ⟨rfl, rfl⟩ := he
      exact ⟨hb, [], rfl⟩
    · rw [if_neg hx] at hp
      obtain ⟨w₂, h1, hp⟩ := Run.bind_eq_ret.mp hp
      obtain ⟨w₃, h2, hp⟩ := Run.bind_eq_ret.mp hp
      simp at hp
      obtain ⟨rfl, rfl⟩ := hp
      simp only [Run.pure_eq_ret, Prod.mk.injEq] at he
      obtain ⟨rfl, rfl⟩ := he
      refine raw [x] ?_
      simp only [BufferWriter.writeMany, h1, Run.ret_bind, Run.pure_bind', List.length_cons, List.length_nil, Nat.zero_add, h2]
  | fill ys =>
    simp only [WriterOp.run] at he
    obtain ⟨⟨start, len⟩, hs, he⟩ := Run.bind_eq_ret.mp he
    have hstart : start = told.length := by
      unfold BufferWriter.spareCapacity at hs
      rw [hlen, Run.ret_bind] at hs
      obtain ⟨c, -, hs⟩ := Run.bind_eq_ret.mp hs
      obtain ⟨d, -, hs⟩ := Run.bind_eq_ret.mp hs
      obtain ⟨d, -, hs⟩ := Run.bind_eq_ret.mp hs
      simp at hs
      exact hs.1.symm
    subst hstart
    simp only at he
    split at he
    · exact raw ys he
    · simp at he
      obtain ⟨rfl, rfl⟩ := he
      exact ⟨hb, [], rfl⟩
  | shrink n =>
    simp only [WriterOp.run] at he
    obtain ⟨w₁, hs, he⟩ := Run.bind_eq_ret.mp he
    simp at he
    obtain ⟨rfl, rfl⟩ := he
    unfold BufferWriter.shrinkTo at hs
    rw [hlen, Run.ret_bind] at hs
    by_cases hn : n ≤ told.length
    · have ht : (rest ++ told).take (w.buffered + n) = rest ++ told.take n := by rw [hb, List.take_length_add_append]
      rw [if_neg (by simpa using hn)] at hs
      by_cases he : n = told.length
      · rw [if_pos he] at hs
        simp at hs
        subst hs
        refine ⟨hb, [.shrink (w.buffered + n)], ?_⟩
        simp only [runOps, WriterOp.run, BufferWriter.shrinkTo, hlen', Run.ret_bind, ht]
        rw [if_neg (by omega), if_pos (by omega)]
        simp [Run.pure_eq]
      · rw [if_neg he, utf8_dropMany, Run.bind_assoc'] at hs
        obtain ⟨req, h1, hs⟩ := Run.bind_eq_ret.mp hs
        simp only [Run.ret_bind] at hs
        obtain ⟨req₂, h2, h3⟩ := Run.bind_eq_ret.mp hs
        simp at h3
        subst h3
        refine ⟨hb, [.shrink (w.buffered + n)], ?_⟩
        simp only [runOps, WriterOp.run, BufferWriter.shrinkTo, hlen', Run.ret_bind, ht]
        rw [if_neg (by omega), if_neg (by omega), show w.buffered + told.length - (w.buffered + n) = told.length - n by omega, h1,
          Run.ret_bind, show w.buffered + n = n + w.buffered by omega, h2]
        simp [Run.pure_eq]
    · rw [if_pos (by simpa using hn)] at hs
      simp at hs
  | set i x =>
    simp only [WriterOp.run] at he
    obtain ⟨w₁, hs, he⟩ := Run.bind_eq_ret.mp he
    simp at he
    obtain ⟨rfl, rfl⟩ := he
    unfold BufferWriter.setItem at hs
    rw [hlen, Run.ret_bind] at hs
    by_cases hi : i < told.length
    · rw [if_pos hi] at hs
      obtain ⟨w₂, h1, hs⟩ := Run.bind_eq_ret.mp hs
      obtain ⟨req, h4, h2⟩ := Run.bind_eq_ret.mp h1
      simp at h2
      subst h2
      obtain ⟨req₂, h2, h3⟩ := Run.bind_eq_ret.mp hs
      replace h2 : B.write req (w.buffered + i) x = Run.ret req₂ := h2
      simp at h3
      subst h3
      refine ⟨hb, [.set (w.buffered + i) x], ?_⟩
      simp only [runOps, WriterOp.run, BufferWriter.setItem, hlen', Run.ret_bind]
      rw [if_pos (by omega), h4, Run.ret_bind, h2, hb, List.set_append_right _ _ (by omega), Nat.add_sub_cancel_left]
      simp [Run.pure_eq]
    · rw [if_neg hi] at hs
      simp at hs
  | raw ys =>
    simp only [WriterOp.run] at he
    rw [hlen, Run.ret_bind] at he
    exact raw ys he

omit L in
theorem runOps_append' {T : Type} {W : Type} {R E : Type} {B : BufferWriter W T R E} {b : Build} {w w₁ w₂ : W} {t t₁ t₂ : List T}
    {ops ops' : List (WriterOp T)} (h1 : runOps b B w t ops = Run.ret (w₁, t₁)) (h2 : runOps b B w₁ t₁ ops' = Run.ret (w₂, t₂)) :
    runOps b B w t (ops ++ ops') = Run.ret (w₂, t₂) := by
  induction ops generalizing w t with
  | nil =>
    simp [runOps] at h1
    obtain ⟨rfl, rfl⟩ := h1
    exact h2
  | cons op ops ih =>
    simp only [runOps, List.cons_append] at h1 ⊢
    obtain ⟨⟨w₃, t₃⟩, h3, h4⟩ := Run.bind_eq_ret.mp h1
    rw [h3, Run.ret_bind]
    exact ih h4

theorem utf8_ops {w w' : Utf8Writer W} {rest told told' : List UInt8} {room : Nat} (h : View w.req (rest ++ told) room)
    (hb : w.buffered = rest.length) {ops : List (WriterOp UInt8)}
    (he : runOps b (utf8BufferWriter b B) w told ops = Run.ret (w', told')) :
    w'.buffered = rest.length ∧ ∃ ops', runOps b B w.req (rest ++ told) ops' = Run.ret (w'.req, rest ++ told') := by
  induction ops generalizing w told with
  | nil =>
    simp [runOps] at he
    obtain ⟨rfl, rfl⟩ := he
    exact ⟨hb, [], rfl⟩
  | cons op ops ih =>
    simp only [runOps] at he
    obtain ⟨⟨w₁, told₁⟩, h1, h2⟩ := Run.bind_eq_ret.mp he
    obtain ⟨hb₁, ops₁, e₁⟩ := utf8_op L h hb h1
    obtain ⟨hb₂, ops₂, e₂⟩ := ih (L.runOps h e₁) hb₁ h2
    exact ⟨hb₂, ops₁ ++ ops₂, runOps_append' e₁ e₂⟩

end

/-! ## One load -/

section
variable {C W R E : Type} {b : Build} {S : SequenceControl C W UInt8 R (Utf8Error E)}

/-- The bytes kept for the next load. -/
def Validator.kept (v : Validator) : List UInt8 := v.rest.take v.buffered

/-- The array has three bytes. -/
structure Validator.Ok (v : Validator) : Prop where
  rest : v.rest.length = 3
  buffered : v.buffered ≤ 3

theorem Validator.Ok.kept {v : Validator} (h : v.Ok) : v.kept.length = v.buffered := by
  have := h.rest
  have := h.buffered
  rw [Validator.kept, List.length_take]
  omega

theorem validator_new_ok : Validator.new.Ok := ⟨rfl, by decide⟩

/-- What the validator does with its own control when its source does a script, and what it keeps. -/
inductive Passes (v : Validator) : Script UInt8 E → List UInt8 → Script UInt8 (Utf8Error E) → List UInt8 → Validator → Prop where
  | advance {n m : Nat} {ops ops' : List (WriterOp UInt8)} {told : List UInt8} {v' : Validator} :
      (v.kept ++ told).length ≤ validUpTo (v.kept ++ told) + 3 → v'.kept = (v.kept ++ told).drop (validUpTo (v.kept ++ told)) →
      Passes v (.request n ops .advance) told (.request m ops' .advance) ((v.kept ++ told).take (validUpTo (v.kept ++ told))) v'
  | invalid {n m : Nat} {ops ops' : List (WriterOp UInt8)} {told : List UInt8} :
      validUpTo (v.kept ++ told) + 3 < (v.kept ++ told).length →
      Passes v (.request n ops .advance) told (.request m ops' (.cancel .invalidSequence)) (v.kept ++ told) v
  | cancelWriter {n m : Nat} {ops ops' : List (WriterOp UInt8)} {told : List UInt8} {e : E} :
      Passes v (.request n ops (.cancel e)) told (.request m ops' (.cancel (.inner e))) (v.kept ++ told) v
  | dropWriter {n m : Nat} {ops ops' : List (WriterOp UInt8)} {told : List UInt8} :
      Passes v (.request n ops .drop) told (.request m ops' .drop) (v.kept ++ told) v
  | cancel {e : E} : Passes v (.cancel e) [] (.cancel (.inner e)) [] v
  | finish : Passes v .finish [] .finish [] v
  | drop : Passes v .drop [] .drop [] v
  | lost {s : Script UInt8 E} {s' : Script UInt8 (Utf8Error E)} {told told' : List UInt8} {v' : Validator} :
      Passes v s told s' told' v' → Passes v (.lost s) told (.lost s') told' v

/-- The control hands out lawful writers. -/
def LawfulControl (S : SequenceControl C W UInt8 R (Utf8Error E)) (c : C) : Prop :=
  ∀ n w, S.requestWriter c n = Run.ret w → ∃ View room, Lawful S.writer View ∧ View w [] room

theorem validator_next {v v' : Validator} {c : C} {s : Script UInt8 E} {out : Outcome C W R} {told : List UInt8}
    (hc : LawfulControl S c) (hv : v.Ok) (he : v.next b S c s = Run.ret ((out, told), v')) :
    v'.Ok ∧ ∃ s' told', s'.run b S c = Run.ret (out, told') ∧ Passes v s told s' told' v' := by
  induction s generalizing v' out told with
  | lost s ih =>
    unfold Validator.next at he
    obtain ⟨⟨o, t⟩, h1, h2⟩ := Run.bind_eq_ret.mp he
    simp only [Script.run] at h1
    obtain ⟨⟨o', t'⟩, h3, h1⟩ := Run.bind_eq_ret.mp h1
    have done : ∀ {out₁ v₁}, v.next b S c s = Run.ret ((out₁, t'), v₁) →
        (∀ r, out₁ = .done r → out = .droppedResult r) → ((∀ r, out₁ ≠ .done r) → out = out₁) → t' = told → v' = v →
        v'.Ok ∧ ∃ s' told', s'.run b S c = Run.ret (out, told') ∧ Passes v (.lost s) told s' told' v' := by
      intro out₁ v₁ e e1 e2 e3 e4
      obtain ⟨-, s', told', h5, h6⟩ := ih e
      subst e3 e4
      refine ⟨hv, .lost s', told', ?_, .lost h6⟩
      simp only [Script.run, h5, Run.ret_bind]
      cases out₁ with
      | done r => rw [e1 r rfl]; rfl
      | _ => rw [e2 (by simp)]; rfl
    cases o' with
    | done r =>
      simp at h1
      obtain ⟨rfl, rfl⟩ := h1
      cases r <;> simp at h2 <;> obtain ⟨⟨rfl, rfl⟩, rfl⟩ := h2 <;>
        exact done (by unfold Validator.next; rw [h3]; rfl) (by simp) (by simp) rfl rfl
    | droppedResult r =>
      simp at h1
      obtain ⟨rfl, rfl⟩ := h1
      cases r <;> simp at h2 <;> obtain ⟨⟨rfl, rfl⟩, rfl⟩ := h2 <;>
        exact done (by unfold Validator.next; rw [h3]; rfl) (by simp) (by simp) rfl rfl
    | droppedWriter w =>
      simp at h1
      obtain ⟨rfl, rfl⟩ := h1
      simp at h2
      obtain ⟨⟨rfl, rfl⟩, rfl⟩ := h2
      exact done (by unfold Validator.next; rw [h3]; rfl) (by simp) (by simp) rfl rfl
    | droppedControl w =>
      simp at h1
      obtain ⟨rfl, rfl⟩ := h1
      simp at h2
      obtain ⟨⟨rfl, rfl⟩, rfl⟩ := h2
      exact done (by unfold Validator.next; rw [h3]; rfl) (by simp) (by simp) rfl rfl
  | request n ops fin =>
    unfold Validator.next at he
    obtain ⟨⟨o, t⟩, h1, h2⟩ := Run.bind_eq_ret.mp he
    simp only [Script.run] at h1
    obtain ⟨w, hw, hA⟩ := Run.bind_eq_ret.mp h1
    obtain ⟨⟨w₁, told₁⟩, hops, hB⟩ := Run.bind_eq_ret.mp hA
    clear h1 hA
    obtain ⟨total, -, hw⟩ := Run.bind_eq_ret.mp hw
    obtain ⟨req, hreq, hw⟩ := Run.bind_eq_ret.mp hw
    simp only at hw
    rw [if_neg (by have := hv.rest; have := hv.buffered; omega)] at hw
    obtain ⟨req₁, hw1, hw⟩ := Run.bind_eq_ret.mp hw
    obtain ⟨req₂, hw2, hw⟩ := Run.bind_eq_ret.mp hw
    simp at hw
    subst hw
    obtain ⟨View, room, L, hview⟩ := hc _ _ hreq
    have hraw : runOps b S.writer req [] [.raw v.kept] = Run.ret (req₂, v.kept ++ []) := by
      simp only [runOps, WriterOp.run, L.len hview, List.length_nil, Run.ret_bind, Nat.zero_add, hv.kept, List.nil_append]
      rw [show v.kept = v.rest.take v.buffered from rfl, hw1, Run.ret_bind, hw2]
      simp [Run.pure_eq]
    have hview₂ := L.runOps hview hraw
    obtain ⟨hb₁, ops', hops'⟩ := utf8_ops (w := ⟨v.buffered, req₂⟩) L hview₂ hv.kept.symm hops
    have hall := runOps_append' hraw hops'
    have hview₃ := L.runOps hview hall
    cases fin with
    | advance =>
      simp only at hB
      obtain ⟨r, hadv, h1⟩ := Run.bind_eq_ret.mp hB
      simp at h1
      obtain ⟨rfl, rfl⟩ := h1
      have hadv : w₁.advance S.writer = Run.ret r := hadv
      unfold Utf8Writer.advance at hadv
      rw [L.asSlice hview₃, Run.ret_bind] at hadv
      have hlong := validUpTo_longest (v.kept ++ told₁)
      rw [if_neg (by have := hlong.within; omega)] at hadv
      simp only at hadv
      by_cases hinv : (List.drop (validUpTo (v.kept ++ told₁)) (v.kept ++ told₁)).length > 3
      · rw [if_pos hinv] at hadv
        obtain ⟨res, hcan, hadv⟩ := Run.bind_eq_ret.mp hadv
        simp at hadv
        subst hadv
        simp at h2
        obtain ⟨⟨rfl, rfl⟩, rfl⟩ := h2
        rw [List.length_drop] at hinv
        refine ⟨hv, .request total ([.raw v.kept] ++ ops') (.cancel .invalidSequence), _, ?_, .invalid (by omega)⟩
        simp only [Script.run, hreq, Run.ret_bind, hall, hcan]
        rfl
      · rw [if_neg hinv] at hadv
        obtain ⟨req₄, hshr, hadv⟩ := Run.bind_eq_ret.mp hadv
        obtain ⟨res, hadv2, hadv⟩ := Run.bind_eq_ret.mp hadv
        simp only [Run.pure_eq_ret] at hadv
        subst hadv
        simp only [Run.pure_eq_ret, Prod.mk.injEq] at h2
        obtain ⟨⟨rfl, rfl⟩, rfl⟩ := h2
        have hkept : Validator.kept (.mk (List.drop (validUpTo (v.kept ++ told₁)) (v.kept ++ told₁)).length
            (List.drop (validUpTo (v.kept ++ told₁)) (v.kept ++ told₁) ++
              List.replicate (3 - (List.drop (validUpTo (v.kept ++ told₁)) (v.kept ++ told₁)).length) 0)) =
            List.drop (validUpTo (v.kept ++ told₁)) (v.kept ++ told₁) := by
          simp only [Validator.kept]
          rw [List.take_append_of_le_length (Nat.le_refl _), List.take_length]
        refine ⟨⟨?_, ?_⟩, .request total (([.raw v.kept] ++ ops') ++ [.shrink (validUpTo (v.kept ++ told₁))]) .advance, _, ?_,
          .advance ?_ hkept⟩
        · simp only [List.length_append, List.length_replicate]; omega
        · exact Nat.le_of_not_lt hinv
        · have : runOps b S.writer w₁.req (v.kept ++ told₁) [.shrink (validUpTo (v.kept ++ told₁))] =
              Run.ret (req₄, (v.kept ++ told₁).take (validUpTo (v.kept ++ told₁))) := by
            simp only [runOps, WriterOp.run, hshr, Run.ret_bind]
            simp [Run.pure_eq]
          simp only [Script.run, hreq, Run.ret_bind, runOps_append' hall this, hadv2]
          rfl
        · rw [List.length_drop] at hinv; omega
    | cancel e =>
      simp only at hB
      obtain ⟨r, hres, h1⟩ := Run.bind_eq_ret.mp hB
      obtain ⟨res, hcan, hr⟩ := Run.bind_eq_ret.mp hres
      simp at h1 hr
      obtain ⟨rfl, rfl⟩ := h1
      subst hr
      simp at h2
      obtain ⟨⟨rfl, rfl⟩, rfl⟩ := h2
      refine ⟨hv, .request total ([.raw v.kept] ++ ops') (.cancel (.inner e)), _, ?_, .cancelWriter⟩
      simp only [Script.run, hreq, Run.ret_bind, hall, hcan]
      rfl
    | drop =>
      simp at hB
      obtain ⟨rfl, rfl⟩ := hB
      simp at h2
      obtain ⟨⟨rfl, rfl⟩, rfl⟩ := h2
      refine ⟨hv, .request total ([.raw v.kept] ++ ops') .drop, _, ?_, .dropWriter⟩
      simp only [Script.run, hreq, Run.ret_bind, hall]
      rfl
  | cancel e =>
    unfold Validator.next at he
    obtain ⟨⟨o, t⟩, h1, h2⟩ := Run.bind_eq_ret.mp he
    simp only [Script.run] at h1
    obtain ⟨r, hres, hA⟩ := Run.bind_eq_ret.mp h1
    obtain ⟨res, hcan, hr⟩ := Run.bind_eq_ret.mp hres
    replace hcan : S.cancel c (.inner e) = Run.ret res := hcan
    simp at hA hr
    obtain ⟨rfl, rfl⟩ := hA
    subst hr
    simp at h2
    obtain ⟨⟨rfl, rfl⟩, rfl⟩ := h2
    refine ⟨hv, .cancel (.inner e), [], ?_, .cancel⟩
    show (_ >>= _) = _
    rw [hcan]
    rfl
  | finish =>
    unfold Validator.next at he
    obtain ⟨⟨o, t⟩, h1, h2⟩ := Run.bind_eq_ret.mp he
    simp only [Script.run] at h1
    obtain ⟨r, hres, hA⟩ := Run.bind_eq_ret.mp h1
    obtain ⟨res, hcan, hr⟩ := Run.bind_eq_ret.mp hres
    replace hcan : S.finish c = Run.ret res := hcan
    simp at hA hr
    obtain ⟨rfl, rfl⟩ := hA
    subst hr
    simp at h2
    obtain ⟨⟨rfl, rfl⟩, rfl⟩ := h2
    refine ⟨hv, .finish, [], ?_, .finish⟩
    show (_ >>= _) = _
    rw [hcan]
    rfl
  | drop =>
    unfold Validator.next at he
    obtain ⟨⟨o, t⟩, h1, h2⟩ := Run.bind_eq_ret.mp he
    simp only [Script.run, Run.pure_eq_ret, Prod.mk.injEq] at h1
    obtain ⟨rfl, rfl⟩ := h1
    simp at h2
    obtain ⟨⟨rfl, rfl⟩, rfl⟩ := h2
    exact ⟨hv, .drop, [], rfl, .drop⟩

end

theorem genericControl_lawful {E : Type} (env : Env) {buf : RawVec UInt8} {pend : List UInt8} (h : Holds buf pend) :
    LawfulControl (genericControl (E := Utf8Error E) env) { buf } := by
  intro n w hw
  have hw : Control.requestWriter env { buf } n = Run.ret w := hw
  rcases requestWriter_cases h hw with ⟨-, hv⟩ | ⟨-, _, _, -, -, hv⟩
  · exact ⟨_, _, request_lawful env _ _, hv⟩
  · exact ⟨_, _, request_lawful env _ _, hv⟩

theorem loadValidated_load {E : Type} {env : Env} {v v' : Validator} {s : Script UInt8 E} {h h' : Cells UInt8} {l l' : Loader UInt8}
    {r : Option (Except (Utf8Error E) LoadInfo)} {told pend : List UInt8} (hp : Holds l.buf pend) (hv : v.Ok)
    (he : loadValidated env v s h l = Run.ret ((r, told), v', h', l')) :
    v'.Ok ∧ ∃ s' told', load env s' h l = Run.ret ((r, told'), h', l') ∧ Passes v s told s' told' v' := by
  unfold loadValidated at he
  obtain ⟨⟨⟨out, t⟩, v₁⟩, h1, h2⟩ := Run.bind_eq_ret.mp he
  obtain ⟨hv', s', told', hs, hpass⟩ := validator_next (genericControl_lawful env hp) hv h1
  have hsame : t = told ∧ v₁ = v' ∧ load env s' h l = Run.ret ((r, told'), h', l') := by
    unfold load
    rw [hs, Run.ret_bind]
    cases out with
    | done x =>
      obtain ⟨res, buf⟩ := x
      obtain ⟨⟨r', h₁, tail⟩, h3, h4⟩ := Run.bind_eq_ret.mp h2
      simp at h4
      obtain ⟨⟨rfl, rfl⟩, rfl, rfl, rfl⟩ := h4
      refine ⟨rfl, rfl, ?_⟩
      simp only [h3, Run.ret_bind]
      rfl
    | droppedWriter w =>
      simp at h2
      obtain ⟨⟨rfl, rfl⟩, rfl, rfl, rfl⟩ := h2
      exact ⟨rfl, rfl, rfl⟩
    | droppedControl c =>
      simp at h2
      obtain ⟨⟨rfl, rfl⟩, rfl, rfl, rfl⟩ := h2
      exact ⟨rfl, rfl, rfl⟩
    | droppedResult x =>
      obtain ⟨res, buf⟩ := x
      simp at h2
      obtain ⟨⟨rfl, rfl⟩, rfl, rfl, rfl⟩ := h2
      exact ⟨rfl, rfl, rfl⟩
  obtain ⟨rfl, rfl, hl⟩ := hsame
  exact ⟨hv', s', told', hl, hpass⟩

end Parcom
