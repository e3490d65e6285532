import Verif.Props.Buffers

set_option autoImplicit false

/-! # C10, C11: exactly which `append_from` calls return, and what they return

The arguments of `append_from` are arbitrary here: any range, any row position, and buffers of any
nullability. -/

namespace Meerkat
open Spec

/-- The rows a copy of `n` values adds when it starts at row `pos` of a nullable column: up to the
`n`-th value from there, that one included. -/
def AppendedRows {α : Type} (ss : List (Option α)) (pos n : Nat) (mid : List Bool) : Prop :=
  PrefixWithSet n (validityOf (ss.drop pos)) mid

theorem PrimitiveBuffer.new_pushAll_ok {α : Type} {nullable : Bool} {rows : List (Option α)}
    {b : PrimitiveBuffer α} (h : (PrimitiveBuffer.new nullable).pushAll rows = .ok b) :
    Accepts nullable rows ∧ b = PrimitiveBuffer.ofRows nullable rows := by
  have hacc : Accepts nullable rows := by
    cases nullable
    · right; intro hn; rw [PrimitiveBuffer.new_pushAll_err _ hn] at h; cases h
    · exact .inl rfl
  rw [PrimitiveBuffer.new_pushAll nullable rows hacc] at h
  exact ⟨hacc, (Except.ok.inj h).symm⟩

theorem bind_eq_ok {ε β γ : Type} {m : Except ε β} {f : β → Except ε γ} {c : γ}
    (h : (m >>= f) = .ok c) : ∃ b, m = .ok b ∧ f b = .ok c := by
  cases m with
  | error x => cases h
  | ok b => exact ⟨b, rfl, h⟩

theorem drop_validityOf {α : Type} (rows : List (Option α)) (n : Nat) :
    (validityOf rows).drop n = validityOf (rows.drop n) := by simp [validityOf, List.map_drop]

/-- What `append_from` does with the validity bitmaps of two buffers filled through their API. -/
theorem validityAppendFrom_returns {α : Type} (nd ns : Bool) (ds : List Bool) (ss : List (Option α))
    (pos n : Nat) :
    (∃ r, validityAppendFrom (validityOfBits nd ds) (validityOfBits ns (validityOf ss)) pos n = .ok r) ↔
      nd = ns ∧ (ns = true → n ≤ (valuesOf (ss.drop pos)).length) := by
  cases ns with
  | false => cases nd <;> simp [validityAppendFrom, validityOfBits]
  | true =>
    cases nd with
    | false => simp [validityAppendFrom, validityOfBits]
    | true =>
      rw [validityAppendFrom_eq, drop_validityOf, ← count_validityOf]
      have := takeSet_none (validityOf (ss.drop pos)) n
      cases h : takeSet n (validityOf (ss.drop pos)) with
      | none => simp [this.mp h]
      | some p =>
        rw [h] at this
        simp at this ⊢; exact this

theorem validityAppendFrom_result {α : Type} {nd ns : Bool} {ds : List Bool} {ss : List (Option α)}
    {pos n ret : Nat} {v : Option Bitmap}
    (h : validityAppendFrom (validityOfBits nd ds) (validityOfBits ns (validityOf ss)) pos n =
      .ok (v, ret)) :
    if ns then ∃ mid, AppendedRows ss pos n mid ∧ v = validityOfBits true (ds ++ mid) ∧
      ret = pos + mid.length
    else v = none ∧ ret = n := by
  cases ns with
  | false =>
    cases nd <;> simp [validityAppendFrom, validityOfBits] at h ⊢
    exact ⟨h.1.symm, h.2.symm⟩
  | true =>
    cases nd with
    | false => simp [validityAppendFrom, validityOfBits] at h
    | true =>
      rw [validityAppendFrom_eq, drop_validityOf] at h
      cases h' : takeSet n (validityOf (ss.drop pos)) with
      | none => rw [h'] at h; simp at h
      | some p =>
        rw [h'] at h
        simp at h ⊢
        exact ⟨p, (takeSet_spec _ _ _).mp h', h.1.symm, h.2.symm⟩

/-- C10: `append_from` returns exactly when the range is inside the source, the result stays below
2^32 - 1 values, both buffers are nullable or neither is, and a nullable source has enough values
from the given row on. -/
theorem C10_append_from_returns {α : Type} (nd ns : Bool) (ds ss : List (Option α))
    (dst src : PrimitiveBuffer α) (start e pos : Nat)
    (hd : (PrimitiveBuffer.new nd).pushAll ds = .ok dst)
    (hs : (PrimitiveBuffer.new ns).pushAll ss = .ok src) :
    (∃ r, dst.appendFrom src start e pos = .ok r) ↔
      start ≤ e ∧ e ≤ (valuesOf ss).length ∧ (valuesOf ds).length + (e - start) < 2 ^ 32 - 1 ∧
      nd = ns ∧ (ns = true → e - start ≤ (valuesOf (ss.drop pos)).length) := by
  obtain ⟨_, rfl⟩ := PrimitiveBuffer.new_pushAll_ok hd
  obtain ⟨_, rfl⟩ := PrimitiveBuffer.new_pushAll_ok hs
  rw [← validityAppendFrom_returns nd ns (validityOf ds) ss pos (e - start)]
  have hU : U32_MAX = 2 ^ 32 - 1 := rfl
  simp only [PrimitiveBuffer.appendFrom, slice]
  by_cases h1 : start ≤ e ∧ e ≤ (valuesOf ss).length
  · have h1' : start ≤ e ∧ e ≤ (PrimitiveBuffer.ofRows ns ss).values.length := h1
    rw [if_pos h1']
    have hlen : ((PrimitiveBuffer.ofRows nd ds).values ++
        ((PrimitiveBuffer.ofRows ns ss).values.drop start).take (e - start)).length =
        (valuesOf ds).length + (e - start) := by
      simp [PrimitiveBuffer.ofRows]; omega
    simp only [ok_bind, hlen]
    by_cases h2 : U32_MAX > (valuesOf ds).length + (e - start)
    · rw [if_pos h2]
      simp only [PrimitiveBuffer.ofRows, h1, true_and]
      rw [hU] at h2
      cases h : validityAppendFrom (validityOfBits nd (validityOf ds)) (validityOfBits ns (validityOf ss))
        pos (e - start) with
      | error x => simp
      | ok r => simp [h2]
    · rw [if_neg h2]
      rw [hU] at h2
      simp; intro _ _ _; omega
  · have h1' : ¬ (start ≤ e ∧ e ≤ (PrimitiveBuffer.ofRows ns ss).values.length) := h1
    rw [if_neg h1']
    simp
    intro a b; exact absurd ⟨a, b⟩ h1

/-- C10: what a call that returns leaves, for any arguments: the values of the range after those of
the destination and, for nullable buffers, the validity of the rows from `pos` up to the last value
copied; the returned position is the row after it, or the number of values copied when the buffers
are not nullable. -/
theorem C10_append_from_result {α : Type} (nd ns : Bool) (ds ss : List (Option α))
    (dst src dst' : PrimitiveBuffer α) (start e pos ret : Nat)
    (hd : (PrimitiveBuffer.new nd).pushAll ds = .ok dst)
    (hs : (PrimitiveBuffer.new ns).pushAll ss = .ok src)
    (h : dst.appendFrom src start e pos = .ok (dst', ret)) :
    dst'.values = valuesOf ds ++ ((valuesOf ss).drop start).take (e - start) ∧
    if ns then ∃ mid, AppendedRows ss pos (e - start) mid ∧
        ValidityShows dst'.validity true (validityOf ds ++ mid) ∧ ret = pos + mid.length
      else dst'.validity = none ∧ ret = e - start := by
  obtain ⟨_, rfl⟩ := PrimitiveBuffer.new_pushAll_ok hd
  obtain ⟨_, rfl⟩ := PrimitiveBuffer.new_pushAll_ok hs
  simp only [PrimitiveBuffer.appendFrom, slice] at h
  split at h
  case isFalse => simp at h
  simp only [ok_bind] at h
  split at h
  case isFalse => simp at h
  simp only [PrimitiveBuffer.ofRows] at h
  cases h' : validityAppendFrom (validityOfBits nd (validityOf ds)) (validityOfBits ns (validityOf ss))
    pos (e - start) with
  | error x => rw [h'] at h; simp at h
  | ok r =>
    obtain ⟨v, k⟩ := r
    rw [h'] at h
    simp at h
    obtain ⟨rfl, rfl⟩ := h
    have := validityAppendFrom_result h'
    refine ⟨rfl, ?_⟩
    cases ns with
    | false => exact this
    | true =>
      simp only [if_true] at this ⊢
      obtain ⟨mid, hm, rfl, hr⟩ := this
      exact ⟨mid, hm, validityShows_ofBits _ _, hr⟩

/-- C11: the same for byte strings, for ranges with `start ≤ end`: the limit is on the bytes. -/
theorem C11_append_from_returns (p : Profile) (nd ns : Bool) (ds ss : List (Option Bytes))
    (dst src : BinaryBuffer) (start e pos : Nat) (hse : start ≤ e)
    (hd : (BinaryBuffer.new nd).pushAll ds = .ok dst)
    (hs : (BinaryBuffer.new ns).pushAll ss = .ok src) :
    (∃ r, dst.appendFrom p src start e pos = .ok r) ↔
      e ≤ (valuesOf ss).length ∧
      (valuesOf ds).flatten.length + (((valuesOf ss).drop start).take (e - start)).flatten.length <
        2 ^ 32 - 1 ∧
      nd = ns ∧ (ns = true → e - start ≤ (valuesOf (ss.drop pos)).length) := by
  obtain ⟨_, _, rfl⟩ := BinaryBuffer.new_pushAll_ok hd
  obtain ⟨_, _, rfl⟩ := BinaryBuffer.new_pushAll_ok hs
  rw [← validityAppendFrom_returns nd ns (validityOf ds) ss pos (e - start)]
  have hU : U32_MAX = 2 ^ 32 - 1 := rfl
  have ho : (BinaryBuffer.ofRows ns ss).offsets = offsetsOf 0 (valuesOf ss) := rfl
  by_cases hen : e ≤ (valuesOf ss).length
  case neg =>
    have hidx : index (offsetsOf 0 (valuesOf ss)) e = .error .index := by
      simp only [index]; rw [List.getElem?_eq_none (by simp; omega)]
    simp only [hen, false_and, iff_false]
    rintro ⟨r, hr⟩
    simp only [BinaryBuffer.appendFrom, ho, hidx] at hr
    cases hx : index (offsetsOf 0 (valuesOf ss)) start <;> rw [hx] at hr <;> simp at hr
  have hx := offsetsOf_get 0 (valuesOf ss) start (by omega)
  have hy := offsetsOf_get 0 (valuesOf ss) e hen
  have hsplit : valuesOf ss = (valuesOf ss).take start ++ ((valuesOf ss).drop start).take (e - start) ++
      (valuesOf ss).drop e := by
    have : (valuesOf ss).take e = (valuesOf ss).take start ++ ((valuesOf ss).drop start).take (e - start) := by
      rw [← List.take_append_drop start ((valuesOf ss).take e), List.take_take, List.drop_take]
      congr 2; omega
    rw [← this, List.take_append_drop]
  have htake : (valuesOf ss).take e =
      (valuesOf ss).take start ++ ((valuesOf ss).drop start).take (e - start) := by
    rw [← List.take_append_drop start ((valuesOf ss).take e), List.take_take, List.drop_take]
    congr 2; omega
  have hsl := slice_flatten_mid ((valuesOf ss).take start) (((valuesOf ss).drop start).take (e - start))
    ((valuesOf ss).drop e)
  rw [← hsplit, ← htake] at hsl
  have hl : (BinaryBuffer.ofRows nd ds).offsets.getLast? = some (valuesOf ds).flatten.length := by
    rw [show (BinaryBuffer.ofRows nd ds).offsets = offsetsOf 0 (valuesOf ds) from rfl, offsetsOf_getLast]
    simp
  have hk : (((valuesOf ss).drop start).take (e - start)).length = e - start := by simp; omega
  have hk' : ((valuesOf ss).take start).length = start := by simp; omega
  have hpush := BinaryBuffer.appendFromOffsets_any p (BinaryBuffer.ofRows ns ss) _ ho
    (((valuesOf ss).drop start).take (e - start)) ((valuesOf ss).take start) ((valuesOf ss).drop e)
    (valuesOf ds).flatten.length hsplit
  have hpush' := BinaryBuffer.appendFromOffsets_ok p (BinaryBuffer.ofRows ns ss) _ ho
    (((valuesOf ss).drop start).take (e - start)) ((valuesOf ss).take start) ((valuesOf ss).drop e)
    (valuesOf ds).flatten.length hsplit
  rw [hk, hk'] at hpush hpush'
  simp only [BinaryBuffer.appendFrom, index, ho, hx, hy, ok_bind, Profile.sub_ok p hse, hl,
    Option.getD_some, Nat.zero_add]
  have hdata : (BinaryBuffer.ofRows ns ss).data = (valuesOf ss).flatten := rfl
  have hdd : (BinaryBuffer.ofRows nd ds).data = (valuesOf ds).flatten := rfl
  rw [hdata, hdd, hsl]
  by_cases h2 : U32_MAX > (valuesOf ds).flatten.length +
      (((valuesOf ss).drop start).take (e - start)).flatten.length
  · rw [hpush' (by omega)]
    have h2' : U32_MAX > ((valuesOf ds).flatten ++
        (((valuesOf ss).drop start).take (e - start)).flatten).length := by
      rw [List.length_append]; exact h2
    simp only [ok_bind, if_pos h2']
    rw [hU] at h2
    simp only [BinaryBuffer.ofRows, hen, true_and, h2]
    cases h : validityAppendFrom (validityOfBits nd (validityOf ds)) (validityOfBits ns (validityOf ss))
        pos (e - start) with
    | error x => simp
    | ok r => simp
  · have h2' : ¬ U32_MAX > ((valuesOf ds).flatten ++
        (((valuesOf ss).drop start).take (e - start)).flatten).length := by
      rw [List.length_append]; exact h2
    rw [hU] at h2
    constructor
    · rintro ⟨r, hr⟩
      rcases hpush with ⟨l, hl⟩ | ⟨_, hl⟩
      · simp only [hl, ok_bind, if_neg h2'] at hr; simp at hr
      · simp only [hl] at hr; simp at hr
    · rintro ⟨_, h, _⟩; omega

/-- C11: what a call that returns leaves, for any range with `start ≤ end` and any row position. -/
theorem C11_append_from_result (p : Profile) (nd ns : Bool) (ds ss : List (Option Bytes))
    (dst src dst' : BinaryBuffer) (start e pos ret : Nat) (hse : start ≤ e)
    (hd : (BinaryBuffer.new nd).pushAll ds = .ok dst)
    (hs : (BinaryBuffer.new ns).pushAll ss = .ok src)
    (h : dst.appendFrom p src start e pos = .ok (dst', ret)) :
    dst'.data = (valuesOf ds ++ ((valuesOf ss).drop start).take (e - start)).flatten ∧
    dst'.offsets = offsetsOf 0 (valuesOf ds ++ ((valuesOf ss).drop start).take (e - start)) ∧
    if ns then ∃ mid, AppendedRows ss pos (e - start) mid ∧
        ValidityShows dst'.validity true (validityOf ds ++ mid) ∧ ret = pos + mid.length
      else dst'.validity = none ∧ ret = e - start := by
  obtain ⟨_, _, rfl⟩ := BinaryBuffer.new_pushAll_ok hd
  obtain ⟨_, _, rfl⟩ := BinaryBuffer.new_pushAll_ok hs
  obtain ⟨h1, h2, _⟩ := BinaryBuffer.appendFrom_data (items := valuesOf ds) (sitems := valuesOf ss)
    rfl rfl rfl rfl h
  refine ⟨h1, h2, ?_⟩
  simp only [BinaryBuffer.appendFrom, Profile.sub_ok p hse, ok_bind] at h
  obtain ⟨_, _, h⟩ := bind_eq_ok h
  obtain ⟨_, _, h⟩ := bind_eq_ok h
  obtain ⟨_, _, h⟩ := bind_eq_ok h
  obtain ⟨_, _, h⟩ := bind_eq_ok h
  split at h
  case isFalse => simp at h
  obtain ⟨⟨v, k⟩, h', h⟩ := bind_eq_ok h
  simp at h
  obtain ⟨rfl, rfl⟩ := h
  have := validityAppendFrom_result (h' : validityAppendFrom (validityOfBits nd (validityOf ds))
    (validityOfBits ns (validityOf ss)) pos (e - start) = _)
  cases ns with
  | false => exact this
  | true =>
    simp only [if_true] at this ⊢
    obtain ⟨mid, hm, rfl, hr⟩ := this
    exact ⟨mid, hm, validityShows_ofBits _ _, hr⟩

/-! Not vacuous: a range in the middle of a nullable column, copied twice from the same row, returns
and adds the same validity twice; with the nullability exchanged the call panics. -/

def appendReturnsSource : PrimitiveBuffer Nat :=
  ((PrimitiveBuffer.new true).pushAll [some 3, none, some 4, none, some 5]).toOption.getD (.new true)

example : (PrimitiveBuffer.new true).pushAll [some 3, none, some 4, none, some 5] =
    .ok appendReturnsSource := by decide +kernel
example : ((PrimitiveBuffer.new true).appendFrom appendReturnsSource 1 3 1).toOption.map
    (fun r => (r.1.values, r.2)) = some ([4, 5], 5) := by decide +kernel
example : (PrimitiveBuffer.new true).appendFrom appendReturnsSource 1 3 3 = .error .assertion := by
  decide +kernel
example : (PrimitiveBuffer.new false).appendFrom appendReturnsSource 1 3 1 = .error .expect := by
  decide +kernel

end Meerkat
