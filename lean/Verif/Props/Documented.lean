import Verif.Props.Buffers
import Verif.Props.NullHistory

set_option autoImplicit false

/-! # What the comments of the buffers promise: C94 -/

namespace Meerkat

open Spec

/-- As many values as rows: there is no null row. -/
theorem valuesOf_length_eq_iff {α : Type} (rows : List (Option α)) : (valuesOf rows).length = rows.length ↔ none ∉ rows := by
  have hle : ∀ l : List (Option α), (valuesOf l).length ≤ l.length := fun l => List.length_filterMap_le ..
  induction rows with
  | nil => simp [valuesOf]
  | cons r rows ih =>
    have := hle rows
    cases r with
    | none =>
      have h : (valuesOf (none :: rows)).length = (valuesOf rows).length := rfl
      rw [h, List.length_cons]
      constructor
      · omega
      · simp
    | some v =>
      have h : (valuesOf (some v :: rows)).length = (valuesOf rows).length + 1 := rfl
      rw [h, List.length_cons]
      simpa using ih

/-- **C94 is violated**: `len` of a primitive buffer with a null row is not the number of its rows; and `validity` of a
buffer that is not nullable does not panic. -/
theorem C94_comments_violated :
    (∃ b : PrimitiveBuffer Nat, (PrimitiveBuffer.new true).pushAll [some 7, none] = .ok b ∧ b.len = 1) ∧
    (∀ α : Type, (PrimitiveBuffer.new false : PrimitiveBuffer α).validityRef = .ok none) ∧
    (BinaryBuffer.new false).validityRef = .ok none := by
  obtain ⟨b, h1, h2, _⟩ := C05_primitive_faithful true [some 7, none] (.inl rfl)
  exact ⟨⟨b, h1, h2.len⟩, fun _ => rfl, rfl⟩

/-- C94, exactly. After any accepted rows, `len` of a primitive buffer is the number of its rows, as its comment says, if and
only if none of them is null, that is, if `has_nulls` says no; `num_values` always is. `len` of a binary buffer is the
number of the rows that are not null and `num_values` that of all rows, as their comments say; `len` of a boolean buffer
is that of all rows. `validity` of primitive and binary buffers never panics; that of boolean buffers panics, as
its comment says, if and only if the buffer is not nullable. -/
theorem C94_comments_exact :
    (∀ (α : Type) (nullable : Bool) (rows : List (Option α)), Accepts nullable rows →
      ∃ b : PrimitiveBuffer α, (PrimitiveBuffer.new nullable).pushAll rows = .ok b ∧ b.numValues = rows.length ∧
        (b.len = rows.length ↔ none ∉ rows) ∧ (∀ p, b.hasNulls p = .ok (decide (b.len ≠ rows.length))) ∧
        ∃ v, b.validityRef = .ok v ∧ v.isSome = nullable) ∧
    (∀ (nullable : Bool) (rows : List (Option Bytes)), Accepts nullable rows → (valuesOf rows).flatten.length < 2 ^ 32 →
      ∃ b : BinaryBuffer, (BinaryBuffer.new nullable).pushAll rows = .ok b ∧ b.numValues = rows.length ∧
        b.len = (valuesOf rows).length ∧ ∃ v, b.validityRef = .ok v ∧ v.isSome = nullable) ∧
    (∀ (nullable : Bool) (rows : List (Option Bool)), Accepts nullable rows →
      ∃ b : BoolBuffer, (BoolBuffer.new nullable).pushAll rows = .ok b ∧ b.len = rows.length ∧
        ((∃ e, b.validityRef = .error e) ↔ nullable = false)) := by
  refine ⟨fun α nullable rows ha => ?_, fun nullable rows ha hl => ?_, fun nullable rows ha => ?_⟩
  · obtain ⟨b, h1, h2, _⟩ := C05_primitive_faithful nullable rows ha
    have hiff : b.len = rows.length ↔ none ∉ rows := by rw [h2.len, valuesOf_length_eq_iff]
    refine ⟨b, h1, h2.numValues, hiff, fun p => ?_, _, rfl, h2.isNullable⟩
    rw [h2.hasNulls p]
    congr 1
    by_cases hn : none ∈ rows
    · have hne : b.len ≠ rows.length := fun e => hiff.1 e hn
      rw [decide_eq_true hne, List.any_eq_true]; exact ⟨none, hn, rfl⟩
    · have he : ¬ b.len ≠ rows.length := fun h => h (hiff.2 hn)
      rw [decide_eq_false he, List.any_eq_false]
      intro x hx
      cases x with
      | none => exact absurd hx hn
      | some v => simp
  · obtain ⟨hiff, hall⟩ := C06_binary_faithful nullable rows
    obtain ⟨b, h1⟩ := hiff.2 ⟨ha, by omega⟩
    obtain ⟨h2, _⟩ := hall b h1
    exact ⟨b, h1, h2.numValues, h2.len, _, rfl, h2.isNullable⟩
  · obtain ⟨b, h1, h2, _⟩ := C07_bool_faithful nullable rows ha
    refine ⟨b, h1, h2.len, ?_⟩
    have := h2.validityRef
    cases nullable with
    | true =>
      simp only [if_true] at this
      obtain ⟨bm, h, _⟩ := this
      rw [h]; simp
    | false => simp only [Bool.false_eq_true, if_false] at this; rw [this]; simp

/-- C94, what holds, whatever was done with a nullable buffer before: `len` counts all rows if and only if `has_nulls` says
that there are no nulls. -/
theorem C94_len_partial {α : Type} (p : Profile) (b : PrimitiveBuffer α) (h : b.Reach true) :
    b.len = b.numValues ↔ b.hasNulls p = .ok false := by
  obtain ⟨h1, h2⟩ := (C05_has_nulls_any_history (α := α) p).1 b h
  rw [h2]
  by_cases hlt : b.len < b.numValues
  · simp [hlt]; omega
  · simp [hlt]; omega

/-- Of three rows one is null. -/
example : ((PrimitiveBuffer.new true).pushAll [some 5, none, some 6]).toOption.map (fun b => (b.len, b.numValues)) =
    some (2, 3) := by
  decide +kernel

end Meerkat
