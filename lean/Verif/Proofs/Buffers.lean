import Verif.Spec.Buffers
import Verif.Proofs.TakeSet

set_option autoImplicit false

/-! # Canonical forms of bitmaps and buffers built by appends -/

namespace Meerkat
open Spec

/-- The bitmap that appending `bs` to a new bitmap gives. -/
def Bitmap.ofBits (bs : List Bool) : Bitmap :=
  match Bitmap.new.appendAll bs with
  | .ok m => m
  | .error _ => Bitmap.new

namespace Bitmap

theorem appendAll_new (bs : List Bool) : new.appendAll bs = .ok (ofBits bs) := by
  obtain ⟨m, h, _⟩ := built_spec bs
  simp [ofBits, h]

@[simp] theorem ofBits_nil : ofBits [] = new := rfl

theorem ofBits_len (bs : List Bool) : (ofBits bs).len = bs.length := (built_of (appendAll_new bs)).1
theorem ofBits_inv (bs : List Bool) : Inv (ofBits bs) := (built_of (appendAll_new bs)).2.1
theorem ofBits_bitAt (bs : List Bool) (i : Nat) : (ofBits bs).bitAt i = bs.getD i false :=
  (built_of (appendAll_new bs)).2.2 i
theorem ofBits_reads (bs : List Bool) : Reads (ofBits bs) bs := built_reads (appendAll_new bs)

theorem ofBits_appendAll (as bs : List Bool) :
    (ofBits as).appendAll bs = .ok (ofBits (as ++ bs)) := by
  have h := appendAll_new (as ++ bs)
  rw [appendAll_append, appendAll_new] at h
  exact h

theorem ofBits_append (bs : List Bool) (b : Bool) : (ofBits bs).append b = .ok (ofBits (bs ++ [b])) := by
  have h := ofBits_appendAll bs [b]
  simp only [appendAll, List.foldlM_cons, List.foldlM_nil] at h
  cases hx : (ofBits bs).append b with
  | ok m => rw [hx] at h; exact h
  | error e => rw [hx] at h; cases h

theorem ofBits_appendFrom (as ss : List Bool) (pos n : Nat) :
    (ofBits as).appendFrom (ofBits ss) pos n =
      match takeSet n (ss.drop pos) with
      | none => .error .assertion
      | some p => .ok (ofBits (as ++ p), pos + p.length) := by
  rw [appendFrom_eq (ofBits_reads ss) (ofBits_inv as)]
  cases takeSet n (ss.drop pos) <;> simp [ofBits_appendAll]

end Bitmap

/-- The validity field of a buffer of the given nullability whose rows have validity `bits`. -/
def validityOfBits (nullable : Bool) (bits : List Bool) : Option Bitmap :=
  if nullable then some (Bitmap.ofBits bits) else none

theorem newValidity_eq (nullable : Bool) : newValidity nullable = validityOfBits nullable [] := by
  cases nullable <;> rfl

theorem validityAppendTrue_eq (nullable : Bool) (bits : List Bool) :
    validityAppendTrue (validityOfBits nullable bits) = .ok (validityOfBits nullable (bits ++ [true])) := by
  cases nullable <;> simp [validityAppendTrue, validityOfBits, Bitmap.ofBits_append]

theorem validityAppendFalse_true (bits : List Bool) :
    validityAppendFalse (validityOfBits true bits) = .ok (validityOfBits true (bits ++ [false])) := by
  simp [validityAppendFalse, validityOfBits, Bitmap.ofBits_append]

theorem validityAppendFalse_false (bits : List Bool) :
    validityAppendFalse (validityOfBits false bits) = .error .expect := by
  simp [validityAppendFalse, validityOfBits]

theorem validityAppendFrom_eq (ds ss : List Bool) (pos n : Nat) :
    validityAppendFrom (validityOfBits true ds) (validityOfBits true ss) pos n =
      match takeSet n (ss.drop pos) with
      | none => .error .assertion
      | some p => .ok (validityOfBits true (ds ++ p), pos + p.length) := by
  simp only [validityAppendFrom, validityOfBits, if_true, Bitmap.ofBits_appendFrom]
  cases takeSet n (ss.drop pos) <;> rfl

theorem validityShows_ofBits (nullable : Bool) (bits : List Bool) :
    ValidityShows (validityOfBits nullable bits) nullable bits := by
  cases nullable
  · simp [ValidityShows, validityOfBits]
  · exact ⟨_, rfl, Bitmap.ofBits_reads bits⟩

section column
variable {α : Type}

@[simp] theorem valuesOf_nil : valuesOf ([] : List (Option α)) = [] := rfl
@[simp] theorem validityOf_nil : validityOf ([] : List (Option α)) = [] := rfl
@[simp] theorem valuesOf_append (a b : List (Option α)) :
    valuesOf (a ++ b) = valuesOf a ++ valuesOf b := by simp [valuesOf]
@[simp] theorem validityOf_append (a b : List (Option α)) :
    validityOf (a ++ b) = validityOf a ++ validityOf b := by simp [validityOf]
@[simp] theorem valuesOf_some (v : α) : valuesOf [some v] = [v] := rfl
@[simp] theorem valuesOf_none : valuesOf [(none : Option α)] = [] := rfl
@[simp] theorem validityOf_some (v : α) : validityOf [some v] = [true] := rfl
@[simp] theorem validityOf_none : validityOf [(none : Option α)] = [false] := rfl
@[simp] theorem validityOf_length (a : List (Option α)) : (validityOf a).length = a.length := by
  simp [validityOf]

theorem count_validityOf (rows : List (Option α)) :
    (validityOf rows).count true = (valuesOf rows).length := by
  induction rows with
  | nil => rfl
  | cons r rows ih => cases r <;> simp_all [validityOf, valuesOf]

theorem valuesOf_length_le (rows : List (Option α)) : (valuesOf rows).length ≤ rows.length :=
  List.length_filterMap_le ..

theorem any_isNone_iff (rows : List (Option α)) :
    rows.any Option.isNone = decide (rows.length - (valuesOf rows).length ≠ 0) := by
  induction rows with
  | nil => rfl
  | cons r rows ih =>
    have hle := valuesOf_length_le rows
    cases r with
    | none =>
      have : (valuesOf (none :: rows)).length = (valuesOf rows).length := rfl
      simp only [List.any_cons, Option.isNone_none, Bool.true_or, List.length_cons, this]
      symm; simp; omega
    | some v =>
      have : (valuesOf (some v :: rows)).length = (valuesOf rows).length + 1 := rfl
      simp only [List.any_cons, Option.isNone_some, Bool.false_or, ih, this, List.length_cons]
      congr 1
      apply propext
      constructor <;> intro h <;> omega

theorem valuesOf_length_of_no_none {rows : List (Option α)} (h : none ∉ rows) :
    (valuesOf rows).length = rows.length := by
  induction rows with
  | nil => rfl
  | cons r rows ih =>
    cases r with
    | none => simp at h
    | some v =>
      have : (valuesOf (some v :: rows)).length = (valuesOf rows).length + 1 := rfl
      rw [this, ih (by simp_all)]; rfl

theorem any_isNone_of_no_none {rows : List (Option α)} (h : none ∉ rows) :
    rows.any Option.isNone = false := by
  rw [any_isNone_iff, valuesOf_length_of_no_none h]; simp

end column

namespace PrimitiveBuffer
variable {α : Type}

/-- The buffer that holds `rows`, as built by `append`/`append_null` calls. -/
def ofRows (nullable : Bool) (rows : List (Option α)) : PrimitiveBuffer α :=
  { values := valuesOf rows, validity := validityOfBits nullable (validityOf rows) }

theorem new_eq (nullable : Bool) : (new nullable : PrimitiveBuffer α) = ofRows nullable [] := by
  simp [new, ofRows, newValidity_eq]

theorem push_some (nullable : Bool) (rows : List (Option α)) (v : α) :
    (ofRows nullable rows).push (some v) = .ok (ofRows nullable (rows ++ [some v])) := by
  simp [push, append, ofRows, validityAppendTrue_eq]

theorem push_none (rows : List (Option α)) :
    (ofRows true rows).push none = .ok (ofRows true (rows ++ [none])) := by
  simp [push, appendNull, ofRows, validityAppendFalse_true]

theorem push_none_err (rows : List (Option α)) :
    (ofRows false rows).push none = .error .expect := by
  simp [push, appendNull, ofRows, validityAppendFalse_false]

theorem ofRows_pushAll (nullable : Bool) (r0 rows : List (Option α)) (h : Accepts nullable rows) :
    (ofRows nullable r0).pushAll rows = .ok (ofRows nullable (r0 ++ rows)) := by
  induction rows generalizing r0 with
  | nil => simp [pushAll]
  | cons r rows ih =>
    have ih' := fun r0 => ih r0 (by rcases h with h | h <;> simp_all [Accepts])
    simp only [pushAll, List.foldlM_cons]
    cases r with
    | some v =>
      rw [push_some]; simp only [ok_bind]
      have := ih' (r0 ++ [some v]); simpa [pushAll] using this
    | none =>
      have hn : nullable = true := by rcases h with h | h <;> simp_all
      subst hn
      rw [push_none]; simp only [ok_bind]
      have := ih' (r0 ++ [none]); simpa [pushAll] using this

theorem new_pushAll (nullable : Bool) (rows : List (Option α)) (h : Accepts nullable rows) :
    (new nullable).pushAll rows = .ok (ofRows nullable rows) := by
  rw [new_eq, ofRows_pushAll _ _ _ h]; simp

theorem new_pushAll_err (rows : List (Option α)) (h : none ∈ rows) :
    (new false : PrimitiveBuffer α).pushAll rows = .error .expect := by
  rw [new_eq]
  generalize ([] : List (Option α)) = r0
  induction rows generalizing r0 with
  | nil => simp at h
  | cons r rows ih =>
    simp only [pushAll, List.foldlM_cons]
    cases r with
    | none => rw [push_none_err]; rfl
    | some v =>
      rw [push_some]; simp only [ok_bind]
      exact ih (by simpa using h) _

theorem ofRows_shows (nullable : Bool) (rows : List (Option α)) (h : Accepts nullable rows) :
    (ofRows nullable rows).Shows nullable rows where
  values := rfl
  len := rfl
  numValues := by
    cases nullable with
    | true => simp [numValues, ofRows, validityOfBits, Bitmap.ofBits_len]
    | false =>
      simp only [numValues, ofRows, validityOfBits]
      exact valuesOf_length_of_no_none (by rcases h with h | h <;> simp_all)
  isNullable := by cases nullable <;> rfl
  hasNulls p := by
    cases nullable with
    | true =>
      simp only [hasNulls, ofRows, validityOfBits, if_true, Bitmap.ofBits_len, validityOf_length]
      rw [Profile.sub_ok _ (valuesOf_length_le rows), any_isNone_iff]
      simp [bne, BEq.beq]
    | false =>
      simp only [hasNulls, ofRows, validityOfBits]
      rw [any_isNone_of_no_none (by rcases h with h | h <;> simp_all)]
      rfl
  validity := validityShows_ofBits _ _

end PrimitiveBuffer

namespace BoolBuffer

/-- The buffer that holds `rows`. -/
def ofRows (nullable : Bool) (rows : List (Option Bool)) : BoolBuffer :=
  { values := Bitmap.ofBits (valuesOf rows), validity := validityOfBits nullable (validityOf rows),
    len := rows.length }

theorem new_eq (nullable : Bool) : new nullable = ofRows nullable [] := by
  simp [new, ofRows, newValidity_eq]

theorem push_some (nullable : Bool) (rows : List (Option Bool)) (v : Bool) :
    (ofRows nullable rows).push (some v) = .ok (ofRows nullable (rows ++ [some v])) := by
  simp [push, append, ofRows, validityAppendTrue_eq, Bitmap.ofBits_append]

theorem push_none (rows : List (Option Bool)) :
    (ofRows true rows).push none = .ok (ofRows true (rows ++ [none])) := by
  simp [push, appendNull, ofRows, validityAppendFalse_true]

theorem push_none_err (rows : List (Option Bool)) :
    (ofRows false rows).push none = .error .expect := by
  simp [push, appendNull, ofRows, validityAppendFalse_false]

theorem ofRows_pushAll (nullable : Bool) (r0 rows : List (Option Bool)) (h : Accepts nullable rows) :
    (ofRows nullable r0).pushAll rows = .ok (ofRows nullable (r0 ++ rows)) := by
  induction rows generalizing r0 with
  | nil => simp [pushAll]
  | cons r rows ih =>
    have ih' := fun r0 => ih r0 (by rcases h with h | h <;> simp_all [Accepts])
    simp only [pushAll, List.foldlM_cons]
    cases r with
    | some v =>
      rw [push_some]; simp only [ok_bind]
      have := ih' (r0 ++ [some v]); simpa [pushAll] using this
    | none =>
      have hn : nullable = true := by rcases h with h | h <;> simp_all
      subst hn
      rw [push_none]; simp only [ok_bind]
      have := ih' (r0 ++ [none]); simpa [pushAll] using this

theorem new_pushAll (nullable : Bool) (rows : List (Option Bool)) (h : Accepts nullable rows) :
    (new nullable).pushAll rows = .ok (ofRows nullable rows) := by
  rw [new_eq, ofRows_pushAll _ _ _ h]; simp

theorem new_pushAll_err (rows : List (Option Bool)) (h : none ∈ rows) :
    (new false).pushAll rows = .error .expect := by
  rw [new_eq]
  generalize ([] : List (Option Bool)) = r0
  induction rows generalizing r0 with
  | nil => simp at h
  | cons r rows ih =>
    simp only [pushAll, List.foldlM_cons]
    cases r with
    | none => rw [push_none_err]; rfl
    | some v =>
      rw [push_some]; simp only [ok_bind]
      exact ih (by simpa using h) _

theorem ofRows_shows (nullable : Bool) (rows : List (Option Bool)) (h : Accepts nullable rows) :
    (ofRows nullable rows).Shows nullable rows where
  len := rfl
  values := Bitmap.ofBits_reads _
  isNullable := by cases nullable <;> rfl
  hasNulls := by
    simp only [hasNulls, ofRows, Bitmap.ofBits_len, any_isNone_iff]
    have := valuesOf_length_le rows
    simp [BEq.beq]
    grind
  validity := validityShows_ofBits _ _
  validityRef := by
    cases nullable
    · simp [validityRef, ofRows, validityOfBits]
    · exact ⟨_, rfl, Bitmap.ofBits_reads _⟩

end BoolBuffer
end Meerkat
