import Verif.Proofs.BinaryBuffer

set_option autoImplicit false

/-! # Copying ranges of rows between buffers, and appending after `clear` -/

namespace Meerkat
open Spec

/-- The list is empty or its last row is a value. -/
def EndsWithValue {α : Type} (rows : List (Option α)) : Prop :=
  rows = [] ∨ ∃ v, rows.getLast? = some (some v)

theorem takeSet_validityOf {α : Type} (mid post : List (Option α)) (h : EndsWithValue mid) :
    takeSet (valuesOf mid).length (validityOf (mid ++ post)) = some (validityOf mid) := by
  rw [takeSet_spec]
  refine ⟨by simp, count_validityOf mid, ?_⟩
  rcases h with h | ⟨v, h⟩
  · left; simp [h]
  · right; simp [validityOf, h]

/-- Every number of values up to the total is reached by a prefix that ends with a value. -/
theorem exists_prefix_values {α : Type} (rows : List (Option α)) (e : Nat)
    (h : e ≤ (valuesOf rows).length) :
    ∃ p q, rows = p ++ q ∧ (valuesOf p).length = e ∧ EndsWithValue p := by
  induction rows generalizing e with
  | nil => exact ⟨[], [], rfl, by simp at h; simp [h], .inl rfl⟩
  | cons r rows ih =>
    cases e with
    | zero => exact ⟨[], r :: rows, rfl, rfl, .inl rfl⟩
    | succ e =>
      cases r with
      | none =>
        obtain ⟨p, q, hp, hv, he⟩ := ih (e + 1) h
        refine ⟨none :: p, q, by simp [hp], by simpa [valuesOf] using hv, .inr ?_⟩
        rcases he with he | ⟨v, he⟩
        · subst he; simp at hv
        · exact ⟨v, by simp [List.getLast?_cons, he]⟩
      | some v =>
        have : (valuesOf (some v :: rows)).length = (valuesOf rows).length + 1 := rfl
        obtain ⟨p, q, hp, hv, he⟩ := ih e (by omega)
        refine ⟨some v :: p, q, by simp [hp], by simpa [valuesOf] using hv, .inr ?_⟩
        rcases he with he | ⟨w, he⟩
        · subst he; exact ⟨v, rfl⟩
        · exact ⟨w, by simp [List.getLast?_cons, he]⟩

theorem EndsWithValue.append_left {α : Type} {p q : List (Option α)} (hq : EndsWithValue q)
    (hp : EndsWithValue p) : EndsWithValue (p ++ q) := by
  rcases hq with rfl | ⟨v, hv⟩
  · simpa using hp
  · right; exact ⟨v, by simp [hv]⟩

theorem EndsWithValue.of_append {α : Type} {p q : List (Option α)}
    (h : EndsWithValue (p ++ q)) : EndsWithValue q := by
  rcases h with h | ⟨v, h⟩
  · left; exact (List.append_eq_nil_iff.mp h).2
  · cases q with
    | nil => exact .inl rfl
    | cons x xs => right; exact ⟨v, by rw [List.getLast?_append] at h; simpa using h⟩

theorem valuesOf_eq_nil {α : Type} {q : List (Option α)} (h : valuesOf q = []) : ∀ x ∈ q, x.isNone = true := by
  intro x hx
  cases x with
  | none => rfl
  | some v =>
    have : v ∈ valuesOf q := by simp [valuesOf, hx]
    rw [h] at this; simp at this

theorem dropTrailingNulls_eq {α : Type} {p q : List (Option α)} (hp : EndsWithValue p)
    (hq : valuesOf q = []) : dropTrailingNulls (p ++ q) = p := by
  have h1 := valuesOf_eq_nil hq
  have h2 : q.reverse.dropWhile Option.isNone = [] := by
    have : ∀ l : List (Option α), (∀ x ∈ l, x.isNone = true) → l.dropWhile Option.isNone = [] := by
      intro l
      induction l with
      | nil => intro _; rfl
      | cons x xs ih =>
        intro h
        rw [List.dropWhile_cons, if_pos (h x (by simp))]
        exact ih fun y hy => h y (by simp [hy])
    exact this _ fun x hx => h1 x (by simpa using hx)
  unfold dropTrailingNulls
  rw [List.reverse_append, List.dropWhile_append, h2]
  simp only [List.isEmpty_nil, if_true]
  rcases hp with rfl | ⟨v, hv⟩
  · rfl
  · have : p.reverse.head? = some (some v) := by simpa using hv
    cases hr : p.reverse with
    | nil => rw [hr] at this; simp at this
    | cons x xs =>
      rw [hr] at this; simp at this; subst this
      simp [List.dropWhile]
      rw [← List.reverse_cons, ← hr, List.reverse_reverse]

theorem valuesOf_take_of_prefix {α : Type} (pre mid post : List (Option α)) :
    slice (valuesOf (pre ++ mid ++ post)) (valuesOf pre).length (valuesOf (pre ++ mid)).length =
      .ok (valuesOf mid) := by
  rw [slice, if_pos (by simp)]
  simp

namespace PrimitiveBuffer
variable {α : Type}

theorem ofRows_appendFrom (nullable : Bool) (ds pre mid post : List (Option α)) (pos : Nat)
    (hend : EndsWithValue mid) (hfit : (valuesOf (ds ++ mid)).length < U32_MAX)
    (hpos : nullable = true → pos = pre.length) :
    (ofRows nullable ds).appendFrom (ofRows nullable (pre ++ mid ++ post)) (valuesOf pre).length
      (valuesOf (pre ++ mid)).length pos =
      .ok (ofRows nullable (ds ++ mid),
        if nullable then pre.length + mid.length else (valuesOf mid).length) := by
  have hfit' : U32_MAX > ((ofRows nullable ds).values ++ valuesOf mid).length := by
    simpa [ofRows] using hfit
  have hn : (valuesOf (pre ++ mid)).length - (valuesOf pre).length = (valuesOf mid).length := by simp
  have hsl : slice (ofRows nullable (pre ++ mid ++ post)).values (valuesOf pre).length
      (valuesOf (pre ++ mid)).length = .ok (valuesOf mid) := valuesOf_take_of_prefix pre mid post
  simp only [appendFrom, hsl, ok_bind, if_pos hfit', hn]
  cases nullable with
  | false =>
    simp [ofRows, validityOfBits, validityAppendFrom]
  | true =>
    simp only [ofRows, validityAppendFrom_eq, hpos rfl]
    have : (validityOf (pre ++ mid ++ post)).drop pre.length = validityOf (mid ++ post) := by
      rw [List.append_assoc, validityOf_append, ← validityOf_length pre, List.drop_left]
    rw [this, takeSet_validityOf mid post hend]
    simp

/-- Appending rows to a buffer whose validity bitmap may hold stale bits. -/
theorem pushAll_raw (vs : List α) (bm : Bitmap) (rows : List (Option α)) :
    ({ values := vs, validity := some bm } : PrimitiveBuffer α).pushAll rows =
      (do let bm' ← bm.appendAll (validityOf rows)
          return { values := vs ++ valuesOf rows, validity := some bm' }) := by
  induction rows generalizing vs bm with
  | nil => simp [pushAll, Bitmap.appendAll]
  | cons r rows ih =>
    simp only [pushAll, List.foldlM_cons, Bitmap.appendAll, validityOf, List.map_cons] at ih ⊢
    cases r with
    | some v =>
      simp only [push, append, validityAppendTrue, Option.isSome_some]
      cases bm.append true with
      | error e => rfl
      | ok bm' => simp only [ok_bind, pure_eq_ok, ih]; simp [valuesOf]
    | none =>
      simp only [push, appendNull, validityAppendFalse, Option.isSome_none]
      cases bm.append false with
      | error e => rfl
      | ok bm' => simp only [ok_bind, pure_eq_ok, ih]; simp [valuesOf]

end PrimitiveBuffer

namespace BoolBuffer

theorem pushAll_raw (m : Bitmap) (bm : Bitmap) (n : Nat) (rows : List (Option Bool))
    (hm : m.Inv) (hbm : bm.Inv) :
    ∃ m' bm', m.appendAll (valuesOf rows) = .ok m' ∧ bm.appendAll (validityOf rows) = .ok bm' ∧
      ({ values := m, validity := some bm, len := n } : BoolBuffer).pushAll rows =
        .ok { values := m', validity := some bm', len := n + rows.length } := by
  induction rows generalizing m bm n with
  | nil => exact ⟨m, bm, rfl, rfl, rfl⟩
  | cons r rows ih =>
    simp only [pushAll, List.foldlM_cons, Bitmap.appendAll, validityOf, List.map_cons] at ih ⊢
    cases r with
    | some v =>
      obtain ⟨m1, h1, _, i1, _⟩ := Bitmap.append_spec hm v
      obtain ⟨b1, h2, _, i2, _⟩ := Bitmap.append_spec hbm true
      obtain ⟨m', bm', e1, e2, e3⟩ := ih m1 b1 (n + 1) i1 i2
      refine ⟨m', bm', ?_, ?_, ?_⟩
      · simp [valuesOf, h1] at e1 ⊢; exact e1
      · simp [h2, e2]
      · simp only [push, append, validityAppendTrue, h1, h2, ok_bind, pure_eq_ok, e3]
        simp; omega
    | none =>
      obtain ⟨b1, h2, _, i2, _⟩ := Bitmap.append_spec hbm false
      obtain ⟨m', bm', e1, e2, e3⟩ := ih m b1 (n + 1) hm i2
      refine ⟨m', bm', ?_, ?_, ?_⟩
      · simp [valuesOf] at e1 ⊢; exact e1
      · simp [h2, e2]
      · simp only [push, appendNull, validityAppendFalse, h2, ok_bind, pure_eq_ok, e3]
        simp; omega

theorem pushAll_raw_nonnull (m : Bitmap) (n : Nat) (rows : List (Option Bool))
    (hm : m.Inv) (hA : none ∉ rows) :
    ∃ m', m.appendAll (valuesOf rows) = .ok m' ∧
      ({ values := m, validity := none, len := n } : BoolBuffer).pushAll rows =
        .ok { values := m', validity := none, len := n + rows.length } := by
  induction rows generalizing m n with
  | nil => exact ⟨m, rfl, rfl⟩
  | cons r rows ih =>
    simp only [pushAll, List.foldlM_cons, Bitmap.appendAll] at ih ⊢
    cases r with
    | some v =>
      obtain ⟨m1, h1, _, i1, _⟩ := Bitmap.append_spec hm v
      obtain ⟨m', e1, e3⟩ := ih m1 (n + 1) i1 (by simpa using hA)
      refine ⟨m', ?_, ?_⟩
      · simp [valuesOf, h1] at e1 ⊢; exact e1
      · simp only [push, append, validityAppendTrue, h1, ok_bind, pure_eq_ok, e3]
        simp; omega
    | none => simp at hA

end BoolBuffer

namespace BinaryBuffer

theorem ofRows_appendFrom (p : Profile) (nullable : Bool) (ds pre mid post : List (Option Bytes)) (pos : Nat)
    (hend : EndsWithValue mid) (hfit : dataLen (ds ++ mid) < U32_MAX)
    (hpos : nullable = true → pos = pre.length) :
    (ofRows nullable ds).appendFrom p (ofRows nullable (pre ++ mid ++ post)) (valuesOf pre).length
      (valuesOf (pre ++ mid)).length pos =
      .ok (ofRows nullable (ds ++ mid),
        if nullable then pre.length + mid.length else (valuesOf mid).length) := by
  have hfit' : U32_MAX > ((ofRows nullable ds).data ++ (valuesOf mid).flatten).length := by
    simpa [ofRows, dataLen] using hfit
  have hn : (valuesOf (pre ++ mid)).length - (valuesOf pre).length = (valuesOf mid).length := by simp
  have hle : (valuesOf pre).length ≤ (valuesOf (pre ++ mid)).length := by simp
  have ho : (ofRows nullable (pre ++ mid ++ post)).offsets = offsetsOf 0 (valuesOf (pre ++ mid ++ post)) := rfl
  have h1 := offsetsOf_get 0 (valuesOf (pre ++ mid ++ post)) (valuesOf pre).length (by simp)
  have h2 := offsetsOf_get 0 (valuesOf (pre ++ mid ++ post)) (valuesOf (pre ++ mid)).length (by simp)
  have e1 : (valuesOf (pre ++ mid ++ post)).take (valuesOf pre).length = valuesOf pre := by simp
  have e2 : (valuesOf (pre ++ mid ++ post)).take (valuesOf (pre ++ mid)).length = valuesOf (pre ++ mid) := by
    rw [valuesOf_append (pre ++ mid), List.take_left]
  rw [e1] at h1; rw [e2] at h2
  have hl : (ofRows nullable ds).offsets.getLast? = some (valuesOf ds).flatten.length := by
    rw [show (ofRows nullable ds).offsets = offsetsOf 0 (valuesOf ds) from rfl, offsetsOf_getLast]; simp
  have hpush := appendFromOffsets_ok p (ofRows nullable (pre ++ mid ++ post)) _ ho (valuesOf mid)
    (valuesOf pre) (valuesOf post) (valuesOf ds).flatten.length (by simp)
    (by simp only [dataLen, valuesOf_append, List.flatten_append, List.length_append] at hfit; omega)
  have hs : slice (ofRows nullable (pre ++ mid ++ post)).data (0 + (valuesOf pre).flatten.length)
      (0 + (valuesOf (pre ++ mid)).flatten.length) = .ok (valuesOf mid).flatten := by
    have := slice_flatten_mid (valuesOf pre) (valuesOf mid) (valuesOf post)
    rw [Nat.zero_add, Nat.zero_add]
    simp only [ofRows, valuesOf_append] at this ⊢
    exact this
  simp only [appendFrom, index, ho, h1, h2, ok_bind, Profile.sub_ok p hle, hl, hn,
    Option.getD_some, hpush, hs, if_pos hfit']
  cases nullable with
  | false =>
    simp [ofRows, validityOfBits, validityAppendFrom, offsetsOf_append]
  | true =>
    simp only [ofRows, validityAppendFrom_eq, hpos rfl]
    have : (validityOf (pre ++ mid ++ post)).drop pre.length = validityOf (mid ++ post) := by
      rw [List.append_assoc, validityOf_append, ← validityOf_length pre, List.drop_left]
    rw [this, takeSet_validityOf mid post hend]
    simp [offsetsOf_append]

theorem pushAll_raw (nd : Bytes) (os : List Nat) (bm : Bitmap) (rows : List (Option Bytes))
    (hfit : (nd ++ (valuesOf rows).flatten).length ≤ U32_MAX) :
    ({ data := nd, offsets := os, validity := some bm } : BinaryBuffer).pushAll rows =
      (do let bm' ← bm.appendAll (validityOf rows)
          return { data := nd ++ (valuesOf rows).flatten,
                   offsets := os ++ endOffsets nd.length (valuesOf rows), validity := some bm' }) := by
  induction rows generalizing nd os bm with
  | nil => simp [pushAll, Bitmap.appendAll, endOffsets]
  | cons r rows ih =>
    simp only [pushAll, List.foldlM_cons, Bitmap.appendAll, validityOf, List.map_cons] at ih ⊢
    cases r with
    | some v =>
      have hf : (nd ++ v).length ≤ U32_MAX := by
        simp only [valuesOf, List.filterMap_cons, id_eq, List.flatten_cons, List.length_append] at hfit ⊢; omega
      simp only [push, append, validityAppendTrue, Option.isSome_some, if_pos hf]
      cases bm.append true with
      | error e => rfl
      | ok bm' =>
        simp only [ok_bind, pure_eq_ok]
        rw [ih]
        · simp [valuesOf, endOffsets]
        · simpa [valuesOf] using hfit
    | none =>
      simp only [push, appendNull, validityAppendFalse, Option.isSome_none]
      cases bm.append false with
      | error e => rfl
      | ok bm' =>
        simp only [ok_bind, pure_eq_ok]
        rw [ih]
        · simp [valuesOf]
        · simpa [valuesOf] using hfit

end BinaryBuffer
end Meerkat
