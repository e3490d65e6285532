import Verif.Proofs.Buffers

set_option autoImplicit false

/-! # Canonical form of binary buffers -/

namespace Meerkat
open Spec

/-- The end offsets of items laid out one after the other from position `s`. -/
def endOffsets (s : Nat) : List Bytes → List Nat
  | [] => []
  | x :: xs => (s + x.length) :: endOffsets (s + x.length) xs

/-- All offsets: the start position, then the end offsets. -/
def offsetsOf (s : Nat) (items : List Bytes) : List Nat := s :: endOffsets s items

@[simp] theorem endOffsets_length (s : Nat) (items : List Bytes) :
    (endOffsets s items).length = items.length := by
  induction items generalizing s with
  | nil => rfl
  | cons x xs ih => simp [endOffsets, ih]

@[simp] theorem offsetsOf_length (s : Nat) (items : List Bytes) :
    (offsetsOf s items).length = items.length + 1 := by simp [offsetsOf]

theorem endOffsets_append (s : Nat) (a b : List Bytes) :
    endOffsets s (a ++ b) = endOffsets s a ++ endOffsets (s + a.flatten.length) b := by
  induction a generalizing s with
  | nil => simp [endOffsets]
  | cons x xs ih => simp [endOffsets, ih, Nat.add_assoc]

theorem offsetsOf_append (s : Nat) (a b : List Bytes) :
    offsetsOf s (a ++ b) = offsetsOf s a ++ endOffsets (s + a.flatten.length) b := by
  simp [offsetsOf, endOffsets_append]

theorem offsetsOf_get (s : Nat) (items : List Bytes) (i : Nat) (h : i ≤ items.length) :
    (offsetsOf s items)[i]? = some (s + (items.take i).flatten.length) := by
  induction items generalizing s i with
  | nil => simp at h; subst h; simp [offsetsOf]
  | cons x xs ih =>
    cases i with
    | zero => simp [offsetsOf]
    | succ i =>
      have := ih (s + x.length) i (by simpa using h)
      simp only [offsetsOf, endOffsets, List.getElem?_cons_succ] at this ⊢
      rw [this]; simp [Nat.add_assoc]

theorem offsetsOf_getLast (s : Nat) (items : List Bytes) :
    (offsetsOf s items).getLast? = some (s + items.flatten.length) := by
  rw [List.getLast?_eq_getElem?]
  simp only [offsetsOf_length, Nat.add_sub_cancel]
  rw [offsetsOf_get _ _ _ (Nat.le_refl _)]; simp

theorem offsetsOf_pairwise (s : Nat) (items : List Bytes) :
    (offsetsOf s items).Pairwise (· ≤ ·) := by
  have key : ∀ (items : List Bytes) (s : Nat), (∀ x ∈ endOffsets s items, s ≤ x) ∧
      (endOffsets s items).Pairwise (· ≤ ·) := by
    intro items
    induction items with
    | nil => intro s; simp [endOffsets]
    | cons x xs ih =>
      intro s
      obtain ⟨h1, h2⟩ := ih (s + x.length)
      simp only [endOffsets, List.mem_cons, List.pairwise_cons]
      exact ⟨fun y hy => by rcases hy with rfl | hy; · omega
                            · have := h1 y hy; omega, h1, h2⟩
  simp only [offsetsOf, List.pairwise_cons]
  exact key items s

theorem slice_flatten_mid (a m c : List Bytes) :
    slice (a ++ m ++ c).flatten a.flatten.length (a ++ m).flatten.length = .ok m.flatten := by
  have hl : (a ++ m).flatten.length = a.flatten.length + m.flatten.length := by simp
  have : (a ++ m ++ c).flatten = a.flatten ++ (m.flatten ++ c.flatten) := by simp
  rw [slice, if_pos (by rw [this, hl]; simp only [List.length_append]; omega), this,
    List.drop_left, hl, Nat.add_sub_cancel_left, List.take_left]

namespace BinaryBuffer

/-- The buffer that holds `rows`, as built by `append`/`append_null` calls. -/
def ofRows (nullable : Bool) (rows : List (Option Bytes)) : BinaryBuffer :=
  { data := (valuesOf rows).flatten, offsets := offsetsOf 0 (valuesOf rows),
    validity := validityOfBits nullable (validityOf rows) }

/-- Number of data bytes of a column. -/
def dataLen (rows : List (Option Bytes)) : Nat := (valuesOf rows).flatten.length

@[simp] theorem dataLen_append (a b : List (Option Bytes)) : dataLen (a ++ b) = dataLen a + dataLen b := by
  simp [dataLen]

@[simp] theorem dataLen_nil : dataLen [] = 0 := rfl

theorem new_eq (nullable : Bool) : new nullable = ofRows nullable [] := by
  simp [new, ofRows, newValidity_eq, offsetsOf, endOffsets]

theorem push_some (nullable : Bool) (rows : List (Option Bytes)) (v : Bytes) :
    (ofRows nullable rows).push (some v) =
      if dataLen rows + v.length ≤ U32_MAX then .ok (ofRows nullable (rows ++ [some v]))
      else .error .expect := by
  have hd : (valuesOf rows).flatten.length = dataLen rows := rfl
  simp only [push, append, ofRows, validityAppendTrue_eq, List.length_append, hd]
  by_cases hc : dataLen rows + List.length v ≤ U32_MAX
  · rw [if_pos hc, if_pos hc]; simp [offsetsOf_append, endOffsets, dataLen]
  · rw [if_neg hc, if_neg hc]

theorem push_none (rows : List (Option Bytes)) :
    (ofRows true rows).push none = .ok (ofRows true (rows ++ [none])) := by
  simp [push, appendNull, ofRows, validityAppendFalse_true]

theorem push_none_err (rows : List (Option Bytes)) :
    (ofRows false rows).push none = .error .expect := by
  simp [push, appendNull, ofRows, validityAppendFalse_false]

theorem ofRows_pushAll (nullable : Bool) (r0 rows : List (Option Bytes)) (h : Accepts nullable rows) :
    (dataLen (r0 ++ rows) ≤ U32_MAX →
      (ofRows nullable r0).pushAll rows = .ok (ofRows nullable (r0 ++ rows))) ∧
    (dataLen r0 ≤ U32_MAX → U32_MAX < dataLen (r0 ++ rows) →
      (ofRows nullable r0).pushAll rows = .error .expect) := by
  induction rows generalizing r0 with
  | nil => simp [pushAll]
  | cons r rows ih =>
    have ih' := fun r0 => ih r0 (by rcases h with h | h <;> simp_all [Accepts])
    have e : ∀ x, r0 ++ x :: rows = (r0 ++ [x]) ++ rows := by simp
    simp only [pushAll, List.foldlM_cons]
    cases r with
    | some v =>
      have hd : dataLen (r0 ++ [some v]) = dataLen r0 + v.length := by
        simp [dataLen]
      have := ih' (r0 ++ [some v])
      rw [push_some, e]
      constructor
      · intro hle
        rw [if_pos (by rw [dataLen_append, hd] at hle; omega)]
        exact this.1 hle
      · intro h0 hgt
        split
        · exact this.2 (by omega) hgt
        · rfl
    | none =>
      have hn : nullable = true := by rcases h with h | h <;> simp_all
      subst hn
      have := ih' (r0 ++ [none])
      rw [push_none, e]
      exact ⟨this.1, fun h0 => this.2 (by simpa [dataLen] using h0)⟩

theorem new_pushAll (nullable : Bool) (rows : List (Option Bytes)) (h : Accepts nullable rows)
    (hd : dataLen rows ≤ U32_MAX) :
    (new nullable).pushAll rows = .ok (ofRows nullable rows) := by
  rw [new_eq]
  exact (ofRows_pushAll nullable [] rows h).1 hd

theorem new_pushAll_big (nullable : Bool) (rows : List (Option Bytes)) (h : Accepts nullable rows)
    (hd : U32_MAX < dataLen rows) :
    (new nullable).pushAll rows = .error .expect := by
  rw [new_eq]
  exact (ofRows_pushAll nullable [] rows h).2 (Nat.zero_le _) hd

theorem new_pushAll_err (rows : List (Option Bytes)) (h : none ∈ rows) :
    (new false).pushAll rows = .error .expect := by
  rw [new_eq]
  generalize ([] : List (Option Bytes)) = r0
  induction rows generalizing r0 with
  | nil => simp at h
  | cons r rows ih =>
    simp only [pushAll, List.foldlM_cons]
    cases r with
    | none => rw [push_none_err]; rfl
    | some v =>
      rw [push_some]
      split
      · simp only [ok_bind]
        exact ih (by simpa using h) _
      · rfl

theorem ofRows_len (nullable : Bool) (rows : List (Option Bytes)) :
    (ofRows nullable rows).len = (valuesOf rows).length := by simp [len, ofRows]

/-- The successful outcomes of building a buffer are exactly the canonical ones. -/
theorem new_pushAll_ok {nullable : Bool} {rows : List (Option Bytes)} {b : BinaryBuffer}
    (h : (new nullable).pushAll rows = .ok b) :
    Accepts nullable rows ∧ dataLen rows ≤ U32_MAX ∧ b = ofRows nullable rows := by
  have hA : Accepts nullable rows := by
    cases nullable
    · right; intro hn; rw [new_pushAll_err _ hn] at h; cases h
    · exact .inl rfl
  by_cases hd : dataLen rows ≤ U32_MAX
  · rw [new_pushAll _ _ hA hd] at h; cases h; exact ⟨hA, hd, rfl⟩
  · rw [new_pushAll_big _ _ hA (by omega)] at h; cases h

theorem itemLen_offsets (p : Profile) (b : BinaryBuffer) (items : List Bytes) (hb : b.offsets = offsetsOf 0 items)
    (i : Nat) (h : i < items.length) : b.itemLen p i = .ok (items[i]).length := by
  have h1 := offsetsOf_get 0 items i (by omega)
  have h2 := offsetsOf_get 0 items (i + 1) (by omega)
  simp only [itemLen, index, hb, h1, h2, ok_bind]
  have : (items.take (i + 1)).flatten.length = (items.take i).flatten.length + (items[i]).length := by
    rw [List.take_succ_eq_append_getElem h, List.flatten_append, List.length_append]; simp [-List.length_flatten]
  rw [Profile.sub_ok _ (by omega)]
  congr 1; omega

theorem ofRows_shows (nullable : Bool) (rows : List (Option Bytes)) (h : Accepts nullable rows) :
    (ofRows nullable rows).Shows nullable rows where
  len := ofRows_len _ _
  offsetsLen := by simp [len, ofRows]
  first := by simp [ofRows, offsetsOf]
  monotone := offsetsOf_pairwise _ _
  items i h := by
    refine ⟨_, _, offsetsOf_get 0 _ i (by omega), offsetsOf_get 0 _ (i + 1) (by omega), ?_⟩
    have e : valuesOf rows =
        (valuesOf rows).take i ++ [(valuesOf rows)[i]] ++ (valuesOf rows).drop (i + 1) := by
      conv => lhs; rw [← List.take_append_drop i (valuesOf rows), List.drop_eq_getElem_cons h]
      simp
    have e2 : (valuesOf rows).take (i + 1) = (valuesOf rows).take i ++ [(valuesOf rows)[i]] := by
      rw [List.take_succ_eq_append_getElem h]
    have := slice_flatten_mid ((valuesOf rows).take i) [(valuesOf rows)[i]] ((valuesOf rows).drop (i + 1))
    rw [← e, ← e2] at this
    simpa [ofRows] using this
  allData := rfl
  itemLen p i h := itemLen_offsets p _ _ rfl i h
  numValues := by
    cases nullable with
    | true => simp [numValues, ofRows, validityOfBits, Bitmap.ofBits_len]
    | false =>
      simp only [numValues, ofRows, validityOfBits, len, offsetsOf_length]
      exact valuesOf_length_of_no_none (by rcases h with h | h <;> simp_all)
  isNullable := by cases nullable <;> rfl
  hasNulls p := by
    cases nullable with
    | true =>
      simp only [hasNulls, ofRows_len]
      simp only [ofRows, validityOfBits, if_true, Bitmap.ofBits_len, validityOf_length]
      rw [Profile.sub_ok _ (valuesOf_length_le rows), any_isNone_iff]
      simp [bne, BEq.beq]
    | false =>
      simp only [hasNulls, ofRows, validityOfBits]
      rw [any_isNone_of_no_none (by rcases h with h | h <;> simp_all)]
      rfl
  validity := validityShows_ofBits _ _

/-- What the offset loop of `append_from` pushes, starting from `last`. -/
theorem appendFromOffsets_ok (p : Profile) (buf : BinaryBuffer) (items : List Bytes)
    (hb : buf.offsets = offsetsOf 0 items) :
    ∀ (mid a c : List Bytes) (last : Nat), items = a ++ mid ++ c →
      last + mid.flatten.length ≤ U32_MAX →
      appendFromOffsets p buf mid.length a.length last = .ok (endOffsets last mid) := by
  intro mid
  induction mid with
  | nil => intro a c last _ _; rfl
  | cons x xs ih =>
    intro a c last he hl
    have h1 := itemLen_offsets p buf items hb a.length (by rw [he]; simp)
    have h2 : items[a.length]'(by rw [he]; simp) = x := by simp [he]
    have h3 : last + x.length ≤ U32_MAX := by simp at hl; omega
    have h4 := ih (a ++ [x]) c (last + x.length) (by simp [he]) (by simp at hl ⊢; omega)
    simp only [List.length_append, List.length_cons, List.length_nil, Nat.zero_add] at h4
    simp only [List.length_cons, appendFromOffsets, h1, h2, ok_bind]
    rw [Profile.add_ok _ (by unfold U32_MAX at h3; omega)]
    simp only [ok_bind, h4, endOffsets]; rfl

/-- The offset loop never fails in release builds and pushes something in debug builds only when
nothing wraps. -/
theorem appendFromOffsets_any (p : Profile) (buf : BinaryBuffer) (items : List Bytes)
    (hb : buf.offsets = offsetsOf 0 items) :
    ∀ (mid a c : List Bytes) (last : Nat), items = a ++ mid ++ c →
      (∃ l, appendFromOffsets p buf mid.length a.length last = .ok l) ∨
      (p = .debug ∧ appendFromOffsets p buf mid.length a.length last = .error .overflow) := by
  intro mid
  induction mid with
  | nil => intro a c last _; exact .inl ⟨_, rfl⟩
  | cons x xs ih =>
    intro a c last he
    have h1 := itemLen_offsets p buf items hb a.length (by rw [he]; simp)
    have h2 : items[a.length]'(by rw [he]; simp) = x := by simp [he]
    have h4 := fun last => ih (a ++ [x]) c last (by simp [he])
    simp only [List.length_append, List.length_cons, List.length_nil, Nat.zero_add] at h4
    simp only [List.length_cons, appendFromOffsets, h1, h2, ok_bind, Profile.add]
    split
    · simp only [ok_bind]
      rcases h4 (last + x.length) with ⟨l, hl⟩ | ⟨hp, hl⟩
      · left; rw [hl]; exact ⟨_, rfl⟩
      · right; rw [hl]; exact ⟨hp, rfl⟩
    · cases p with
      | debug => right; exact ⟨rfl, rfl⟩
      | release =>
        simp only [ok_bind]
        rcases h4 ((last + x.length) % 2 ^ 32) with ⟨l, hl⟩ | ⟨hp, hl⟩
        · left; rw [hl]; exact ⟨_, rfl⟩
        · cases hp

end BinaryBuffer
end Meerkat
