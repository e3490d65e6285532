import Verif.Model.SegmentName

set_option autoImplicit false

/-! # File names: C50 -/

namespace Meerkat

/-- The URL-safe characters. -/
def UrlSafe (c : Char) : Prop :=
  ('A' ≤ c ∧ c ≤ 'Z') ∨ ('a' ≤ c ∧ c ≤ 'z') ∨ ('0' ≤ c ∧ c ≤ '9') ∨ c = '-' ∨ c = '_'

instance (c : Char) : Decidable (UrlSafe c) := inferInstanceAs (Decidable (_ ∨ _))

theorem base64Char_inj {i j : Nat} (hi : i < 64) (hj : j < 64) (h : base64Char i = base64Char j) : i = j := by
  have key : ∀ i : Fin 64, ∀ j : Fin 64, base64Char i = base64Char j → i = j := by decide +kernel
  simpa using key ⟨i, hi⟩ ⟨j, hj⟩ h

theorem base64Char_safe (i : Nat) : UrlSafe (base64Char i) := by
  by_cases hi : i < 64
  · have key : ∀ i : Fin 64, UrlSafe (base64Char i) := by decide +kernel
    exact key ⟨i, hi⟩
  · have : base64Char i = 'A' := by
      rw [base64Char, List.getD_eq_getElem?_getD, List.getElem?_eq_none]
      · rfl
      · have : URL_SAFE.length = 64 := by decide +kernel
        omega
    rw [this]; decide

theorem base64Encode_safe (b : Bytes) : ∀ c ∈ base64Encode b, UrlSafe c := by
  induction b using base64Encode.induct with
  | case1 a b c rest ih =>
    intro x hx
    simp only [base64Encode, List.cons_append, List.nil_append, List.mem_cons] at hx
    rcases hx with rfl | rfl | rfl | rfl | hx
    · exact base64Char_safe _
    · exact base64Char_safe _
    · exact base64Char_safe _
    · exact base64Char_safe _
    · exact ih x hx
  | case2 a b =>
    intro x hx
    simp only [base64Encode, List.mem_cons, List.not_mem_nil, or_false] at hx
    rcases hx with rfl | rfl | rfl <;> exact base64Char_safe _
  | case3 a =>
    intro x hx
    simp only [base64Encode, List.mem_cons, List.not_mem_nil, or_false] at hx
    rcases hx with rfl | rfl <;> exact base64Char_safe _
  | case4 => simp [base64Encode]

/-- `n` bytes take `⌈8 n / 6⌉` characters. -/
theorem base64Encode_length (b : Bytes) : (base64Encode b).length = (8 * b.length + 5) / 6 := by
  induction b using base64Encode.induct with
  | case1 a b c rest ih =>
    simp only [base64Encode, List.length_append, List.length_cons, List.length_nil, ih]; omega
  | case2 a b => simp [base64Encode]
  | case3 a => simp [base64Encode]
  | case4 => simp [base64Encode]

theorem base64Encode_inj (b b' : Bytes) (hl : b.length = b'.length) (h : base64Encode b = base64Encode b') : b = b' := by
  induction b using base64Encode.induct generalizing b' with
  | case1 x y z rest ih =>
    obtain _ | ⟨x', _ | ⟨y', _ | ⟨z', rest'⟩⟩⟩ := b'
    · simp at hl
    · simp at hl
    · simp at hl
    · have hx := x.toNat_lt; have hy := y.toNat_lt; have hz := z.toNat_lt
      have hx' := x'.toNat_lt; have hy' := y'.toNat_lt; have hz' := z'.toNat_lt
      simp only [base64Encode, List.cons_append, List.nil_append, List.cons.injEq] at h
      obtain ⟨h1, h2, h3, h4, h5⟩ := h
      have h1 := base64Char_inj (by omega) (by omega) h1
      have h2 := base64Char_inj (by omega) (by omega) h2
      have h3 := base64Char_inj (by omega) (by omega) h3
      have h4 := base64Char_inj (by omega) (by omega) h4
      rw [ih rest' (by simpa using hl) h5]
      rw [show x = x' from UInt8.toNat_inj.1 (by omega), show y = y' from UInt8.toNat_inj.1 (by omega),
        show z = z' from UInt8.toNat_inj.1 (by omega)]
  | case2 x y =>
    obtain _ | ⟨x', _ | ⟨y', _ | ⟨z', rest'⟩⟩⟩ := b'
    · simp at hl
    · simp at hl
    · have hx := x.toNat_lt; have hy := y.toNat_lt
      have hx' := x'.toNat_lt; have hy' := y'.toNat_lt
      simp only [base64Encode, List.cons.injEq, and_true] at h
      obtain ⟨h1, h2, h3⟩ := h
      have h1 := base64Char_inj (by omega) (by omega) h1
      have h2 := base64Char_inj (by omega) (by omega) h2
      have h3 := base64Char_inj (by omega) (by omega) h3
      rw [show x = x' from UInt8.toNat_inj.1 (by omega), show y = y' from UInt8.toNat_inj.1 (by omega)]
    · simp at hl
  | case3 x =>
    obtain _ | ⟨x', _ | ⟨y', rest'⟩⟩ := b'
    · simp at hl
    · have hx := x.toNat_lt
      have hx' := x'.toNat_lt
      simp only [base64Encode, List.cons.injEq, and_true] at h
      obtain ⟨h1, h2⟩ := h
      have h1 := base64Char_inj (by omega) (by omega) h1
      have h2 := base64Char_inj (by omega) (by omega) h2
      rw [show x = x' from UInt8.toNat_inj.1 (by omega)]
    · simp at hl
  | case4 => exact (List.length_eq_zero_iff.1 hl.symm).symm

/-- C50: the names of the two files of a segment are 22 URL-safe characters and an extension of 4
characters, so there is no path separator in them. -/
theorem C50_names_safe (id : Bytes) (hid : id.length = 16) :
    ∃ stem, dataFileName id = stem ++ ".dat".toList ∧ indexFileName id = stem ++ ".idx".toList ∧
      stem.length = 22 ∧ (∀ c ∈ stem, UrlSafe c) ∧
      ∀ name ∈ [dataFileName id, indexFileName id], '/' ∉ name ∧ '\\' ∉ name ∧ '\x00' ∉ name := by
  refine ⟨base64Encode id, by rw [dataFileName, List.append_assoc]; rfl,
    by rw [indexFileName, List.append_assoc]; rfl, by rw [base64Encode_length, hid], base64Encode_safe id, ?_⟩
  have key : ∀ c, ¬ UrlSafe c → c ≠ '.' → c ∉ DATA_FILE_EXT → c ∉ INDEX_FILE_EXT →
      c ∉ dataFileName id ∧ c ∉ indexFileName id := by
    intro c h1 h2 h3 h4
    simp only [dataFileName, indexFileName, List.mem_append, List.mem_cons, List.not_mem_nil, or_false, not_or]
    exact ⟨⟨⟨fun h => h1 (base64Encode_safe id c h), h2⟩, h3⟩, ⟨⟨fun h => h1 (base64Encode_safe id c h), h2⟩, h4⟩⟩
  have k1 := key '/' (by decide) (by decide) (by decide) (by decide)
  have k2 := key '\\' (by decide) (by decide) (by decide) (by decide)
  have k3 := key '\x00' (by decide) (by decide) (by decide) (by decide)
  intro name hn
  simp only [List.mem_cons, List.not_mem_nil, or_false] at hn
  rcases hn with rfl | rfl
  · exact ⟨k1.1, k2.1, k3.1⟩
  · exact ⟨k1.2, k2.2, k3.2⟩

/-- C50: no two segments share a file, and no file is both a data file and an index file. -/
theorem C50_names_unique (id id' : Bytes) (hid : id.length = 16) (hid' : id'.length = 16) :
    (dataFileName id = dataFileName id' → id = id') ∧ (indexFileName id = indexFileName id' → id = id') ∧
    dataFileName id ≠ indexFileName id' := by
  refine ⟨fun h => ?_, fun h => ?_, fun h => ?_⟩
  · rw [dataFileName, dataFileName, List.append_assoc, List.append_assoc] at h
    exact base64Encode_inj _ _ (by omega) (List.append_inj_left' h rfl)
  · rw [indexFileName, indexFileName, List.append_assoc, List.append_assoc] at h
    exact base64Encode_inj _ _ (by omega) (List.append_inj_left' h rfl)
  · exact absurd (List.append_inj_right' h rfl) (by decide)

/-- An id with the characters of both cases, digits and both signs. -/
example : dataFileName [0xfb, 0xff, 0xbf, 0, 16, 131, 16, 81, 135, 32, 146, 139, 48, 211, 143, 65] =
    "-_-_ABCDEFGHIJKLMNOPQQ.dat".toList := by decide +kernel

/-- The names differ only by case for some ids: on a file system that ignores case these two segments share
their files. -/
theorem C50_names_differ_by_case : ∃ id id' : Bytes, id.length = 16 ∧ id'.length = 16 ∧ id ≠ id' ∧
    (dataFileName id).map Char.toLower = (dataFileName id').map Char.toLower := by
  refine ⟨List.replicate 16 0, 104 :: List.replicate 15 0, rfl, rfl, by decide, by decide +kernel⟩

end Meerkat
