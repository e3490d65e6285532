import Verif.Model.Bitmap

set_option autoImplicit false

/-! # Lemmas about the bitmap model -/

namespace Meerkat
namespace Bitmap

/-- Raw bit `i` of the backing store (false outside of it). -/
def bitAt (m : Bitmap) (i : Nat) : Bool := ((m.values[i / 8]?).getD 0).toNat.testBit (i % 8)

/-- Representation invariant: there is room for the bits counted by `len`. -/
def Inv (m : Bitmap) : Prop := 0 < m.values.length ∧ m.len ≤ 8 * m.values.length

/-- No stale bit at or after `len`. -/
def Clean (m : Bitmap) : Prop := ∀ i, m.len ≤ i → m.bitAt i = false

theorem mask_eq (i : Nat) : index BIT_MASK (i &&& 7) = .ok (UInt8.ofNat (2 ^ (i % 8))) := by
  have h : i &&& 7 = i % 8 := Nat.and_two_pow_sub_one_eq_mod i 3
  have h8 : i % 8 < 8 := Nat.mod_lt _ (by omega)
  rw [h]
  generalize i % 8 = k at h8
  match k, h8 with
  | 0, _ | 1, _ | 2, _ | 3, _ | 4, _ | 5, _ | 6, _ | 7, _ => rfl

theorem mask_toNat {k : Nat} (h : k < 8) : (UInt8.ofNat (2 ^ k)).toNat = 2 ^ k := by
  match k, h with
  | 0, _ | 1, _ | 2, _ | 3, _ | 4, _ | 5, _ | 6, _ | 7, _ => rfl

theorem testBit_or_mask (b : UInt8) {k : Nat} (h : k < 8) (j : Nat) :
    (b ||| UInt8.ofNat (2 ^ k)).toNat.testBit j = (b.toNat.testBit j || decide (k = j)) := by
  rw [UInt8.toNat_or, mask_toNat h, Nat.testBit_or, Nat.testBit_two_pow]

theorem and_mask_ne_zero (b : UInt8) {k : Nat} (h : k < 8) :
    ((b &&& UInt8.ofNat (2 ^ k)) != 0) = b.toNat.testBit k := by
  have h1 : (b &&& UInt8.ofNat (2 ^ k)).toNat = b.toNat &&& 2 ^ k := by
    rw [UInt8.toNat_and, mask_toNat h]
  have h2 : ∀ j, (b &&& UInt8.ofNat (2 ^ k)).toNat.testBit j =
      (b.toNat.testBit j && decide (k = j)) := by
    intro j; rw [h1, Nat.testBit_and, Nat.testBit_two_pow]
  cases hb : b.toNat.testBit k
  · have : (b &&& UInt8.ofNat (2 ^ k)) = 0 := by
      apply UInt8.toNat_inj.mp
      apply Nat.eq_of_testBit_eq
      intro j
      rw [h2]
      by_cases hj : k = j
      · subst hj; simp [hb]
      · simp [hj]
    simp [this]
  · have : (b &&& UInt8.ofNat (2 ^ k)) ≠ 0 := by
      intro h0
      have h3 := h2 k
      rw [h0, hb] at h3
      simp at h3
    simpa using this

theorem isSet_of_lt {m : Bitmap} (hI : Inv m) {i : Nat} (h : i < m.len) :
    m.isSet i = .ok (m.bitAt i) := by
  have hlt : i / 8 < m.values.length := by have := hI.2; omega
  have hs : i >>> 3 = i / 8 := Nat.shiftRight_eq_div_pow i 3
  simp only [isSet, h, if_true, hs, index_ok hlt, ok_bind, mask_eq, pure_eq_ok]
  rw [and_mask_ne_zero _ (Nat.mod_lt _ (by omega))]
  simp [bitAt, hlt]

theorem isSet_of_ge {m : Bitmap} {i : Nat} (h : m.len ≤ i) : m.isSet i = .error .assertion := by
  simp [isSet, Nat.not_lt.mpr h]

theorem getElem?_resize_zero (v : Bytes) (n i : Nat) :
    ((resize v n 0)[i]?).getD 0 = if i < n then (v[i]?).getD 0 else 0 := by
  unfold resize
  by_cases h : i < n
  · by_cases h2 : i < v.length
    · rw [List.getElem?_append_left (by simp; omega), List.getElem?_take, if_pos h, if_pos h]
    · have hv : v[i]? = none := by simp; omega
      rw [List.getElem?_append_right (by simp; omega), List.getElem?_replicate]
      simp only [h, hv, if_true]
      split <;> rfl
  · have : (v.take n ++ List.replicate (n - v.length) (0:UInt8))[i]? = none := by
      simp; omega
    simp [this, h]

theorem append_spec {m : Bitmap} (hI : Inv m) (b : Bool) :
    ∃ m', m.append b = .ok m' ∧ m'.len = m.len + 1 ∧ Inv m' ∧
      ∀ i, m'.bitAt i = if i = m.len then (b || m.bitAt m.len) else m.bitAt i := by
  obtain ⟨hpos, hlen⟩ := hI
  have hs : m.len >>> 3 = m.len / 8 := Nat.shiftRight_eq_div_pow m.len 3
  -- the vector after the optional growth
  generalize hv : (if m.len / 8 = m.values.length
      then resize m.values (m.values.length * 2) 0 else m.values) = v
  have hvlen : m.len / 8 < v.length := by
    subst hv; split
    · simp; omega
    · omega
  have hvge : m.values.length ≤ v.length := by
    subst hv; split
    · simp; omega
    · omega
  have hvget : ∀ j : Nat, (v[j]?).getD 0 = (m.values[j]?).getD 0 := by
    intro j; subst hv; split
    · rw [getElem?_resize_zero]
      split
      · rfl
      · have : m.values[j]? = none := by simp; omega
        simp [this]
    · rfl
  cases b with
  | false =>
    refine ⟨{ values := v, len := m.len + 1 }, ?_, rfl, ⟨by simp; omega, by simp; omega⟩, ?_⟩
    · simp [append, hs, hv]
    · intro i
      simp only [bitAt, hvget, Bool.false_or]
      split
      · rename_i h; rw [h]
      · rfl
  | true =>
    refine ⟨{ values := v.set (m.len / 8) (v[m.len / 8] ||| UInt8.ofNat (2 ^ (m.len % 8))),
              len := m.len + 1 }, ?_, rfl, ⟨by simp; omega, by simp; omega⟩, ?_⟩
    · simp [append, hs, hv, index_ok hvlen, mask_eq]
    · intro i
      have hold : v[m.len / 8] = (m.values[m.len / 8]?).getD 0 := by
        rw [← hvget]; simp [hvlen]
      simp only [bitAt, List.getElem?_set, Bool.true_or]
      by_cases hb : m.len / 8 = i / 8
      · simp only [hb, if_true]
        rw [if_pos (by omega)]
        simp only [Option.getD_some]
        have hv2 : i / 8 < v.length := by omega
        have : v[i / 8] = (m.values[i / 8]?).getD 0 := by rw [← hvget]; simp [hv2]
        rw [testBit_or_mask _ (Nat.mod_lt _ (by omega))]
        rw [this]
        by_cases hi : i = m.len
        · simp [hi]
        · have : ¬ (m.len % 8 = i % 8) := by omega
          simp [hi, this]
      · have hi : i ≠ m.len := by intro h; subst h; exact hb rfl
        simp only [hb, if_false, hi]
        rw [hvget]

theorem new_inv : Inv new := by
  constructor
  · rw [new, List.length_replicate]; decide
  · exact Nat.zero_le _

theorem new_bitAt (i : Nat) : new.bitAt i = false := by
  have : ((new.values[i / 8]?).getD 0) = 0 := by
    simp only [new, List.getElem?_replicate]; split <;> rfl
  simp [bitAt, this]

theorem withCapacity_bitAt (c i : Nat) : (withCapacity c).bitAt i = false := by
  have : (((withCapacity c).values[i / 8]?).getD 0) = 0 := by
    simp only [withCapacity, List.getElem?_replicate]; split <;> rfl
  simp [bitAt, this]

theorem clear_inv (m : Bitmap) : Inv m.clear := by
  constructor
  · rw [clear, resize_length]; decide
  · exact Nat.zero_le _

theorem clear_bitAt (m : Bitmap) (i : Nat) :
    m.clear.bitAt i = (decide (i < 8 * INITIAL_BITMAP_CAP) && m.bitAt i) := by
  simp only [bitAt, clear, getElem?_resize_zero]
  by_cases h : i < 8 * INITIAL_BITMAP_CAP
  · have : i / 8 < INITIAL_BITMAP_CAP := by omega
    simp [h, this]
  · have : ¬ i / 8 < INITIAL_BITMAP_CAP := by omega
    simp [h, this]

/-- Appending a list of bits: bit `i` of the result is the old raw bit or-ed with the new one. -/
theorem appendAll_spec {m : Bitmap} (hI : Inv m) (bs : List Bool) :
    ∃ m', m.appendAll bs = .ok m' ∧ m'.len = m.len + bs.length ∧ Inv m' ∧
      ∀ i, m'.bitAt i =
        if m.len ≤ i ∧ i < m.len + bs.length then (bs.getD (i - m.len) false || m.bitAt i)
        else m.bitAt i := by
  induction bs generalizing m with
  | nil =>
    refine ⟨m, rfl, rfl, hI, fun i => ?_⟩
    rw [if_neg (by simp)]
  | cons b bs ih =>
    obtain ⟨m1, h1, hl1, hI1, hb1⟩ := append_spec hI b
    obtain ⟨m2, h2, hl2, hI2, hb2⟩ := ih hI1
    refine ⟨m2, ?_, by simp only [hl2, hl1, List.length_cons]; omega, hI2, fun i => ?_⟩
    · simp only [appendAll, List.foldlM_cons, h1, ok_bind]; exact h2
    · rw [hb2, hb1, hl1]
      by_cases hi : i = m.len
      · subst hi
        rw [if_neg (by omega), if_pos rfl, if_pos (by simp)]
        simp
      · by_cases hlt : i < m.len
        · rw [if_neg (by omega), if_neg hi, if_neg (by omega)]
        · simp only [List.length_cons, if_neg hi]
          have hsub : i - m.len = (i - (m.len + 1)) + 1 := by omega
          by_cases hup : i < m.len + 1 + bs.length
          · rw [if_pos (by omega), if_pos (by omega), hsub, List.getD_cons_succ]
          · rw [if_neg (by omega), if_neg (by omega)]

theorem appendAll_append (m : Bitmap) (as bs : List Bool) :
    m.appendAll (as ++ bs) = (m.appendAll as >>= fun m => m.appendAll bs) := by
  simp [appendAll, List.foldlM_append]

end Bitmap
end Meerkat
