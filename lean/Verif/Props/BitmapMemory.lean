import Verif.Props.AnyBitmap

set_option autoImplicit false

/-! # C91: the memory of a bitmap -/

namespace Meerkat

namespace BitmapMemory
open Bitmap AnyBitmap

theorem append_grows {m m' : Bitmap} (hm : Inv m) {b : Bool} (h : m.append b = .ok m') :
    m'.len = m.len + 1 ∧ (m'.values.length = m.values.length ∨ 4 * m'.values.length < m'.len) := by
  obtain ⟨m1, h1, h2, _⟩ := append_spec hm b
  rw [h] at h1; cases h1
  refine ⟨h2, ?_⟩
  rw [h2]
  have h3 := h
  simp only [Bitmap.append] at h3
  have key : ∀ values : Bytes, values = (if m.len >>> 3 = m.values.length then resize m.values (m.values.length * 2) 0
      else m.values) → values.length = m.values.length ∨ 4 * values.length < m.len + 1 := by
    intro values hv
    rw [hv]
    split
    · rename_i heq
      right
      rw [Nat.shiftRight_eq_div_pow] at heq
      rw [resize_length]
      omega
    · exact .inl rfl
  generalize hv : (if m.len >>> 3 = m.values.length then resize m.values (m.values.length * 2) 0 else m.values) = values at h3
  have := key values hv.symm
  cases b with
  | false => simp only [Bool.false_eq_true, if_false] at h3; cases h3; exact this
  | true =>
    simp only [if_true] at h3
    rcases ho : index values (m.len >>> 3) with e | old
    · rw [ho] at h3; cases h3
    rcases hk : index BIT_MASK (m.len &&& 7) with e | mask
    · rw [ho, hk] at h3; cases h3
    rw [ho, hk] at h3
    cases h3
    simpa using this

theorem appendAll_grows (bs : List Bool) {m m' : Bitmap} (hm : Inv m) (h : m.appendAll bs = .ok m') :
    m'.len = m.len + bs.length ∧ (m'.values.length = m.values.length ∨ 4 * m'.values.length < m'.len) := by
  induction bs generalizing m with
  | nil => simp only [Bitmap.appendAll, List.foldlM_nil] at h; cases h; exact ⟨rfl, .inl rfl⟩
  | cons b bs ih =>
    obtain ⟨m1, h1, _, h3, _⟩ := append_spec hm b
    simp only [Bitmap.appendAll, List.foldlM_cons, h1] at h
    obtain ⟨a1, a2⟩ := append_grows hm h1
    obtain ⟨b1, b2⟩ := ih h3 h
    refine ⟨by rw [b1, a1, List.length_cons]; omega, ?_⟩
    rcases b2 with b2 | b2
    · rcases a2 with a2 | a2
      · exact .inl (b2.trans a2)
      · exact .inr (by omega)
    · exact .inr b2

end BitmapMemory

open BitmapMemory AnyBitmap in
/-- C91: whatever was done with a bitmap, it has room for its bits, and unless it still has the size it was made with or was
given by `clear`, it takes less than a byte for four of them. -/
theorem C91_memory {m : Bitmap} (hm : m.Reach) : m.len ≤ 8 * m.values.length ∧
    ∃ first, (first = 1024 ∨ ∃ cap, 8 ≤ cap ∧ first = cap / 8) ∧
      (m.values.length = first ∨ 4 * m.values.length < m.len) := by
  refine ⟨(inv hm).2, ?_⟩
  induction hm with
  | new => exact ⟨1024, .inl rfl, .inl (List.length_replicate ..)⟩
  | @withCapacity cap h =>
    refine ⟨cap / 8, .inr ⟨cap, h, rfl⟩, .inl ?_⟩
    simp [Bitmap.withCapacity, Nat.shiftRight_eq_div_pow]
  | append hr h ih =>
    obtain ⟨first, h1, h2⟩ := ih
    obtain ⟨a1, a2⟩ := append_grows (inv hr) h
    refine ⟨first, h1, ?_⟩
    rcases a2 with a2 | a2
    · rcases h2 with h2 | h2
      · exact .inl (a2.trans h2)
      · exact .inr (by omega)
    · exact .inr a2
  | appendFrom hr hs h ih _ =>
    obtain ⟨first, h1, h2⟩ := ih
    rw [Bitmap.appendFrom_eq (reads_shown (inv hs)) (inv hr)] at h
    split at h
    · cases h
    · rename_i q _
      obtain ⟨d, h3, _⟩ := Bitmap.appendAll_spec (inv hr) q
      rw [h3] at h; cases h
      obtain ⟨a1, a2⟩ := appendAll_grows q (inv hr) h3
      refine ⟨first, h1, ?_⟩
      rcases a2 with a2 | a2
      · rcases h2 with h2 | h2
        · exact .inl (a2.trans h2)
        · exact .inr (by omega)
      · exact .inr a2
  | clear _ _ =>
    exact ⟨1024, .inl rfl, .inl (resize_length ..)⟩

/-- A bitmap of 100 bits that was made for 64 of them. -/
example : ∃ m : Bitmap, (Bitmap.withCapacity 64).appendAll (List.replicate 100 true) = .ok m ∧ m.values.length = 16 := by
  refine ⟨{ values := List.replicate 12 255 ++ [15, 0, 0, 0], len := 100 }, ?_, rfl⟩
  decide +kernel

end Meerkat
