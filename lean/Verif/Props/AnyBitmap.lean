import Verif.Props.Bitmap

set_option autoImplicit false

/-! # C01 and C03 for bitmaps with any past -/

namespace Meerkat

/-- Bitmaps reached by any calls that returned, from a bitmap with room for a byte at least (see C04 for smaller ones). -/
inductive Bitmap.Reach : Bitmap → Prop where
  | new : Reach .new
  | withCapacity {cap : Nat} : 8 ≤ cap → Reach (.withCapacity cap)
  | append {m m' : Bitmap} {b : Bool} : Reach m → m.append b = .ok m' → Reach m'
  | appendFrom {m m' src : Bitmap} {start n ret : Nat} : Reach m → Reach src →
      m.appendFrom src start n = .ok (m', ret) → Reach m'
  | clear {m : Bitmap} : Reach m → Reach m.clear

namespace AnyBitmap
open Bitmap

/-- The bits that a bitmap shows. -/
def shown (m : Bitmap) : List Bool := (List.range m.len).map m.bitAt

theorem reads_shown {m : Bitmap} (h : Inv m) : m.Reads (shown m) :=
  reads_of_bitAt h (by simp [shown]) (by intro i hi; simp [shown])

theorem reads_unique {m : Bitmap} {as bs : List Bool} (ha : m.Reads as) (hb : m.Reads bs) : as = bs := by
  have hl : as.length = bs.length := by rw [← ha.len, hb.len]
  refine List.ext_getElem hl fun i h1 h2 => ?_
  have := (ha.get i h1).symm.trans (hb.get i h2)
  injection this

theorem inv {m : Bitmap} (h : m.Reach) : Inv m := by
  induction h with
  | new => exact new_inv
  | @withCapacity cap h =>
    refine ⟨?_, Nat.zero_le _⟩
    simp only [Bitmap.withCapacity, List.length_replicate, Nat.shiftRight_eq_div_pow]
    omega
  | append _ h ih =>
    obtain ⟨m', h1, _, h2, _⟩ := append_spec ih _
    rw [h] at h1; cases h1; exact h2
  | appendFrom _ _ h ih ih' =>
    rw [appendFrom_eq (reads_shown ih') ih] at h
    split at h
    · cases h
    · rename_i p _
      obtain ⟨d, h1, _, h2, _⟩ := appendAll_spec ih p
      rw [h1] at h; cases h; exact h2
  | clear _ _ => exact clear_inv _

end AnyBitmap

open AnyBitmap Spec in
/-- C01 for bitmaps with any past: `append` returns, `len` grows by one, the bits that were there are kept, and the new bit is
the appended one or, after a `clear` (see C02), a set bit that was there before. -/
theorem C01_append_any {m : Bitmap} (hm : m.Reach) (b : Bool) : ∃ m' bs stale, m.append b = .ok m' ∧ m.Reads bs ∧
    m'.Reads (bs ++ [b || stale]) := by
  obtain ⟨m', h1, h2, h3, h4⟩ := Bitmap.append_spec (inv hm) b
  refine ⟨m', shown m, m.bitAt m.len, h1, reads_shown (inv hm), ?_⟩
  have : shown m' = shown m ++ [b || m.bitAt m.len] := by
    simp only [shown, h2, List.range_succ, List.map_append, List.map_cons, List.map_nil, h4, if_true]
    congr 1
    refine List.map_congr_left fun i hi => ?_
    rw [h4, if_neg (by have := List.mem_range.1 hi; omega)]
  rw [← this]
  exact reads_shown h3

open AnyBitmap Spec in
/-- C03 for bitmaps with any past: whatever was done with the two bitmaps before, `append_from` does to the destination what
`append` does with each source bit, as `is_set` shows it, from `start` up to and including the `n`-th set one; it returns
the position after that, and panics exactly when there are too few. -/
theorem C03_any_bitmap {dst src : Bitmap} (hd : dst.Reach) (hs : src.Reach) (start n : Nat) : ∃ ss, src.Reads ss ∧
    (∀ p, PrefixWithSet n (ss.drop start) p → ∃ dst', dst.appendAll p = .ok dst' ∧
      dst.appendFrom src start n = .ok (dst', start + p.length)) ∧
    ((∃ e, dst.appendFrom src start n = .error e) ↔ (ss.drop start).count true < n) ∧
    (n ≤ (ss.drop start).count true → ∃ p, PrefixWithSet n (ss.drop start) p) := by
  have heq := Bitmap.appendFrom_eq (reads_shown (inv hs)) (inv hd) start n
  refine ⟨shown src, reads_shown (inv hs), fun p hp => ?_, ?_, (prefixWithSet_exists_iff _ _).mpr⟩
  · rw [(takeSet_spec _ _ _).mpr hp] at heq
    obtain ⟨m, hm, _⟩ := Bitmap.appendAll_spec (inv hd) p
    simp only [hm, ok_bind] at heq
    exact ⟨m, hm, heq⟩
  · rw [← takeSet_none]
    cases ht : takeSet n ((shown src).drop start) with
    | none => simp only [ht] at heq; simp [heq]
    | some p =>
      obtain ⟨m, hm, _⟩ := Bitmap.appendAll_spec (inv hd) p
      simp only [ht, hm, ok_bind] at heq
      simp [heq]

/-- A cleared bitmap is a source and a destination like any other: here it shows the set bit that `clear` left behind. -/
example : ∃ m m' : Bitmap, m.Reach ∧ m.Reads [true, true] ∧ Bitmap.new.appendFrom m 0 2 = .ok (m', 2) := by
  obtain ⟨m1, h1, e1⟩ : ∃ m1, Bitmap.new.append true = .ok m1 ∧ m1 = ⟨1 :: .replicate 1023 0, 1⟩ :=
    ⟨⟨1 :: .replicate 1023 0, 1⟩, by decide +kernel, rfl⟩
  obtain ⟨m2, h2, e2⟩ : ∃ m2, m1.clear.append false = .ok m2 ∧ m2 = ⟨1 :: .replicate 1023 0, 1⟩ :=
    ⟨⟨1 :: .replicate 1023 0, 1⟩, by subst e1; decide +kernel, rfl⟩
  obtain ⟨m3, h3, e3⟩ : ∃ m3, m2.append true = .ok m3 ∧ m3 = ⟨3 :: .replicate 1023 0, 2⟩ :=
    ⟨⟨3 :: .replicate 1023 0, 2⟩, by subst e2; decide +kernel, rfl⟩
  have hr : m3.Reach := .append (.append (.clear (.append .new h1)) h2) h3
  have hb : m3.Reads [true, true] := by
    have h := AnyBitmap.reads_shown (AnyBitmap.inv hr)
    have h0 : AnyBitmap.shown m3 = [true, true] := by subst e3; decide +kernel
    rwa [h0] at h
  obtain ⟨ss, h4, h5, _⟩ := C03_any_bitmap .new hr 0 2
  obtain rfl := AnyBitmap.reads_unique h4 hb
  obtain ⟨d, _, h6⟩ := h5 [true, true] ((takeSet_spec _ _ _).mp rfl)
  exact ⟨m3, d, hr, hb, h6⟩

end Meerkat
