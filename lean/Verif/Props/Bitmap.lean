import Verif.Proofs.TakeSet

set_option autoImplicit false

/-! # Properties C01-C04: the bitmap -/

namespace Meerkat
open Spec

/-- C01: any sequence of appends to a new bitmap succeeds and reads back exactly
(`len`, `is_set` in bounds, panic out of bounds). -/
theorem C01_bitmap_faithful (bs : List Bool) :
    ∃ m, Bitmap.new.appendAll bs = .ok m ∧ m.Reads bs := by
  obtain ⟨m, h, _⟩ := Bitmap.built_spec bs
  exact ⟨m, h, Bitmap.built_reads h⟩

/-- C01 at a size past the first growth of the backing store. -/
example : ∃ m, Bitmap.new.appendAll (List.replicate 8193 true) = .ok m ∧ m.isSet 8192 = .ok true := by
  obtain ⟨m, h, r⟩ := C01_bitmap_faithful (List.replicate 8193 true)
  exact ⟨m, h, by rw [r.get 8192 (by rw [List.length_replicate]; omega)]; simp [-List.reduceReplicate]⟩

/-- C02, what actually happens: after `clear()`, bit `i` reads as the new bit or-ed with the bit
that was there before (for the first 8192 positions). Appends never fail. -/
theorem C02_clear_exact (old cs : List Bool) (m : Bitmap) (h : Bitmap.new.appendAll old = .ok m) :
    ∃ m', m.clear.appendAll cs = .ok m' ∧ m'.len = cs.length ∧
      ∀ (i : Nat) (hi : i < cs.length),
        m'.isSet i = .ok (cs[i] || (decide (i < 8192) && old.getD i false)) := by
  obtain ⟨_, _, hb⟩ := Bitmap.built_of h
  obtain ⟨m', h', hl', hI', hb'⟩ := Bitmap.appendAll_spec (Bitmap.clear_inv m) cs
  have h0 : m.clear.len = 0 := rfl
  rw [h0] at hl' hb'
  refine ⟨m', h', by omega, fun i hi => ?_⟩
  rw [Bitmap.isSet_of_lt hI' (by omega), hb', if_pos (by omega), Bitmap.clear_bitAt, hb]
  have hc : 8 * INITIAL_BITMAP_CAP = 8192 := rfl
  rw [hc]
  simp [hi]

/-- C02 is false of the code: a bit set before `clear()` reappears. -/
theorem C02_clear_like_new_violated :
    ¬ ∀ (old cs : List Bool) (m m' : Bitmap), Bitmap.new.appendAll old = .ok m →
        m.clear.appendAll cs = .ok m' → m'.Reads cs := by
  intro H
  obtain ⟨m, h, _⟩ := Bitmap.built_spec [true]
  obtain ⟨m', h', _, hx⟩ := C02_clear_exact [true] [false] m h
  have h1 := (H _ _ _ _ h h').get 0 (by simp)
  rw [hx 0 (by simp)] at h1
  simp at h1

/-- C02, the part that holds: if no bit set before `clear()` falls on a position where an unset
bit is appended afterwards, the cleared bitmap reads like a new one.
Missing from the full property: the overlapping case, which fails. -/
theorem C02_clear_like_new_partial (old cs : List Bool) (m : Bitmap)
    (h : Bitmap.new.appendAll old = .ok m)
    (hdis : ∀ i (hi : i < cs.length), cs[i] = false → i < 8192 → old.getD i false = false) :
    ∃ m', m.clear.appendAll cs = .ok m' ∧ m'.Reads cs := by
  obtain ⟨m', h', hl', hx⟩ := C02_clear_exact old cs m h
  refine ⟨m', h', hl', fun i hi => ?_, fun i hi => Bitmap.isSet_of_ge (by omega)⟩
  rw [hx i hi]
  cases hc : cs[i] with
  | true => simp
  | false =>
    by_cases h8 : i < 8192
    · rw [hdis i hi hc h8]; simp
    · simp [h8]

/-- The hypotheses of `C02_clear_like_new_partial` are met by a non-trivial history. -/
example : ∃ m m', Bitmap.new.appendAll [true, false, true] = .ok m ∧
    m.clear.appendAll [true, false, true, false] = .ok m' ∧
    m'.Reads [true, false, true, false] := by
  obtain ⟨m, h, _⟩ := Bitmap.built_spec [true, false, true]
  obtain ⟨m', h', r⟩ := C02_clear_like_new_partial [true, false, true] [true, false, true, false] m h
    (by intro i hi hc _; match i, hi with | 0, _ | 1, _ | 2, _ | 3, _ => simp_all)
  exact ⟨m, m', h, h', r⟩

/-- C03: `append_from` copies exactly the source bits from `start` up to and including the `n`-th
set bit, returns the position after it, keeps the destination's bits (the result is the bitmap
that appending `ds ++ p` to a new bitmap gives), and panics exactly when there are too few. -/
theorem C03_append_from (ds ss : List Bool) (dst src : Bitmap) (start n : Nat)
    (hd : Bitmap.new.appendAll ds = .ok dst) (hs : Bitmap.new.appendAll ss = .ok src) :
    (∀ p, PrefixWithSet n (ss.drop start) p →
      ∃ dst', dst.appendFrom src start n = .ok (dst', start + p.length) ∧
        Bitmap.new.appendAll (ds ++ p) = .ok dst' ∧ dst'.Reads (ds ++ p)) ∧
    ((∃ e, dst.appendFrom src start n = .error e) ↔ (ss.drop start).count true < n) ∧
    (n ≤ (ss.drop start).count true → ∃ p, PrefixWithSet n (ss.drop start) p) := by
  have heq := Bitmap.appendFrom_eq (Bitmap.built_reads hs) (Bitmap.built_of hd).2.1 start n
  refine ⟨fun p hp => ?_, ?_, (prefixWithSet_exists_iff _ _).mpr⟩
  · rw [(takeSet_spec _ _ _).mpr hp] at heq
    obtain ⟨m, hm, _⟩ := Bitmap.built_spec (ds ++ p)
    have hm' := hm
    rw [Bitmap.appendAll_append, hd] at hm'
    simp only [ok_bind] at hm'
    simp only [hm', ok_bind] at heq
    exact ⟨m, heq, hm, Bitmap.built_reads hm⟩
  · rw [← takeSet_none]
    cases ht : takeSet n (ss.drop start) with
    | none => simp only [ht] at heq; simp [heq]
    | some p =>
      obtain ⟨m, hm, _⟩ := Bitmap.appendAll_spec (Bitmap.built_of hd).2.1 p
      simp only [ht, hm, ok_bind] at heq
      simp [heq]

/-- C03 on the example of the repository's own test. -/
example : PrefixWithSet 2 ([true, false, true, false, true].drop 0) [true, false, true] :=
  (takeSet_spec _ _ _).mp rfl

/-- C04, the part that holds: with room for at least one byte, any bits can be stored. -/
theorem C04_with_capacity_partial (cap : Nat) (hcap : 8 ≤ cap) (bs : List Bool) :
    ∃ m, (Bitmap.withCapacity cap).appendAll bs = .ok m ∧ m.Reads bs := by
  have hs : cap >>> 3 = cap / 8 := Nat.shiftRight_eq_div_pow cap 3
  have hI : (Bitmap.withCapacity cap).Inv := by
    constructor
    · rw [Bitmap.withCapacity, List.length_replicate, hs]; omega
    · exact Nat.zero_le _
  obtain ⟨m, h, hl, hIm, hb⟩ := Bitmap.appendAll_spec hI bs
  have h0 : (Bitmap.withCapacity cap).len = 0 := rfl
  rw [h0] at hl hb
  refine ⟨m, h, Bitmap.reads_of_bitAt hIm (by omega) fun i hi => ?_⟩
  rw [hb, if_pos (by omega), Bitmap.withCapacity_bitAt]
  simp [hi]

theorem withCapacity_small {cap : Nat} (h : cap < 8) : (Bitmap.withCapacity cap).values = [] := by
  have hs : cap >>> 3 = cap / 8 := Nat.shiftRight_eq_div_pow cap 3
  have : cap / 8 = 0 := by omega
  simp [Bitmap.withCapacity, hs, this]

theorem append_empty_values {m : Bitmap} (h : m.values = []) (b : Bool) :
    m.append b = if b then .error .index else .ok { values := [], len := m.len + 1 } := by
  cases b <;> simp [Bitmap.append, h, resize, index]

/-- C04 is false of the code for every capacity below 8: whatever non-empty sequence is appended,
either an append panics or the bits cannot be read back. -/
theorem C04_with_capacity_violated (cap : Nat) (hcap : cap < 8) (bs : List Bool) (hne : bs ≠ []) :
    ¬ ∃ m, (Bitmap.withCapacity cap).appendAll bs = .ok m ∧ m.Reads bs := by
  rintro ⟨m, h, r⟩
  have key : ∀ (bs : List Bool) (m0 m1 : Bitmap), m0.values = [] → m0.appendAll bs = .ok m1 →
      m1.values = [] := by
    intro bs
    induction bs with
    | nil => intro m0 m1 h0 h1; cases h1; exact h0
    | cons b bs ih =>
      intro m0 m1 h0 h1
      simp only [Bitmap.appendAll, List.foldlM_cons, append_empty_values h0] at h1
      cases b
      · simp only [Bool.false_eq_true, if_false, ok_bind] at h1
        exact ih _ _ rfl h1
      · simp at h1
  have hv := key bs _ m (withCapacity_small hcap) h
  have hpos : 0 < bs.length := List.length_pos_iff.mpr hne
  have := r.get 0 hpos
  simp [Bitmap.isSet, r.len, hpos, hv, index] at this

end Meerkat
