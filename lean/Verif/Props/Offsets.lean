import Verif.Proofs.Offsets

set_option autoImplicit false

/-! # Properties of util.rs and offsets.rs (C22–C24) -/

namespace Meerkat
open Spec

/-- C22: `ceil8(n)` is the least number of bytes with at least `n` bits. -/
theorem C22_ceil8 (n : Nat) : n ≤ 8 * Util.ceil8 n ∧ ∀ m, n ≤ 8 * m → Util.ceil8 n ≤ m := by
  rw [Util.ceil8_eq]
  exact ⟨by omega, fun m hm => by omega⟩

/-- C22: `round_upto_power_of_2(n, 2^k)` is the least multiple of `2^k` not below `n`, in both
profiles, when `n + 2^k - 1` fits in 64 bits. -/
theorem C22_round_up (p : Profile) (n k : Nat) (hk : k < 64) (hn : n + (2 ^ k - 1) < 2 ^ 64) :
    ∃ r, Util.roundUptoPowerOf2 p n (2 ^ k) = .ok r ∧ 2 ^ k ∣ r ∧ n ≤ r ∧
      ∀ m, 2 ^ k ∣ m → n ≤ m → r ≤ m := by
  refine ⟨_, Util.roundUp_ok p n k hk hn, Nat.dvd_mul_right _ _, ?_, ?_⟩
  · have hpos : 0 < 2 ^ k := Nat.pow_pos (by omega)
    have h1 := Nat.div_add_mod (n + (2 ^ k - 1)) (2 ^ k)
    have h2 := Nat.mod_lt (n + (2 ^ k - 1)) hpos
    omega
  · rintro m ⟨q, rfl⟩ hm
    apply Nat.mul_le_mul_left
    have hpos : 0 < 2 ^ k := Nat.pow_pos (by omega)
    rw [← Nat.lt_succ_iff, Nat.div_lt_iff_lt_mul hpos, Nat.succ_mul, Nat.mul_comm]
    omega

/-- C22, the other numbers: if `n + 2^k - 1` does not fit in 64 bits, neither does any multiple of `2^k` not below `n`;
a debug build panics, a release build returns 0. -/
theorem C22_round_up_overflow (p : Profile) (n k : Nat) (hk : k < 64) (hn : n < 2 ^ 64) (ho : 2 ^ 64 ≤ n + (2 ^ k - 1)) :
    (∀ m, 2 ^ k ∣ m → n ≤ m → 2 ^ 64 ≤ m) ∧
    Util.roundUptoPowerOf2 p n (2 ^ k) = match p with
      | .debug => .error .overflow
      | .release => .ok 0 := by
  have hpos : 0 < 2 ^ k := Nat.pow_pos (by omega)
  have h64 : 2 ^ k * 2 ^ (64 - k) = 2 ^ 64 := by rw [← Nat.pow_add]; congr 1; omega
  constructor
  · rintro m ⟨q, rfl⟩ hm
    rw [← h64]
    apply Nat.mul_le_mul_left
    rw [← Nat.not_lt]
    intro hq
    have := Nat.mul_le_mul_left (2 ^ k) (show q + 1 ≤ 2 ^ (64 - k) from hq)
    rw [h64, Nat.mul_add, Nat.mul_one] at this
    omega
  · have hand : 2 ^ k &&& (2 ^ k - 1) = 0 := by
      rw [Nat.and_two_pow_sub_one_eq_mod, Nat.mod_self]
    have hlt : 2 ^ k < 2 ^ 64 := Nat.pow_lt_pow_right (by omega) hk
    simp only [Util.roundUptoPowerOf2]
    rw [if_neg (by simp [hpos, hand]), Profile.sub_ok _ hpos]
    cases p with
    | debug => simp only [ok_bind, Profile.add]; rw [if_neg (by omega)]; rfl
    | release =>
      simp only [ok_bind, Profile.add, pure_eq_ok]
      rw [if_neg (show ¬ n + (2 ^ k - 1) < 2 ^ 64 by omega)]
      simp only [ok_bind]
      rw [show 2 ^ k - Nat.succ 0 = 2 ^ k - 1 from rfl, Util.and_not64 _ k (Nat.mod_lt _ (by decide)) (by omega),
        Nat.div_eq_of_lt (by omega), Nat.mul_zero]

/-- C22, the other factors: with one that is not a power of two a debug build panics, whatever the number; a release build
never does. -/
theorem C22_round_up_other (n f : Nat) (hf : ¬ ∃ k, f = 2 ^ k) :
    Util.roundUptoPowerOf2 .debug n f = .error .assertion ∧ ∃ r, Util.roundUptoPowerOf2 .release n f = .ok r := by
  constructor
  · rw [Util.roundUptoPowerOf2, if_pos]
    refine ⟨rfl, fun h => hf ?_⟩
    exact (Nat.and_sub_one_eq_zero_iff_isPowerOfTwo (by omega)).mp h.2
  · rw [Util.roundUptoPowerOf2, if_neg (by simp)]
    have h1 : ∃ m, Profile.release.sub 64 f 1 = .ok m := by
      unfold Profile.sub; split <;> exact ⟨_, rfl⟩
    obtain ⟨m, h1⟩ := h1
    have h2 : ∃ t, Profile.release.add 64 n m = .ok t := by
      unfold Profile.add; split <;> exact ⟨_, rfl⟩
    obtain ⟨t, h2⟩ := h2
    exact ⟨t &&& Util.not64 m, by simp only [h1, h2, ok_bind, pure_eq_ok]⟩

/-- Six is no power of two; the number returned is no multiple of it. -/
example : (¬ ∃ k, 6 = 2 ^ k) ∧ Util.roundUptoPowerOf2 .release 8 6 = .ok 8 ∧ Util.roundUptoPowerOf2 .release 8 0 = .ok 0 ∧
    Util.roundUptoPowerOf2 .debug 8 0 = .error .assertion := by
  refine ⟨?_, by decide, by decide, by decide⟩
  rintro ⟨k, hk⟩
  match k, hk with
  | 0, h | 1, h | 2, h => omega
  | k + 3, h => rw [Nat.pow_add] at h; have := Nat.pow_pos (n := k) (show 0 < 2 by omega); omega

example : Util.roundUptoPowerOf2 .debug 129 128 = .ok 256 ∧
    Util.roundUptoPowerOf2 .debug 256 128 = .ok 256 ∧
    Util.roundUptoPowerOf2 .debug (2 ^ 64 - 1) 1 = .ok (2 ^ 64 - 1) ∧
    Util.roundUptoPowerOf2 .release (2 ^ 64 - 1) 128 = .ok 0 := by decide

/-- The bytes `OffsetEncoder::encode` appends to an empty vector. -/
def encodedOffsets (p : Profile) (xs : List Nat) : Res Bytes := (Offsets.encode p xs []).map (·.2)

/-- C23 does not hold: `[2, 1]` and `[2, 0]` have the same encoding. -/
theorem C23_offsets_recoverable_violated (p : Profile) :
    ¬ ∀ (xs ys : List Nat), (∀ x ∈ xs, x < 2 ^ 32) → (∀ y ∈ ys, y < 2 ^ 32) → xs.length = ys.length →
      ∀ bytes, encodedOffsets p xs = .ok bytes → encodedOffsets p ys = .ok bytes → xs = ys := by
  intro h
  have := h [2, 1] [2, 0] (by decide) (by decide) rfl [2, 2]
    (by cases p <;> decide +kernel) (by cases p <;> decide +kernel)
  simp at this

/-- C23, exactly: for `n` items (1 to 128) whose largest needs `b` bits, the lengths can be recovered
from the bytes and `n` if and only if the byte of every bit of every value is among the `ceil(n b / 8)`
bytes kept by the trim. -/
theorem C23_offsets_recoverable_exact (p : Profile) (n b : Nat) (h1 : 1 ≤ n) (h128 : n ≤ 128) (hb : b ≤ 32) :
    (∀ (xs ys : List Nat), xs.length = n → ys.length = n → Width xs b → Width ys b →
      ∀ bytes, encodedOffsets p xs = .ok bytes → encodedOffsets p ys = .ok bytes → xs = ys) ↔
    ∀ i c, i < n → c < b → bytePos b i c < (n * b + 7) / 8 := by
  have hceil : ∀ k, Util.ceil8 (b * k) = (k * b + 7) / 8 := fun k => by rw [Util.ceil8_eq, Nat.mul_comm]
  have henc : ∀ xs : List Nat, xs.length = n → encodedOffsets p xs = .ok (Offsets.offsetBytes xs) := by
    intro xs hl
    simp only [encodedOffsets, Offsets.encode_ok p xs [] (by omega) (by omega)]
    rfl
  have h32 : ∀ xs, Width xs b → ∀ x ∈ xs, x < 2 ^ 32 := fun xs hw x hx =>
    Nat.lt_of_lt_of_le (hw.1 x hx) (Nat.pow_le_pow_right (by omega) hb)
  constructor
  · intro hinj i c hi hc
    apply Classical.byContradiction
    intro hlost
    by_cases hn : n = 1
    · apply hlost
      have h0 : i = 0 := by omega
      subst h0; subst hn
      simp only [bytePos]
      omega
    · have hoth : ∃ o, o < n ∧ o ≠ i := by
        by_cases h0 : i = 0
        · exact ⟨1, by omega, by omega⟩
        · exact ⟨0, by omega, by omega⟩
      obtain ⟨o, ho, hoi⟩ := hoth
      have hmem : ∀ (l : List Nat) (x y k : Nat), x ∈ l.set k y → x ∈ l ∨ x = y :=
        fun l x y k h => (List.mem_or_eq_of_mem_set h)
      have hbase : Width ((List.replicate n 0).set o (2 ^ (b - 1))) b := by
        refine ⟨?_, .inr ⟨2 ^ (b - 1), List.mem_set (by simpa using ho) _, Nat.le_refl _⟩⟩
        intro x hx
        rcases hmem _ _ _ _ hx with hx | hx
        · rw [(List.mem_replicate.mp hx).2]; exact Nat.pow_pos (by omega)
        · rw [hx]; exact Nat.pow_lt_pow_right (by omega) (by omega)
      have hlen1 : ((List.replicate n 0).set o (2 ^ (b - 1))).length = n := by simp
      have hoelem : (((List.replicate n 0).set o (2 ^ (b - 1))).set i (2 ^ c))[o]? = some (2 ^ (b - 1)) := by
        rw [List.getElem?_set_ne (fun h => hoi h.symm)]
        simp [ho]
      have hset : Width (((List.replicate n 0).set o (2 ^ (b - 1))).set i (2 ^ c)) b := by
        refine ⟨?_, .inr ⟨2 ^ (b - 1), List.mem_of_getElem? hoelem, Nat.le_refl _⟩⟩
        intro x hx
        rcases hmem _ _ _ _ hx with hx | hx
        · exact hbase.1 x hx
        · rw [hx]; exact Nat.pow_lt_pow_right (by omega) hc
      generalize hbs : (List.replicate n 0).set o (2 ^ (b - 1)) = base at *
      have hw1 := (Offsets.width_eq_iff _ _).mpr hbase
      have hw2 := (Offsets.width_eq_iff _ _).mpr hset
      have hi0 : base[i]'(by omega) = 0 := by
        subst hbs
        rw [List.getElem_set_ne hoi]; simp
      have hsame := Offsets.offsetBytes_lost base i c (2 ^ c) (by omega) (by rw [hw1, hw2])
        (by
          intro d hd
          rw [hi0, Nat.testBit_two_pow]
          simp; omega)
        (by rw [hw1, hlen1, hceil]; omega)
      have heq := hinj (base.set i (2 ^ c)) base (by simpa using hlen1) hlen1 hset hbase _
        (by rw [henc _ (by simpa using hlen1), hsame]) (henc _ hlen1)
      have h2 := congrArg (fun l => l[i]?) heq
      simp only [List.getElem?_set_self (show i < base.length by omega),
        List.getElem?_eq_getElem (show i < base.length by omega), hi0, Option.some.injEq] at h2
      have := Nat.pow_pos (n := c) (show 0 < 2 by omega)
      omega
  · intro hfit xs ys hx hy wx wy bytes ex ey
    rw [henc xs hx] at ex
    rw [henc ys hy] at ey
    have hw := (Offsets.width_eq_iff _ _).mpr wx
    apply Offsets.offsetBytes_inj (h32 xs wx) (h32 ys wy) (by omega) (by omega)
    · rw [hw, hx, hceil]; exact hfit
    · simp only [Except.ok.injEq] at ex ey
      rw [ex, ey]

/-- C23 as far as it holds: one item, 128 items, no bits, 32 bits, or a number of items that fills
whole 128-bit rows. -/
theorem C23_offsets_recoverable_partial (p : Profile) (n b : Nat) (h1 : 1 ≤ n) (h128 : n ≤ 128) (hb : b ≤ 32)
    (hgood : n = 1 ∨ b = 0 ∨ (4 ∣ n ∧ 32 ∣ (n / 4) * b) ∨ b = 32)
    (xs ys : List Nat) (hx : xs.length = n) (hy : ys.length = n) (wx : Width xs b) (wy : Width ys b)
    (bytes : Bytes) (ex : encodedOffsets p xs = .ok bytes) (ey : encodedOffsets p ys = .ok bytes) : xs = ys := by
  refine (C23_offsets_recoverable_exact p n b h1 h128 hb).mpr ?_ xs ys hx hy wx wy bytes ex ey
  intro i c hi hc
  simp only [bytePos]
  rcases hgood with rfl | rfl | ⟨⟨m, rfl⟩, hd⟩ | rfl
  · have h0 : i = 0 := by omega
    subst h0
    omega
  · omega
  · have h4 : 4 * m / 4 = m := by omega
    rw [h4] at hd
    obtain ⟨q, hq⟩ := hd
    have hL : (i / 4) * b + c < m * b := by
      have : (i / 4 + 1) * b ≤ m * b := Nat.mul_le_mul_right _ (by omega)
      rw [Nat.add_mul, Nat.one_mul] at this
      omega
    have h5 : 4 * m * b = 128 * q := by rw [Nat.mul_assoc, hq]; omega
    rw [h5]
    omega
  · omega

/-- 128 items of any width are fine; so are 32 items of 4 bits. -/
example : (4 ∣ 128 ∧ 32 ∣ (128 / 4) * 17) ∧ (4 ∣ 32 ∧ 32 ∣ (32 / 4) * 4) ∧
    Width (List.replicate 127 1 ++ [9]) 4 := by
  refine ⟨⟨by decide, by decide⟩, ⟨by decide, by decide⟩, ?_⟩
  exact (Offsets.width_eq_iff _ _).mp (by decide +kernel)

/-- C24 does not hold: an empty list and any list of more than 128 items make `encode` panic. -/
theorem C24_offsets_any_count_violated (p : Profile) (xs : List Nat) (dst : Bytes)
    (h : xs.length = 0 ∨ 128 < xs.length) (hb : xs.length < 2 ^ 63) :
    ∃ e, Offsets.encode p xs dst = .error e :=
  ⟨_, Offsets.encode_err p xs dst h (by omega)⟩

example : Offsets.encode .release (List.replicate 129 1) [] = .error .assertion ∧
    Offsets.encode .release [] [] = .error .assertion := by decide +kernel

/-- C24 as far as it holds: 1 to 128 items are encoded, after whatever the destination holds, in one
byte plus `ceil(n b / 8)` bytes; and only the padding is added to the list of lengths. -/
theorem C24_offsets_any_count_partial (p : Profile) (xs : List Nat) (dst : Bytes) (b : Nat)
    (h1 : 1 ≤ xs.length) (h128 : xs.length ≤ 128) (hb : b ≤ 32) (hw : Width xs b) :
    ∃ src packed, Offsets.encode p xs dst = .ok (src, dst ++ UInt8.ofNat b :: packed) ∧
      packed.length = (xs.length * b + 7) / 8 ∧ src = xs ++ List.replicate (128 - xs.length) 0 := by
  have hwd := (Offsets.width_eq_iff _ _).mpr hw
  refine ⟨_, (Offsets.pack b (xs ++ List.replicate (128 - xs.length) 0)).take (Util.ceil8 (b * xs.length)),
    ?_, ?_, rfl⟩
  · rw [Offsets.encode_ok p xs dst h1 h128, Offsets.offsetBytes, hwd]
  · have : b * xs.length ≤ b * 128 := Nat.mul_le_mul_left _ h128
    rw [List.length_take, Offsets.pack_length, Util.ceil8_eq, Nat.mul_comm xs.length]
    omega

example : Width [5, 2, 7] 3 ∧ Offsets.encode .debug [5, 2, 7] [1, 2] =
    .ok ([5, 2, 7] ++ List.replicate 125 0, [1, 2] ++ [3, 5, 0]) := by
  refine ⟨(Offsets.width_eq_iff _ _).mp (by decide +kernel), by decide +kernel⟩

/-- The loop over the chunks is not what limits C24: for any number of chunks of 128 values it writes their packs one
after the other, and touches nothing else. It is `num_bits`, called before on the whole list, that panics. -/
theorem C24_chunk_loop (b : Nat) (cs : List (List Nat)) (hcs : ∀ c ∈ cs, c.length = 128) : ∀ (pre room post : Bytes),
    room.length = 16 * b * cs.length →
    Offsets.compressChunks b cs (pre ++ room ++ post) pre.length =
      .ok (pre ++ (cs.map (Offsets.pack b)).flatten ++ post) := by
  induction cs with
  | nil =>
    intro pre room post h
    obtain rfl : room = [] := by simpa using h
    simp [Offsets.compressChunks]
  | cons c cs ih =>
    intro pre room post h
    have hl : 16 * b * (cs.length + 1) = 16 * b * cs.length + 16 * b := by rw [Nat.mul_add, Nat.mul_one]
    rw [List.length_cons, hl] at h
    have h1 : pre.length ≤ (pre ++ room ++ post).length := by simp only [List.length_append]; omega
    have h2 : c.length = Offsets.BLOCK_LEN ∧ 16 * b ≤ (pre ++ room ++ post).length - pre.length :=
      ⟨hcs c (by simp), by simp only [List.length_append]; omega⟩
    have h3 : (pre ++ room ++ post).take pre.length = pre := by rw [List.append_assoc, List.take_left]
    have h4 : (pre ++ room ++ post).drop (pre.length + 16 * b) = room.drop (16 * b) ++ post := by
      rw [← List.drop_drop, List.append_assoc, List.drop_left, List.drop_append_of_le_length (by omega)]
    rw [Offsets.compressChunks, Offsets.compress, if_pos h1, if_pos h2, h3, h4]
    have := ih (fun c hc => hcs c (List.mem_cons_of_mem _ hc)) (pre ++ Offsets.pack b c) (room.drop (16 * b)) post
      (by rw [List.length_drop]; omega)
    simp only [List.length_append, Offsets.pack_length, List.append_assoc, List.map_cons, List.flatten_cons] at this ⊢
    exact this

example : Offsets.compressChunks 1 [List.replicate 128 1, List.replicate 128 0] (List.replicate 33 7) 1 =
    .ok ([7] ++ List.replicate 16 255 ++ List.replicate 16 0) := by decide +kernel

end Meerkat
