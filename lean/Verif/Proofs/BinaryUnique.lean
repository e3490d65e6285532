import Verif.Proofs.BinaryBlock

set_option autoImplicit false

/-! # The bytes of a nullable block determine its rows -/

namespace Meerkat.Rle
open Spec Varint

theorem varintBytes_head {v : Nat} (h : 0 < v) : ∃ b t, varintBytes v = b :: t ∧ b ≠ 0 := by
  by_cases hv : v < 128
  · refine ⟨_, [], varintBytes_lt hv, fun h0 => ?_⟩
    have := congrArg UInt8.toNat h0
    rw [UInt8.toNat_ofNat'] at this
    simp at this
    omega
  · refine ⟨_, _, varintBytes_ge (by omega), fun h0 => ?_⟩
    have := congrArg UInt8.toNat h0
    rw [UInt8.toNat_ofNat'] at this
    simp at this
    omega

/-- The encoding of at least one bit does not begin with a zero byte. -/
theorem rleBytes_head {bits : List Bool} (hne : bits ≠ []) (hlen : bits.length < 2 ^ 64) :
    ∃ b t, rleBytes bits = b :: t ∧ b ≠ 0 := by
  obtain ⟨fs, pad, h1, h2, _, _, h5⟩ := rleBytes_frames bits hlen
  cases fs with
  | nil =>
    have := congrArg List.length h2
    have := List.length_pos_iff.2 hne
    simp only [bytesBits_length, List.length_append, expandAll_nil, List.length_nil] at *
    omega
  | cons f fs =>
    have hf := h5 f (by simp)
    have key : ∃ b t, f.bytes = b :: t ∧ b ≠ 0 := by
      cases f with
      | run n b =>
        have hn : 0 < n := Nat.pos_of_ne_zero fun h0 => hf (by simp [Frame.expand, h0])
        obtain ⟨x, t, hx, hx0⟩ := varintBytes_head (v := 2 * n) (by omega)
        exact ⟨x, t ++ [b], by rw [Frame.bytes, hx]; rfl, hx0⟩
      | bitmap bs =>
        obtain ⟨x, t, hx, hx0⟩ := varintBytes_head (v := 2 * bs.length + 1) (by omega)
        exact ⟨x, t ++ bs, by rw [Frame.bytes, hx]; rfl, hx0⟩
    obtain ⟨b, t, hb, hb0⟩ := key
    exact ⟨b, t ++ bytesAll fs, by rw [h1, bytesAll, List.flatMap_cons, hb]; rfl, hb0⟩

/-- The encoding determines the number of set bits. -/
theorem rleBytes_count {a b : List Bool} (ha : a.length < 2 ^ 32 - 7) (hb : b.length < 2 ^ 32 - 7)
    (h : rleBytes a = rleBytes b) : a.count true = b.count true := by
  have l1 : a.count true ≤ (List.replicate (a.length + b.length) 0).length := by
    have := List.count_le_length (a := true) (l := a); simp; omega
  have l2 : b.count true ≤ (List.replicate (a.length + b.length) 0).length := by
    have := List.count_le_length (a := true) (l := b); simp; omega
  obtain ⟨d1, h1, _⟩ := Decoder.decode_rleBytes .debug a _ ha l1
  obtain ⟨d2, h2, _⟩ := Decoder.decode_rleBytes .debug b _ hb l2
  rw [h, h2] at h1
  exact (Prod.mk.inj (Except.ok.inj h1)).2.symm

end Meerkat.Rle

namespace Meerkat.BinaryEnc
open Spec Varint Offsets

theorem natOfBits_mono {f g : Nat → Bool} {b : Nat} (h : ∀ c, f c = true → g c = true) :
    natOfBits f b ≤ natOfBits g b := by
  induction b with
  | zero => exact Nat.le_refl _
  | succ b ih =>
    rw [natOfBits, natOfBits]
    have := h b
    cases hf : f b with
    | false => simp; omega
    | true => rw [this hf]; simp; exact ih

/-- The lengths, padded with zeros to a whole pack. -/
def padded (xs : List Nat) : List Nat := xs ++ List.replicate (128 - xs.length) 0

theorem padded_length {xs : List Nat} (h : xs.length ≤ 128) : (padded xs).length = 128 := by
  simp [padded]; omega

theorem padded_getD (xs : List Nat) (i : Nat) : (padded xs).getD i 0 = xs.getD i 0 := by
  simp only [padded, List.getD_eq_getElem?_getD]
  by_cases h : i < xs.length
  · rw [List.getElem?_append_left h]
  · rw [List.getElem?_append_right (by omega), List.getElem?_eq_none (l := xs) (by omega), List.getElem?_replicate]
    split <;> rfl

theorem padded_sum (xs : List Nat) : (padded xs).sum = xs.sum := by
  simp [padded, List.sum_append]

/-- The kept bytes give back all the padded lengths. -/
theorem unpack_padded (xs : List Nat) (h128 : xs.length ≤ 128) (hr : ReadableLengths xs) :
    unpack (width xs) 128 ((pack (width xs) (padded xs)).take ((xs.length * width xs + 7) / 8)) = padded xs := by
  obtain ⟨b, hw, hfit⟩ := hr
  have hb := (width_eq_iff xs b).mpr hw
  subst hb
  apply List.ext_getElem
  · simp [unpack, padded_length h128]
  · intro i h1 h2
    have hi : i < 128 := by simpa [padded_length h128] using h2
    simp only [unpack, List.getElem_map, List.getElem_range]
    have hgd : (padded xs).getD i 0 = (padded xs)[i] := by simp [h2]
    have hgx : xs.getD i 0 = (padded xs)[i] := by rw [← padded_getD, hgd]
    have hx : (padded xs)[i] < 2 ^ width xs := by
      rw [← hgx, List.getD_eq_getElem?_getD]
      cases he : xs[i]? with
      | none => exact Nat.two_pow_pos _
      | some x => exact hw.1 _ (List.mem_of_getElem? he)
    rw [natOfBits_congr (g := (padded xs)[i].testBit), natOfBits_testBit, Nat.mod_eq_of_lt hx]
    intro c hc
    have hp := bytePos_lt (width xs) i c hi hc
    by_cases hlt : bytePos (width xs) i c < (xs.length * width xs + 7) / 8
    · have hget : (List.take ((xs.length * width xs + 7) / 8) (pack (width xs) (padded xs)))[bytePos (width xs) i c]? =
          some (byteOf (packBit (width xs) (padded xs) (bytePos (width xs) i c))) := by
        rw [List.getElem?_take_of_lt hlt]
        simp [pack, hp]
      rw [List.getD_eq_getElem?_getD, hget, Option.getD_some, byteOf_testBit _ (by omega),
        packBit_bytePos _ _ _ _ hc, hgd]
    · have hnb : (padded xs)[i].testBit c = false := by
        cases hbit : (padded xs)[i].testBit c with
        | false => rfl
        | true =>
          have hix : i < xs.length := Classical.byContradiction fun hn => by
            rw [List.getD_eq_getElem?_getD, List.getElem?_eq_none (by omega)] at hgx
            rw [← hgx] at hbit
            simp at hbit
          exact absurd (hfit i c hix (by rw [hgx]; exact hbit)) hlt
      rw [List.getD_eq_getElem?_getD, List.getElem?_eq_none (by rw [List.length_take]; omega), hnb]
      simp

/-- The first byte dropped would have been zero. -/
theorem dropped_zero (xs : List Nat) (hr : ReadableLengths xs) {k : Nat} (hk : (xs.length * width xs + 7) / 8 ≤ k)
    (hk2 : k < 16 * width xs) : (pack (width xs) (padded xs))[k]? = some 0 := by
  obtain ⟨b, hw, hfit⟩ := hr
  have hb := (width_eq_iff xs b).mpr hw
  subst hb
  have hw0 : 0 < width xs := by omega
  have h0 : ∀ s, s < 8 → packBit (width xs) (padded xs) k s = (fun _ => false) s := by
    intro s hs
    simp only [packBit]
    cases hbit : ((padded xs).getD (4 * ((32 * (k / 16) + 8 * (k % 4) + s) / width xs) + k % 16 / 4) 0).testBit
        ((32 * (k / 16) + 8 * (k % 4) + s) % width xs) with
    | false => rfl
    | true =>
      rw [padded_getD] at hbit
      generalize hl : 32 * (k / 16) + 8 * (k % 4) + s = l at hbit
      have hdm := Nat.div_add_mod l (width xs)
      have hix : 4 * (l / width xs) + k % 16 / 4 < xs.length := Classical.byContradiction fun hn => by
        rw [List.getD_eq_getElem?_getD, List.getElem?_eq_none (by omega)] at hbit
        simp at hbit
      have h1 := hfit _ _ hix hbit
      have h2 : bytePos (width xs) (4 * (l / width xs) + k % 16 / 4) (l % width xs) = k := by
        simp only [bytePos]
        have e1 : (4 * (l / width xs) + k % 16 / 4) / 4 = l / width xs := by omega
        have e2 : (4 * (l / width xs) + k % 16 / 4) % 4 = k % 16 / 4 := by omega
        rw [e1, e2, Nat.mul_comm (l / width xs), hdm]
        omega
      omega
  simp only [pack, List.getElem?_map, List.getElem?_range hk2, Option.map_some]
  rw [byteOf_congr h0]
  rfl

theorem eq_of_le_of_sum {as bs : List Nat} (hl : as.length = bs.length)
    (hle : ∀ i (h1 : i < as.length) (h2 : i < bs.length), as[i] ≤ bs[i]) (hsum : as.sum = bs.sum) : as = bs := by
  have key : ∀ (as bs : List Nat), as.length = bs.length →
      (∀ i (h1 : i < as.length) (h2 : i < bs.length), as[i] ≤ bs[i]) → as.sum ≤ bs.sum ∧ (as.sum = bs.sum → as = bs) := by
    intro as
    induction as with
    | nil => intro bs hl _; cases bs with
      | nil => exact ⟨Nat.le_refl _, fun _ => rfl⟩
      | cons b bs => simp at hl
    | cons a as ih =>
      intro bs hl hle
      cases bs with
      | nil => simp at hl
      | cons b bs =>
        have h0 := hle 0 (by simp) (by simp)
        obtain ⟨i1, i2⟩ := ih bs (by simpa using hl) fun i h1 h2 => by
          exact hle (i + 1) (Nat.succ_lt_succ h1) (Nat.succ_lt_succ h2)
        simp only [List.getElem_cons_zero, List.sum_cons] at h0 ⊢
        exact ⟨by omega, fun h => by rw [i2 (by omega), show a = b by omega]⟩
  exact (key as bs hl hle).2 hsum

/-- Two lists of lengths with the same sum, packed and followed by any bytes: they are the same up to zeros at the end. -/
theorem packed_padded {xs ys : List Nat} {r1 r2 : Bytes} (hx : xs.length ≤ 128) (hy : ys.length ≤ 128)
    (rx : ReadableLengths xs) (ry : ReadableLengths ys) (hw : width xs = width ys) (hsum : xs.sum = ys.sum)
    (hle : xs.length ≤ ys.length)
    (h : (pack (width xs) (padded xs)).take ((xs.length * width xs + 7) / 8) ++ r1 =
      (pack (width ys) (padded ys)).take ((ys.length * width ys + 7) / 8) ++ r2) : padded xs = padded ys := by
  rw [← hw] at h
  have hk : (xs.length * width xs + 7) / 8 ≤ (ys.length * width xs + 7) / 8 := by
    have := Nat.mul_le_mul_right (width xs) hle
    omega
  have hk2 : (ys.length * width xs + 7) / 8 ≤ 16 * width xs := by
    have := Nat.mul_le_mul_right (width xs) hy
    omega
  have ux := unpack_padded xs hx rx
  have uy := unpack_padded ys hy ry
  rw [← hw] at uy
  generalize hk1 : (xs.length * width xs + 7) / 8 = k1 at *
  generalize hk2 : (ys.length * width xs + 7) / 8 = k2 at *
  have lp1 : ((pack (width xs) (padded xs)).take k1).length = k1 := by simp; omega
  have lp2 : ((pack (width xs) (padded ys)).take k2).length = k2 := by simp; omega
  have hpre : (pack (width xs) (padded xs)).take k1 = ((pack (width xs) (padded ys)).take k2).take k1 := by
    have h1 := congrArg (List.take k1) h
    rw [List.take_append_of_le_length (by omega), List.take_append_of_le_length (by omega),
      List.take_of_length_le (by omega)] at h1
    exact h1
  apply eq_of_le_of_sum (by rw [padded_length hx, padded_length hy]) _ (by rw [padded_sum, padded_sum, hsum])
  intro i h1 h2
  have e1 : (padded xs)[i] = (unpack (width xs) 128 ((pack (width xs) (padded xs)).take k1))[i]'(by
      rw [ux]; exact h1) := by simp only [ux]
  have e2 : (padded ys)[i] = (unpack (width xs) 128 ((pack (width xs) (padded ys)).take k2))[i]'(by
      rw [uy]; exact h2) := by simp only [uy]
  rw [e1, e2]
  simp only [unpack, List.getElem_map, List.getElem_range]
  apply natOfBits_mono
  intro c
  rw [hpre]
  generalize (pack (width xs) (padded ys)).take k2 = q
  simp only [List.getD_eq_getElem?_getD, List.getElem?_take]
  split
  · exact id
  · intro hc; simp at hc

/-- Two lists of lengths with the same sum, packed and followed by bytes of which the first is not zero. -/
theorem packed_count {xs ys : List Nat} {r1 r2 : Bytes} (hx : xs.length ≤ 128) (hy : ys.length ≤ 128)
    (rx : ReadableLengths xs) (ry : ReadableLengths ys) (hw : width xs = width ys) (hsum : xs.sum = ys.sum)
    (hle : xs.length ≤ ys.length) (hr1 : ∃ b t, r1 = b :: t ∧ b ≠ 0)
    (h : (pack (width xs) (padded xs)).take ((xs.length * width xs + 7) / 8) ++ r1 =
      (pack (width ys) (padded ys)).take ((ys.length * width ys + 7) / 8) ++ r2) : r1 = r2 := by
  have hpad := packed_padded hx hy rx ry hw hsum hle h
  rw [← hw, ← hpad] at h
  have hk : (xs.length * width xs + 7) / 8 ≤ (ys.length * width xs + 7) / 8 := by
    have := Nat.mul_le_mul_right (width xs) hle
    omega
  have hk2 : (ys.length * width xs + 7) / 8 ≤ 16 * width xs := by
    have := Nat.mul_le_mul_right (width xs) hy
    omega
  by_cases heq : (xs.length * width xs + 7) / 8 = (ys.length * width xs + 7) / 8
  · rw [heq] at h
    exact List.append_cancel_left h
  · exfalso
    obtain ⟨b, t, rfl, hb⟩ := hr1
    have h1 := congrArg (fun l => l[(xs.length * width xs + 7) / 8]?) h
    have lp1 : ((pack (width xs) (padded xs)).take ((xs.length * width xs + 7) / 8)).length =
        (xs.length * width xs + 7) / 8 := by simp; omega
    have lp2 : ((pack (width xs) (padded xs)).take ((ys.length * width xs + 7) / 8)).length =
        (ys.length * width xs + 7) / 8 := by simp; omega
    rw [List.getElem?_append_right (by omega), lp1, Nat.sub_self, List.getElem?_cons_zero,
      List.getElem?_append_left (by omega), List.getElem?_take_of_lt (by omega),
      dropped_zero xs rx (by omega) (by omega)] at h1
    exact hb (Option.some.inj h1)

theorem sum_lengths (vs : List Bytes) : (vs.map List.length).sum = vs.flatten.length := by
  induction vs with
  | nil => rfl
  | cons v vs ih => rw [List.map_cons, List.sum_cons, List.flatten_cons, List.length_append, ih]

theorem lengths_small {rows : List (Option Bytes)} (hsize : byteCount rows < 2 ^ 32) :
    ∀ x ∈ (valuesOf rows).map List.length, x < 2 ^ 32 := by
  intro x hx
  obtain ⟨v, hv, rfl⟩ := List.mem_map.mp hx
  have := (List.sublist_flatten_of_mem hv).length_le
  unfold byteCount at hsize
  omega

/-- What the reader needs to know of a group of rows. -/
structure Group (nullable : Bool) (g : List (Option Bytes)) : Prop where
  ends : EndsWithValue g
  accepts : Accepts nullable g
  len : g.length < 2 ^ 32 - 7
  size : byteCount g < 2 ^ 32
  count : (valuesOf g).length ≤ 128
  readable : ReadableLengths ((valuesOf g).map List.length)

/-- The bytes of a nullable block determine the number of its items. -/
theorem blockBytes_count {g1 g2 : List (Option Bytes)} (n1 : g1 ≠ []) (n2 : g2 ≠ []) (h1 : Group true g1)
    (h2 : Group true g2) (h : blockBytes true g1 = blockBytes true g2) :
    (valuesOf g1).length = (valuesOf g2).length := by
  have hd := blockData_blockBytes .debug true g1 h1.size
  rw [h, blockData_blockBytes .debug true g2 h2.size] at hd
  have hd := (Option.some.inj hd).symm
  have hbc : byteCount g1 = byteCount g2 := by rw [byteCount, byteCount, hd]
  simp only [blockBytes, hbc, hd, List.append_assoc, if_true] at h
  have h := List.append_cancel_left (List.append_cancel_left h)
  simp only [offsetBytes, List.cons_append, List.cons.injEq] at h
  obtain ⟨hw, hrest⟩ := h
  have w1 := width_le_32 (lengths_small h1.size)
  have w2 := width_le_32 (lengths_small h2.size)
  have hw : width ((valuesOf g1).map List.length) = width ((valuesOf g2).map List.length) := by
    have h3 := congrArg UInt8.toNat hw
    simp at h3
    omega
  have hsum : ((valuesOf g1).map List.length).sum = ((valuesOf g2).map List.length).sum := by
    rw [sum_lengths, sum_lengths, hd]
  have hv : ∀ {g : List (Option Bytes)}, g ≠ [] → validityOf g ≠ [] := by
    intro g hne h0
    exact hne (List.map_eq_nil_iff.1 h0)
  have hl : ∀ {g : List (Option Bytes)}, Group true g → (validityOf g).length < 2 ^ 32 - 7 := by
    intro g hg
    simpa [validityOf] using hg.len
  have hr : Rle.rleBytes (validityOf g1) = Rle.rleBytes (validityOf g2) := by
    simp only [Util.ceil8_eq] at hrest
    rw [Nat.mul_comm (width _), Nat.mul_comm (width _)] at hrest
    rcases Nat.le_total (valuesOf g1).length (valuesOf g2).length with hle | hle
    · exact packed_count (by simpa using h1.count) (by simpa using h2.count) h1.readable h2.readable hw hsum
        (by simpa using hle) (Rle.rleBytes_head (hv n1) (by have := hl h1; omega)) hrest
    · exact (packed_count (by simpa using h2.count) (by simpa using h1.count) h2.readable h1.readable hw.symm hsum.symm
        (by simpa using hle) (Rle.rleBytes_head (hv n2) (by have := hl h2; omega)) hrest.symm).symm
  have := Rle.rleBytes_count (hl h1) (hl h2) hr
  rwa [count_validityOf, count_validityOf] at this

/-- The bytes of a nullable block determine its rows. -/
theorem blockBytes_inj {g1 g2 : List (Option Bytes)} (n1 : g1 ≠ []) (n2 : g2 ≠ []) (h1 : Group true g1)
    (h2 : Group true g2) (h : blockBytes true g1 = blockBytes true g2) : g1 = g2 := by
  have q1 := readBinary_blockBytes .debug true g1 h1.ends h1.accepts h1.len h1.size h1.count h1.readable
  have q2 := readBinary_blockBytes .debug true g2 h2.ends h2.accepts h2.len h2.size h2.count h2.readable
  rw [blockBytes_count n1 n2 h1 h2 h, h, q2] at q1
  exact (Option.some.inj q1).symm

end Meerkat.BinaryEnc
