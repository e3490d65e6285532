import Verif.Props.PrimitiveExact
import Verif.Props.BlockSizes

set_option autoImplicit false

/-! # C70: how much more than its values a column takes -/

namespace Meerkat
open Spec Varint

theorem rleBytes_size {bits : List Bool} (hlen : bits.length < 2 ^ 64) :
    (Rle.rleBytes bits).length ≤ bits.length / 7 + 2 := by
  obtain ⟨fs, pad, g1, g2, g3, g4, _⟩ := Rle.rleBytes_frames bits hlen
  have hl := congrArg List.length g2
  simp only [Rle.bytesBits_length, List.length_append, List.length_replicate] at hl
  rw [g1]
  split at g4 <;> omega

theorem varintBytes_size {v : Nat} (h : v < 2 ^ 35) : (varintBytes v).length ≤ 5 :=
  varintBytes_length_le (by omega) (by omega)

theorem flatMap_dropTrailing_length {β : Type} (bufs : List (List (Option β))) :
    (bufs.flatMap dropTrailingNulls).length ≤ bufs.flatten.length := by
  induction bufs with
  | nil => simp
  | cons b bs ih =>
    rw [List.flatMap_cons, List.flatten_cons, List.length_append, List.length_append]
    obtain ⟨q, hq, _⟩ := dropTrailingNulls_spec b
    have := congrArg List.length hq
    simp only [List.length_append] at this
    omega

namespace PrimitiveEnc
variable {α : Type} [Element α]

theorem blockBytes_size (nullable : Bool) (rows : List (Option α)) (hlen : rows.length < 2 ^ 32) :
    (blockBytes nullable rows).length ≤ Element.size α * (valuesOf rows).length +
      (if nullable then 7 + rows.length / 7 else 5) := by
  have hv : (valuesOf rows).length ≤ rows.length := List.length_filterMap_le ..
  have h1 : (varintBytes (Element.size α * (valuesOf rows).length)).length ≤ 5 := by
    apply varintBytes_size
    rcases Element.size_eq (α := α) with h | h <;> rw [h] <;> omega
  rw [blockBytes, List.length_append, List.length_append, toByteSlice_length]
  cases nullable with
  | false => simp only [Bool.false_eq_true, if_false, List.length_nil]; omega
  | true =>
    have := rleBytes_size (bits := validityOf rows) (by rw [validityOf_length]; omega)
    rw [validityOf_length] at this
    simp only [if_true]; omega

theorem blocks_size (nullable : Bool) (L : List (List (Option α))) (hlen : ∀ g ∈ L, g.length < 2 ^ 32) :
    ((L.map (blockBytes nullable)).map List.length).sum ≤ Element.size α * (valuesOf L.flatten).length +
      (if nullable then 7 * L.length + L.flatten.length / 7 else 5 * L.length) := by
  induction L with
  | nil => simp
  | cons g L ih =>
    have h1 := blockBytes_size nullable g (hlen g (by simp))
    have h2 := ih (fun g hg => hlen g (by simp [hg]))
    simp only [List.map_cons, List.sum_cons, List.flatten_cons, valuesOf_append, List.length_append, List.length_cons,
      Nat.mul_add]
    cases nullable <;> simp only [if_true, Bool.false_eq_true, if_false] at h1 h2 ⊢ <;> omega

end PrimitiveEnc

section
open PrimitiveEnc
variable {α : Type} [Element α]

/-- C70 for primitive columns, however encoding them ends: what is written is at most the values, five bytes for each block and,
in a nullable column, two more for each block and one for every seven rows. There is at most one block besides the full ones. -/
theorem C70_primitive_overhead (p : Profile) (nullable : Bool) (m : Nat) (hm : 0 < m) (hm64 : m < 2 ^ 64)
    (hd : Element.size α ∣ m) (bufs : List (List (Option α))) (bs) (hb : buildAll nullable bufs = .ok bs)
    (hlen : rowCount bufs < 2 ^ 32 - 1) (r e blocks)
    (hrun : encodeColumn p recorder bs (Encoder.new m nullable, []) = (r, (e, blocks))) :
    (blocks.map fun x => x.2.length).sum ≤ Element.size α * (valuesOf bufs.flatten).length +
      (if nullable then 7 * blocks.length + rowCount bufs / 7 else 5 * blocks.length) ∧
    blocks.length ≤ (valuesOf bufs.flatten).length / (m / Element.size α) + 1 := by
  obtain ⟨hA, rfl⟩ := buildAll_ok hb
  have hl := rowCount_eq bufs
  have hU : U32_MAX = 2 ^ 32 - 1 := rfl
  have hc := perBlock_pos (α := α) hm
  have hnu := noUnderflow_of_dvd hm hd bufs [] (.inl rfl) (by simp)
  have hz : (Encoder.new (α := α) m nullable).numRows = 0 := rfl
  have hcount := callsOf_count hc bufs _ (Nat.le_refl _)
  rw [perBlock_div hd] at hcount
  have hrows := callsOf_rows hc bufs
  have hlenr : (callsOf (perBlock α m) [] bufs).flatten.flatten.length ≤ rowCount bufs := by
    rw [hrows, rowCount]
    exact Nat.le_trans (takeVals_prefix _ _).length_le (flatMap_dropTrailing_length bufs)
  have hvals : (valuesOf (callsOf (perBlock α m) [] bufs).flatten.flatten).length ≤ (valuesOf bufs.flatten).length := by
    rw [hrows, takeVals_values, List.length_take, flatMap_dropTrailing_values]; omega
  have key : ∀ j, ∀ B, B = (blocksOf nullable 0 (callsOf (perBlock α m) [] bufs)).take j →
      (B.map fun x => x.2.length).sum ≤ Element.size α * (valuesOf bufs.flatten).length +
      (if nullable then 7 * B.length + rowCount bufs / 7 else 5 * B.length) ∧
      B.length ≤ (valuesOf bufs.flatten).length / (m / Element.size α) + 1 := by
    intro j B hB
    rw [perBlock_div hd] at *
    generalize (callsOf (m / Element.size α) [] bufs) = cs at *
    have hmap : B.map (·.2) = (cs.flatten.take j).map (blockBytes nullable) := by
      rw [hB, List.map_take, blocksOf_data, List.map_take]
    have hBl : B.length = (cs.flatten.take j).length := by
      have := congrArg List.length hmap
      simpa only [List.length_map] using this
    have hsum : (B.map fun x => x.2.length) = ((cs.flatten.take j).map (blockBytes nullable)).map List.length := by
      rw [← hmap, List.map_map]; rfl
    have hsplit : (cs.flatten.take j).flatten ++ (cs.flatten.drop j).flatten = cs.flatten.flatten := by
      rw [← List.flatten_append, List.take_append_drop]
    have e1 := congrArg List.length hsplit
    have e2 := congrArg (fun l => (valuesOf l).length) hsplit
    simp only [valuesOf_append, List.length_append] at e1 e2
    have hs := blocks_size nullable (cs.flatten.take j) (fun g hg => by
      have hsub := (List.sublist_flatten_of_mem hg).length_le
      omega)
    rw [hsum, hBl]
    refine ⟨?_, ?_⟩
    · have : Element.size α * (valuesOf (cs.flatten.take j).flatten).length ≤
          Element.size α * (valuesOf bufs.flatten).length := Nat.mul_le_mul_left _ (by omega)
      cases nullable <;> simp only [if_true, Bool.false_eq_true, if_false] at hs ⊢ <;> omega
    · rw [List.length_take]; omega
  by_cases hok : (Encoder.new (α := α) m nullable).numRows + totalIncrements nullable (callsOf (perBlock α m) [] bufs) < 2 ^ 32
  · obtain ⟨e', h, _⟩ := encodeColumn_ok p nullable m hm hm64 bufs [] (Encoder.new m nullable) [] rfl rfl (.inl rfl) (by simp) hnu
      (by simp only [List.length_nil]; omega) (.inr (by simp only [List.length_nil]; omega)) hok
    rw [h] at hrun
    simp only [Prod.mk.injEq, List.nil_append] at hrun
    exact key _ _ (by rw [← hrun.2.2, hz, List.take_length])
  · obtain ⟨e', j, h, _⟩ := encodeColumn_err p nullable m hm hm64 bufs [] (Encoder.new m nullable) [] rfl rfl (.inl rfl) (by simp) hnu
      (by simp only [List.length_nil]; omega) (.inr (by simp only [List.length_nil]; omega)) (by rw [hz]; omega) hok
    rw [h] at hrun
    simp only [Prod.mk.injEq, List.nil_append] at hrun
    exact key j _ (by rw [← hrun.2.2, hz])

/-- Twenty rows, eighteen of them values, in blocks of two `i32`: 72 bytes of values, 27 more in nine blocks. -/
example : ∃ bs, buildAll true [(List.range 20).map fun i => if i % 9 = 8 then none else some (Int32.ofNat i)] = .ok bs ∧
    (encodeColumn .debug recorder bs (Encoder.new 8 true, [])).1 = .ok () ∧
    ((encodeColumn .debug recorder bs (Encoder.new 8 true, [])).2.2.map fun (x : Nat × Bytes) => x.2.length) =
      List.replicate 9 11 :=
  ⟨_, buildAll_of_accepts (by simp [Accepts]), by decide +kernel, by decide +kernel⟩

end

namespace BinaryEnc

theorem offsetBytes_size {xs : List Nat} (h : ∀ x ∈ xs, x < 2 ^ 32) : (Offsets.offsetBytes xs).length ≤ 1 + 4 * xs.length := by
  have hw := Offsets.width_le_32 h
  have h8 : Util.ceil8 (Offsets.width xs * xs.length) ≤ 4 * xs.length := by
    have := Nat.mul_le_mul_right xs.length hw
    rw [Util.ceil8]
    split <;> omega
  rw [Offsets.offsetBytes, List.length_cons, List.length_take]
  omega

theorem blockBytes_size (nullable : Bool) (rows : List (Option Bytes)) (hlen : rows.length < 2 ^ 32)
    (hbytes : byteCount rows < 2 ^ 32) :
    (blockBytes nullable rows).length ≤ byteCount rows + 4 * (valuesOf rows).length +
      (if nullable then 8 + rows.length / 7 else 6) := by
  have h1 : (varintBytes (byteCount rows)).length ≤ 5 := varintBytes_size (by omega)
  have h2 := offsetBytes_size (xs := (valuesOf rows).map List.length) (fun x hx => by
    obtain ⟨v, hv, rfl⟩ := List.mem_map.mp hx
    have := (List.sublist_flatten_of_mem hv).length_le
    rw [byteCount] at hbytes
    omega)
  rw [List.length_map] at h2
  have h3 : (valuesOf rows).flatten.length = byteCount rows := rfl
  rw [blockBytes, List.length_append, List.length_append, List.length_append, h3]
  cases nullable with
  | false => simp only [Bool.false_eq_true, if_false, List.length_nil]; omega
  | true =>
    have := rleBytes_size (bits := validityOf rows) (by rw [validityOf_length]; omega)
    rw [validityOf_length] at this
    simp only [if_true]; omega

theorem blocks_size (nullable : Bool) (L : List (List (Option Bytes)))
    (hlen : ∀ g ∈ L, g.length < 2 ^ 32 ∧ byteCount g < 2 ^ 32) :
    ((L.map (blockBytes nullable)).map List.length).sum ≤ byteCount L.flatten + 4 * (valuesOf L.flatten).length +
      (if nullable then 8 * L.length + L.flatten.length / 7 else 6 * L.length) := by
  induction L with
  | nil => simp
  | cons g L ih =>
    have h1 := blockBytes_size nullable g (hlen g (by simp)).1 (hlen g (by simp)).2
    have h2 := ih (fun g hg => hlen g (by simp [hg]))
    simp only [List.map_cons, List.sum_cons, List.flatten_cons, valuesOf_append, List.length_append, List.length_cons,
      byteCount_append]
    cases nullable <;> simp only [if_true, Bool.false_eq_true, if_false] at h1 h2 ⊢ <;> omega

theorem fillGroups_count {m : Nat} {nullable : Bool} (bufs : List (List (Option Bytes))) : ∀ stale held,
    byteCount held < m → Manageable m nullable stale held bufs →
    m * (fillGroups m held bufs).length ≤ byteCount (fillGroups m held bufs).flatten + m := by
  induction bufs with
  | nil =>
    intro stale held _ _
    simp only [fillGroups]
    split <;> simp
  | cons b bufs ih =>
    intro stale held hlt hman
    obtain ⟨h1, _, _, h4⟩ := hman
    have h := ih _ _ (fillStep_small hlt h1) h4
    have hv := fillStep_values (b := b) hlt
    have hone : (fillStep m held b).1 = [] ∨ ∃ g, (fillStep m held b).1 = [g] := by
      simp only [fillStep]; split <;> simp
    simp only [fillGroups]
    rcases hone with hg | ⟨g, hg⟩
    · rw [hg, List.nil_append]; exact h
    · have := (hv g (by simp [hg])).2
      rw [hg, List.singleton_append, List.length_cons, List.flatten_cons, byteCount_append, Nat.mul_add]
      omega

end BinaryEnc

section
open BinaryEnc

/-- C70 for binary columns, as far as it holds: for the histories the encoder handles, what is written is at most the bytes of
the items, four bytes for each item, six bytes for each block and, in a nullable column, two more for each block and one for
every seven rows. There is at most one block besides those of `m` bytes. -/
theorem C70_binary_overhead_partial (p : Profile) (nullable : Bool) (m : Nat) (hm : 0 < m)
    (bufs : List (List (Option Bytes))) (bs) (hb : buildBinary nullable bufs = .ok bs)
    (hlen : bufs.flatten.length < 2 ^ 32 - 7) (hm32 : m ≤ U32_MAX)
    (hman : Manageable m nullable [] [] bufs) (r e blocks)
    (hrun : encodeColumn p recorder bs (Encoder.new m nullable, []) = (r, (e, blocks))) :
    (blocks.map fun x => x.2.length).sum ≤ byteCount bufs.flatten + 4 * (valuesOf bufs.flatten).length +
      (if nullable then 8 * blocks.length + bufs.flatten.length / 7 else 6 * blocks.length) ∧
    blocks.length ≤ byteCount bufs.flatten / m + 1 := by
  obtain ⟨e', h⟩ := binary_run p hm hb (by omega) hm32 hman
  rw [h] at hrun
  simp only [Prod.mk.injEq] at hrun
  obtain ⟨_, _, rfl⟩ := hrun
  have hg := group_facts hb hlen hm hm32 hman
  have hs := blocks_size nullable (fillGroups m [] bufs) (fun g hgm => by
    obtain ⟨_, _, h3, h4, _⟩ := hg g hgm
    exact ⟨by omega, h4⟩)
  have hc := fillGroups_count bufs [] [] (by simpa [byteCount, valuesOf] using hm) hman
  have hrows := fillGroups_rows m bufs [] (.inl rfl)
  rw [List.nil_append] at hrows
  have hv : valuesOf (fillGroups m [] bufs).flatten = valuesOf bufs.flatten := by rw [hrows, flatMap_dropTrailing_values]
  have hbc : byteCount (fillGroups m [] bufs).flatten = byteCount bufs.flatten := by rw [byteCount, hv, byteCount]
  have hr := flatMap_dropTrailing_length bufs
  rw [hv, hbc, hrows] at hs
  have hmap := blocksOf_data nullable 0 (fillGroups m [] bufs)
  have hbl : (blocksOf nullable 0 (fillGroups m [] bufs)).length = (fillGroups m [] bufs).length := by
    have := congrArg List.length hmap
    simpa only [List.length_map] using this
  have hsum : ((blocksOf nullable 0 (fillGroups m [] bufs)).map fun x => x.2.length) =
      ((fillGroups m [] bufs).map (blockBytes nullable)).map List.length := by
    rw [← hmap, List.map_map]; rfl
  rw [hsum, hbl]
  refine ⟨?_, ?_⟩
  · cases nullable <;> simp only [if_true, Bool.false_eq_true, if_false] at hs ⊢ <;> omega
  · rw [hbc] at hc
    have : (fillGroups m [] bufs).length - 1 ≤ byteCount bufs.flatten / m := by
      rw [Nat.le_div_iff_mul_le hm, Nat.mul_comm, Nat.mul_sub]
      omega
    omega

/-- Four items in two buffers: six bytes of items, ten bytes of block headers, lengths and bitmaps. -/
example : Manageable 4 true [] [] [[some [1, 2], none, some []], [none, some [3, 4, 5], some [6]]] ∧
    ((BinaryEnc.encodeColumn .debug recorder
      ([[some [1, 2], none, some []], [none, some [3, 4, 5], some [6]]].map (BinaryBuffer.ofRows true))
      (Encoder.new 4 true, [])).2.2.map fun (x : Nat × Bytes) => x.2.length) = [10, 6] :=
  ⟨by decide, by decide +kernel⟩

/-- Items as in a binary heap: one of 128 bytes, two of 64, four of 32, eight of 16. -/
def heapItems : List (Option Bytes) :=
  (List.range 4).flatMap fun l => List.replicate (2 ^ l) (some (List.replicate (2 ^ (7 - l)) 0x61))

/-- Number and total size of the blocks written for a column, with blocks of 128 bytes. -/
def written (p : Profile) (nullable : Bool) (bufs : List (List (Option Bytes))) : Option (Nat × Nat) :=
  match buildBinary nullable bufs with
  | .error _ => none
  | .ok bs =>
    match encodeColumn p recorder bs (Encoder.new 128 nullable, []) with
    | (.ok (), (_, (blocks : List (Nat × Bytes)))) => some (blocks.length, (blocks.map fun x => x.2.length).sum)
    | _ => none

/-- C70 fails for other histories: a buffer of 15 items with 512 bytes in all is written, at the block size of the segment
writer, as nine blocks with more than twice as many bytes. -/
theorem C70_binary_overhead_violated (p : Profile) :
    byteCount heapItems = 512 ∧ heapItems.length = 15 ∧ written p false [heapItems] = some (9, 1175) := by
  refine ⟨by decide +kernel, by decide +kernel, ?_⟩
  cases p <;> decide +kernel

end

end Meerkat
