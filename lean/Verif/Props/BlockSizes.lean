import Verif.Proofs.BinarySizes
import Verif.Props.EncodingChoice

set_option autoImplicit false

/-! # How large the data blocks of a segment are (C66) -/

namespace Meerkat
open Spec BinaryEnc

theorem mem_valuesOf_flatten {bufs : List (List (Option Bytes))} {b : List (Option Bytes)} {v : Bytes} (hb : b ∈ bufs)
    (hv : v ∈ valuesOf b) : v ∈ valuesOf bufs.flatten := by
  simp only [valuesOf, List.mem_filterMap, id] at hv ⊢
  obtain ⟨o, h1, h2⟩ := hv
  exact ⟨o, List.mem_flatten.mpr ⟨b, hb, h1⟩, h2⟩

theorem valuesOf_flatten_length (l : List (List (Option Bytes))) : (l.map valuesOf).flatten.length ≤ l.flatten.length := by
  induction l with
  | nil => simp
  | cons a l ih =>
    rw [List.map_cons, List.flatten_cons, List.flatten_cons, List.length_append, List.length_append]
    have : (valuesOf a).length ≤ a.length := List.length_filterMap_le ..
    omega

/-- The sizes of the blocks of a binary column, for any block size, however the run ends: all blocks but the last have
at least the block size, and none has as much as the block size and the longest value. -/
theorem C66_binary_sizes (p q : Profile) (nullable : Bool) (m : Nat) (hm : 0 < m) (hm64 : m < 2 ^ 64)
    (bufs : List (List (Option Bytes))) (bs) (hb : buildBinary nullable bufs = .ok bs)
    (hlen : bufs.flatten.length < 2 ^ 63) (L : Nat) (hL : ∀ v ∈ valuesOf bufs.flatten, v.length ≤ L) (r e blocks)
    (hrun : encodeColumn p recorder bs (Encoder.new m nullable, []) = (r, (e, blocks))) :
    (∀ x ∈ blocks, ∃ d, blockData q x.2 = some d ∧ d.length < m + L) ∧
    (∀ x ∈ blocks.dropLast, ∃ d, blockData q x.2 = some d ∧ m ≤ d.length) := by
  have hlow := (C36_binary_leftovers p q nullable m hm bufs bs hb).2 hlen
  obtain ⟨_, hd, rfl⟩ := buildBinary_ok hb
  have hnew : Items (Encoder.new m nullable).remaining [] := by
    have := (holds_ofRows nullable []).items
    rw [← BinaryBuffer.new_eq] at this
    exact this
  have hU : U32_MAX = 2 ^ 32 - 1 := rfl
  have hvl := valuesOf_flatten_length bufs
  have hzip : (bufs.map (BinaryBuffer.ofRows nullable)).length = (bufs.map valuesOf).length ∧
      ∀ x ∈ (bufs.map (BinaryBuffer.ofRows nullable)).zip (bufs.map valuesOf), Items x.1 x.2 := by
    refine ⟨by simp, ?_⟩
    intro x hx
    rw [List.zip_map'] at hx
    obtain ⟨rows, _, rfl⟩ := List.mem_map.mp hx
    exact (holds_ofRows nullable rows).items
  have hdl : ∀ b ∈ bufs.map valuesOf, b.flatten.length < 2 ^ 64 := by
    intro b hb
    obtain ⟨rows, hr, rfl⟩ := List.mem_map.mp hb
    have := hd rows hr
    unfold byteCount at this
    omega
  obtain ⟨new, h1, h2⟩ := encodeAll_sizes p q m hm (bufs.map valuesOf) (bufs.map (BinaryBuffer.ofRows nullable)) hzip hdl L
    (by
      intro b hb v hv
      obtain ⟨rows, hr, rfl⟩ := List.mem_map.mp hb
      exact hL v (mem_valuesOf_flatten hr hv))
    [] (Encoder.new m nullable) [] rfl hnew (by rw [List.length_nil]; omega) (by simpa using hm)
  rw [encodeColumn, Run.bind_apply] at hrun
  rcases ha : encodeAll p recorder (bufs.map (BinaryBuffer.ofRows nullable)) (Encoder.new m nullable, []) with ⟨r1, e1, l1⟩
  rw [ha] at h1 hrun hlow
  simp only [List.nil_append] at h1 hlow
  subst h1
  cases r1 with
  | error x =>
    simp only [Prod.mk.injEq] at hrun
    obtain ⟨_, _, rfl⟩ := hrun
    exact ⟨h2, fun x hx => hlow x (List.dropLast_subset _ hx)⟩
  | ok r1 =>
    obtain ⟨held', hi⟩ : ∃ held', Items e1.remaining held' ∧ held'.length < 2 ^ 63 ∧ held'.flatten.length < m := by
      obtain ⟨_, held1, k1, k2⟩ := encodeAll_small p recorder m hm _ [] (Encoder.new m nullable) [] e1 l1
        (by
          intro b hb
          obtain ⟨rows, _, rfl⟩ := List.mem_map.mp hb
          exact ⟨_, (holds_ofRows nullable rows).items⟩) rfl hnew (by simpa using hm) ha
      obtain ⟨held2, k3, k4⟩ := encodeAll_items p recorder (bufs.map valuesOf) _ hzip [] (Encoder.new m nullable, []) hnew (by rw [ha])
      rw [ha] at k3
      simp only [List.length_nil, Nat.zero_add] at k4
      exact ⟨held2, k3, by omega, by rw [← k3.data]; rw [← k1.data] at k2; exact k2⟩
    simp only [flush, Run.bind_apply, Run.get_apply] at hrun
    by_cases h0 : e1.remaining.len > 0
    · rw [if_pos h0] at hrun
      obtain ⟨new2, g1, g2⟩ := writeRemaining_blocks p q e1 l1 held' hi.1 hi.2.1 (by omega)
      have hone := writeRemaining_one p e1 l1
      rcases hw : writeRemaining p recorder (e1, l1) with ⟨r2, e2, l2⟩
      rw [hw] at g1 hone
      simp only at g1 hone
      have hbl : blocks = l2 := by
        rw [Run.bind_apply, hw] at hrun
        cases r2 with
        | error x => exact ((Prod.mk.inj (Prod.mk.inj hrun).2).2).symm
        | ok x => exact ((Prod.mk.inj (Prod.mk.inj hrun).2).2).symm
      subst hbl
      refine ⟨fun x hx => ?_, fun x hx => ?_⟩
      · rw [g1] at hx
        rcases List.mem_append.mp hx with hx | hx
        · exact h2 x hx
        · obtain ⟨d, d1, d2⟩ := g2 x hx
          exact ⟨d, d1, by omega⟩
      · apply hlow x
        rcases hone with h | ⟨y, h⟩
        · rw [h] at hx; exact List.dropLast_subset _ hx
        · rw [h, List.dropLast_concat] at hx; exact hx
    · rw [if_neg h0] at hrun
      simp only [Run.pure_apply, Prod.mk.injEq] at hrun
      obtain ⟨_, _, rfl⟩ := hrun
      exact ⟨h2, fun x hx => hlow x (List.dropLast_subset _ hx)⟩

/-- C66 as far as it holds: with 128 **bytes** in place of 128 KiB. All blocks of a raw column of a segment but the last
have at least 128 bytes of values, and none has as much as 128 bytes and the longest value. -/
theorem C66_block_sizes_partial (p q : Profile) (ci : ColumnInfo) (hraw : ci.encoding = .raw)
    (bufs : List (List (Option Bytes))) (bs) (hb : buildBinary ci.nullable bufs = .ok bs)
    (hlen : bufs.flatten.length < 2 ^ 63) (L : Nat) (hL : ∀ v ∈ valuesOf bufs.flatten, v.length ≤ L) :
    (∀ x ∈ blocksAlone p ci (writeAllOps bs), ∃ d, blockData q x.2 = some d ∧ d.length < 128 + L) ∧
    (∀ x ∈ (blocksAlone p ci (writeAllOps bs)).dropLast, ∃ d, blockData q x.2 = some d ∧ 128 ≤ d.length) := by
  rw [blocksAlone_raw p hraw]
  rcases h : encodeColumn p recorder bs (Encoder.new BLOCK_SIZE ci.nullable, []) with ⟨r, e, blocks⟩
  exact C66_binary_sizes p q ci.nullable BLOCK_SIZE (by decide) (by decide) bufs bs hb hlen L hL r e blocks h

/-- Values of 100, 40 and 127 bytes. -/
def exampleSizes : List (List (Option Bytes)) :=
  [[some (List.replicate 100 1), none], [some (List.replicate 40 2), none, some (List.replicate 127 3)]]

/-- Two values of 128 bytes. -/
def smallBlocks : List (List (Option Bytes)) := [[some (List.replicate 128 1)], [some (List.replicate 128 2)]]

/-- Blocks of 140 and 127 bytes of values. -/
example (p q : Profile) : ∃ bs, buildBinary true exampleSizes = .ok bs ∧
    (blocksAlone p { exampleColumn "c" with nullable := true } (writeAllOps bs)).map
      (fun x => (blockData q x.2).map List.length) = [some 140, some 127] := by
  refine ⟨_, buildBinary_of_accepts (by simp [exampleSizes, Accepts]) (by decide +kernel), ?_⟩
  rw [blocksAlone_raw p rfl]
  cases p <;> cases q <;> decide +kernel

/-- C66 is false of the code: `BLOCK_SIZE` is `1 << 7`, 128 bytes and not 128 KiB. Two values of 128 bytes each
make two blocks. -/
theorem C66_block_sizes_violated (p q : Profile) (ci : ColumnInfo) (hraw : ci.encoding = .raw) :
    ∃ bs, buildBinary ci.nullable smallBlocks = .ok bs ∧ ∃ x ∈ (blocksAlone p ci (writeAllOps bs)).dropLast,
      ∃ d, blockData q x.2 = some d ∧ d.length < 128 * 1024 := by
  have hb : buildBinary ci.nullable smallBlocks = .ok _ :=
    buildBinary_of_accepts (fun b hb => .inr ((by decide : ∀ b ∈ smallBlocks, none ∉ b) b hb)) (by decide +kernel)
  refine ⟨_, hb, ?_⟩
  have hlen : (blocksAlone p ci (writeAllOps (smallBlocks.map (BinaryBuffer.ofRows ci.nullable)))).length = 2 := by
    rw [blocksAlone_raw p hraw]
    cases p <;> cases ci.nullable <;> decide +kernel
  have hval : ∀ v ∈ valuesOf smallBlocks.flatten, v.length ≤ 128 := by decide +kernel
  obtain ⟨h1, _⟩ := C66_block_sizes_partial p q ci hraw smallBlocks _ hb (by decide) 128 hval
  rcases hx : blocksAlone p ci (writeAllOps (smallBlocks.map (BinaryBuffer.ofRows ci.nullable))) with _ | ⟨x, _ | ⟨y, l⟩⟩
  · rw [hx] at hlen; cases hlen
  · rw [hx] at hlen; cases hlen
  · obtain ⟨d, d1, d2⟩ := h1 x (by rw [hx]; simp)
    exact ⟨x, by simp [List.dropLast], d, d1, by omega⟩

end Meerkat
