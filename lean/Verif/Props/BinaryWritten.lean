import Verif.Proofs.BinaryWritten
import Verif.Props.BinaryCompletes

set_option autoImplicit false

/-! # C32, C34 and C35 beyond manageable histories: what the binary encoder writes whenever its calls return -/

namespace Meerkat
section
open Spec BinaryEnc

/-- C32, C34 and C35, exactly, in both build profiles: whenever the calls return, the blocks are those of
`Spec.columnEntries`: row ids, data bytes, lengths, validity. The items the blocks have the lengths of are those of the column,
in order (whatever bytes come with them). -/
theorem C32_binary_blocks_exact (p q : Profile) (nullable : Bool) (m : Nat) (hm : 0 < m)
    (bufs : List (List (Option Bytes))) (bs) (hb : buildBinary nullable bufs = .ok bs)
    (hlen : bufs.flatten.length < 2 ^ 32 - 7)
    (hm32 : m ≤ U32_MAX) (e blocks)
    (hrun : encodeColumn p recorder bs (Encoder.new m nullable, []) = (.ok (), (e, blocks))) :
    Written q nullable (columnEntries m nullable [] [] bufs) blocks ∧
      (columnEntries m nullable [] [] bufs).flatMap (·.items) = valuesOf bufs.flatten := by
  have h := binary_total p nullable m hm bufs bs hb (by omega) hm32
  obtain ⟨rfl, hs⟩ := h.2 e blocks hrun
  refine ⟨written_blocks q nullable _ _ hlen hs, ?_⟩
  have := columnEntries_items m nullable bufs [] [] (.inl rfl) (h.1.mp ⟨_, _, hrun⟩).1
  simpa using this

/-- C34 for columns that are not nullable: whenever the calls return, the row ids are those of the last rows of consecutive groups
which make up the column, and (unless bits are dropped) the lengths in the blocks are those of the groups. -/
theorem C34_binary_nonnull_row_ids (p q : Profile) (m : Nat) (hm : 0 < m)
    (bufs : List (List (Option Bytes))) (bs) (hb : buildBinary false bufs = .ok bs)
    (hlen : bufs.flatten.length < 2 ^ 32 - 7)
    (hm32 : m ≤ U32_MAX) (e blocks)
    (hrun : encodeColumn p recorder bs (Encoder.new m false, []) = (.ok (), (e, blocks))) :
    ∃ groups : List (List Bytes), groups.flatten.map some = bufs.flatten ∧ blocks.map (·.1) = lastRowIds 0 groups ∧
      blocks.length = groups.length ∧ ∀ x ∈ groups.zip blocks, ReadableLengths (x.1.map List.length) →
        readLengths q x.1.length x.2.2 = some (x.1.map List.length) := by
  obtain ⟨⟨h1, h2, h3⟩, h4⟩ := C32_binary_blocks_exact p q false m hm bufs bs hb hlen hm32 e blocks hrun
  have hn : ∀ b ∈ bufs, none ∉ b := fun b hbm => by
    rcases (buildBinary_ok hb).1 b hbm with h | h
    · cases h
    · exact h
  refine ⟨(columnEntries m false [] [] bufs).map (·.items), ?_, ?_, by rw [h2, List.length_map], ?_⟩
  · rw [← List.flatMap_def, h4]
    refine rows_of_nonnull (fun h => ?_)
    obtain ⟨b, hbm, hx⟩ := List.mem_flatten.mp h
    exact hn b hbm hx
  · rw [h1]
    exact entryIds_items _ (columnEntries_counted m bufs [] [] (by simp) hn) 0
  · intro x hx
    rw [List.zip_map_left] at hx
    obtain ⟨y, hy, rfl⟩ := List.mem_map.mp hx
    exact (h3 y hy).2.1

/-- Three byte strings, blocks of two bytes: the second block has the bytes of two of them and the length of one, the third
one the bytes of the last again. -/
example : columnEntries 2 false [] [] [[some [1, 1], some [2], some [3]]] =
    [⟨[[1, 1]], [[1, 1]], [true], 1⟩, ⟨[[2], [3]], [[2]], [true], 1⟩, ⟨[[3]], [[3]], [true], 1⟩] := by decide +kernel

/-- In a nullable column the rows of the first block are counted again for the second. -/
example : entryIds 0 (columnEntries 2 true [] [] [[some [1, 1], none, some [2], some [3]]]) = [0, 3, 4] ∧
    (columnEntries 2 true [] [] [[some [1, 1], none, some [2], some [3]]]).map (·.bits) = [[true], [false, true], [true]] := by
  decide +kernel

/-- Bits left from an earlier block turn a null into a value. -/
example : (columnEntries 2 true [] [] [[some [1]], [some [2]], [none, some [3]]]).map (fun x => (x.bits, x.counted)) =
    [([true, true], 2), ([true], 1)] := by
  decide +kernel

end
end Meerkat
