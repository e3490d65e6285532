import Verif.Proofs.PrimitiveStale
import Verif.Props.PrimitiveWrap

set_option autoImplicit false

/-! # C26 to C30 in release builds, for all columns and all block sizes -/

namespace Meerkat
open Spec PrimitiveEnc
variable {α : Type} [Element α]

/-- C26 to C30 in release builds, exactly, for every block size and nullability: the blocks are those of `Spec.columnPieces`, rows
and row ids; the encoder panics if and only if the rows these count do not fit in 32 bits, and then a beginning of them has been
written. -/
theorem C26_primitive_release_exact (q : Profile) (nullable : Bool) (m : Nat) (hm : 0 < m) (hm64 : m < 2 ^ 64)
    (bufs : List (List (Option α))) (bs) (hb : buildAll nullable bufs = .ok bs) (hlen : rowCount bufs < 2 ^ 32 - 8) :
    let ps := columnPieces nullable (Element.size α) m [] [] bufs
    (countedBy ps < 2 ^ 32 → ∃ e blocks,
      encodeColumn .release recorder bs (Encoder.new m nullable, []) = (.ok (), (e, blocks)) ∧
      (blocks.map (·.2)).mapM (readPrimitive q nullable) = some (ps.map (·.rows)) ∧ blocks.map (·.1) = pieceIds 0 ps) ∧
    (2 ^ 32 ≤ countedBy ps → ∃ e blocks j,
      encodeColumn .release recorder bs (Encoder.new m nullable, []) = (.error (.panic .expect), (e, blocks)) ∧
      j < ps.length ∧ (blocks.map (·.2)).mapM (readPrimitive q nullable) = some ((ps.take j).map (·.rows)) ∧
      blocks.map (·.1) = (pieceIds 0 ps).take j) := by
  intro ps
  obtain ⟨hA, rfl⟩ := buildAll_ok hb
  have hl := rowCount_eq bufs
  have hc : 0 < valuesPerBlock (Element.size α) m := by rw [perBlock_values]; exact perBlock_pos hm
  have hz : (Encoder.new (α := α) m nullable).numRows = 0 := rfl
  obtain ⟨c1, c2⟩ := column_release nullable m hm hm64 bufs [] [] (Encoder.new m nullable) [] rfl
    (by have := pholds_ofRows (α := α) nullable []; rwa [← PrimitiveBuffer.new_eq] at this)
    (.inr (by simp)) hA (.inl rfl) (by simp only [List.length_nil]; omega) (by rw [hz]; omega)
  rw [hz, Nat.zero_add] at c1 c2
  have hmem := columnPieces_spec nullable hc bufs [] [] (.inr (by simp)) hA (.inl rfl)
  have hread : ∀ L : List (Piece α), (∀ x ∈ L, x ∈ ps) →
      ((L.map (·.rows)).map (blockBytes nullable)).mapM (readPrimitive q nullable) = some (L.map (·.rows)) := by
    intro L hL
    apply mapM_readPrimitive
    intro g hg
    obtain ⟨x, hx, rfl⟩ := List.mem_map.mp hg
    obtain ⟨h1, h2, h3⟩ := hmem x (hL x hx)
    rw [List.length_nil] at h3
    exact ⟨h1, h2, by omega⟩
  constructor
  · intro h
    obtain ⟨e, h1⟩ := c1 h
    refine ⟨e, _, h1, ?_, ?_⟩
    · rw [List.nil_append, pieceBlocks_data]; exact hread ps fun _ hx => hx
    · rw [List.nil_append, pieceBlocks_ids]
  · intro h
    obtain ⟨e, j, h1, h2⟩ := c2 (by show ¬ countedBy ps < 2 ^ 32; omega)
    refine ⟨e, _, j, h1, h2, ?_, ?_⟩
    · rw [List.nil_append, List.map_take, pieceBlocks_data, ← List.map_take, ← List.map_take]
      exact hread (ps.take j) fun _ hx => List.mem_of_mem_take hx
    · rw [List.nil_append, List.map_take, pieceBlocks_ids]

/-- C26 and C29 in release builds when the block size is not a multiple of the element size, nullable or not: the values of the blocks
are these groups; all values are there if and only if none is dropped; every block but the last has `c` values, or at least as
many values as a block should have bytes. -/
theorem C26_primitive_release_values (q : Profile) (nullable : Bool) (m : Nat) (hm : 0 < m) (hm64 : m < 2 ^ 64)
    (hd : ¬ Element.size α ∣ m) (bufs : List (List (Option α))) (bs) (hb : buildAll nullable bufs = .ok bs)
    (hlen : rowCount bufs < 2 ^ 32 - 8) (e blocks)
    (hrun : encodeColumn .release recorder bs (Encoder.new m nullable, []) = (.ok (), (e, blocks))) :
    let c := (m + Element.size α - 1) / Element.size α
    ((blocks.map (·.2)).mapM (readPrimitive q nullable)).map (List.map valuesOf) =
      some (wrappedGroups c m [] (bufs.map valuesOf)) ∧
    ((readColumn q nullable (blocks.map (·.2))).map valuesOf = some (valuesOf bufs.flatten) ↔
      wrappedLoss c m 0 (bufs.map fun b => (valuesOf b).length) = 0) ∧
    ∀ g ∈ (wrappedGroups c m [] (bufs.map valuesOf)).dropLast, g.length = c ∨ m ≤ g.length := by
  intro c
  have hc := perBlock_pos (α := α) hm
  have hcc : c = perBlock α m := (perBlock_ceil m).symm
  obtain ⟨h1, h2⟩ := C26_primitive_release_exact q nullable m hm hm64 bufs bs hb hlen
  have hcount : countedBy (columnPieces nullable (Element.size α) m [] [] bufs) < 2 ^ 32 := by
    rcases Nat.lt_or_ge (countedBy (columnPieces nullable (Element.size α) m [] [] bufs)) (2 ^ 32) with h | h
    · exact h
    · obtain ⟨e', bl, j, h3, _⟩ := h2 h
      rw [h3] at hrun
      cases (Prod.mk.inj hrun).1
  obtain ⟨e', bl, h3, h4, _⟩ := h1 hcount
  rw [h3] at hrun
  obtain rfl : bl = blocks := (Prod.mk.inj (Prod.mk.inj hrun).2).2
  obtain ⟨hA, _⟩ := buildAll_ok hb
  have hv := columnPieces_values nullable hm hd bufs [] [] (.inr (by simp)) hA (.inl rfl)
  rw [valuesOf_nil, ← hcc] at hv
  have hflat : ∀ L : List (List (Option α)), valuesOf L.flatten = (L.map valuesOf).flatten := by
    intro L
    induction L with
    | nil => rfl
    | cons x L ih => rw [List.flatten_cons, valuesOf_append, ih, List.map_cons, List.flatten_cons]
  obtain ⟨r1, r2⟩ := wrappedGroups_rows (m := m) (hcc ▸ hc) (bufs.map valuesOf) ([] : List α)
  rw [List.map_map, List.length_nil, List.nil_append, ← hflat] at r2
  rw [List.map_map, List.length_nil, Nat.zero_add, ← hflat] at r1
  refine ⟨?_, ?_, (wrappedGroups_mem (hcc ▸ hc) _ _).1⟩
  · rw [h4, Option.map_some, List.map_map, ← hv]; rfl
  · rw [readColumn, h4, Option.map_some, Option.map_some, Option.some_inj, hflat, List.map_map]
    have : (columnPieces nullable (Element.size α) m [] [] bufs).map (valuesOf ∘ fun x => x.rows) =
        wrappedGroups c m [] (bufs.map valuesOf) := hv
    rw [this]
    constructor
    · intro h
      have hl := congrArg List.length h
      have : wrappedLoss c m 0 (bufs.map (List.length ∘ valuesOf)) = 0 := by omega
      exact this
    · intro h; exact r2 h

/-- Blocks of 6 bytes of 4-byte elements, so of two values. The second buffer loses its second value; the third makes six values, all
written together; the null of the fourth falls on a bit that is still set, so its value moves up and the null is gone. -/
example : columnPieces true 4 6 [] [] [[some 1], [some 2, some 3], [some 4, some 5, none, some 6, some 7], [none, some 8]] =
    [⟨[some 1, some 2, some 4, some 5, none, some 6, some 7], 7⟩, ⟨[some 8], 1⟩] := by decide +kernel

/-- The same run with a null that is still unset where it was null before. -/
example : columnPieces true 4 6 [] [] [[some 1], [some 2, some 3], [none, some 4, some 5, some 6, some 7], [some 8],
      [none, none, some 9]] =
    [⟨[some 1, some 2, none, some 4, some 5, some 6, some 7], 7⟩, ⟨[some 8, some 9], 2⟩] := by decide +kernel

/-- Blocks of 8 bytes: two full blocks of one buffer, the second of which counts the rows of the first again. -/
example : columnPieces true 4 8 [] [] [[some 1, some 2, none, some 3, some 4, some 5], [some 6, some 7]] =
    [⟨[some 1, some 2], 2⟩, ⟨[none, some 3, some 4], 5⟩, ⟨[some 5, some 6], 2⟩] ∧
    pieceIds 0 (columnPieces true 4 8 [] [] [[some 1, some 2, none, some 3, some 4, some 5], [some 6, some 7]]) =
      [1, 6, 8] := by decide +kernel

/-- The run of the first example. -/
example (q : Profile) : ∃ bs e blocks, buildAll true [[some (1 : Int32)], [some 2, some 3],
      [some 4, some 5, none, some 6, some 7], [none, some 8]] = .ok bs ∧
    encodeColumn .release recorder bs (Encoder.new 6 true, []) = (.ok (), (e, blocks)) ∧
    (blocks.map (·.2)).mapM (readPrimitive (α := Int32) q true) =
      some [[some 1, some 2, some 4, some 5, none, some 6, some 7], [some 8]] ∧
    blocks.map (·.1) = [6, 7] := by
  have hb := buildAll_of_accepts (nullable := true) (bufs := [[some (1 : Int32)], [some 2, some 3],
      [some 4, some 5, none, some 6, some 7], [none, some 8]]) (fun b _ => .inl rfl)
  obtain ⟨h, _⟩ := C26_primitive_release_exact q true 6 (by decide) (by decide) _ _ hb (by decide)
  obtain ⟨e, blocks, h1, h2, h3⟩ := h (by decide +kernel)
  exact ⟨_, e, blocks, hb, h1, h2.trans (by decide +kernel), h3.trans (by decide +kernel)⟩

end Meerkat
