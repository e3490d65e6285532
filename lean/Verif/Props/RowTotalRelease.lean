import Verif.Props.PrimitiveWritten
import Verif.Props.RowTotal
import Verif.Props.VolumeBound

set_option autoImplicit false

/-! # C87 for primitive columns in release builds with all block sizes, and for all binary columns -/

namespace Meerkat
open Spec PrimitiveEnc
variable {α : Type}

namespace RowTotal

theorem pieceIds_count (ps : List (Piece α)) : ∀ n, pieceIds n ps = countIds n (ps.map (·.counted)) := by
  induction ps with
  | nil => intro n; rfl
  | cons x ps ih => intro n; simp only [pieceIds, List.map_cons, countIds, ih]

theorem fullPieces_counted (nullable : Bool) {c : Nat} (hc : 0 < c) (k : Nat) : ∀ (base : Nat) (rows : List (Option α)),
    k * c ≤ (valuesOf rows).length → ∀ x ∈ fullPieces nullable c k base rows,
      1 ≤ x.counted ∧ (nullable = false → x.counted = (valuesOf x.rows).length) := by
  induction k with
  | zero => intro base rows _ x hx; cases hx
  | succ k ih =>
    intro base rows h x hx
    rw [Nat.succ_mul] at h
    rw [fullPieces, List.mem_cons] at hx
    have hv := takeVals_values c rows
    rcases hx with rfl | hx
    · have h1 : (valuesOf (takeVals c rows)).length = c := by rw [hv, List.length_take]; omega
      have h2 : (valuesOf (takeVals c rows)).length ≤ (takeVals c rows).length := by
        exact List.length_filterMap_le ..
      cases nullable with
      | false => exact ⟨by simp only [Bool.false_eq_true, if_false]; omega, fun _ => rfl⟩
      | true => exact ⟨by simp only [if_true]; omega, fun h => by cases h⟩
    · exact ih _ _ (by rw [values_drop_takeVals, List.length_drop]; omega) x hx

theorem wholePiece_counted (nullable : Bool) (st : List Bool) {rows : List (Option α)} (hacc : Accepts nullable rows)
    (hend : EndsWithValue rows) (hne : 0 < (valuesOf rows).length) :
    1 ≤ (wholePiece nullable st rows).counted ∧
      (nullable = false → (wholePiece nullable st rows).counted = (valuesOf (wholePiece nullable st rows).rows).length) := by
  refine ⟨?_, ?_⟩
  · rw [(wholePiece_spec nullable st hacc hend).2.2.1]; exact BinaryEnc.writtenBits_pos nullable st hne
  · intro h; subst h; rfl

theorem columnPieces_counted (nullable : Bool) {size m : Nat} (hc : 0 < valuesPerBlock size m)
    (bufs : List (List (Option α))) : ∀ (st : List Bool) (R : List (Option α)), Accepts nullable R →
    (∀ b ∈ bufs, Accepts nullable b) → EndsWithValue R →
    ∀ x ∈ columnPieces nullable size m st R bufs,
      1 ≤ x.counted ∧ (nullable = false → x.counted = (valuesOf x.rows).length) := by
  induction bufs with
  | nil =>
    intro st R hR _ hend x hx
    rw [columnPieces] at hx
    split at hx
    · cases hx
    · rw [List.mem_singleton] at hx
      subst hx
      exact wholePiece_counted nullable st hR hend (by omega)
  | cons b bs ih =>
    intro st R hR hbs hend x hx
    have hb := hbs b (List.mem_cons_self ..)
    obtain ⟨g1, g2, _⟩ := callHeld_spec nullable size m hR hb hend
    rw [columnPieces, List.mem_append] at hx
    rcases hx with hx | hx
    · simp only [callPieces] at hx
      split at hx
      · exact fullPieces_counted nullable hc _ 0 b (Nat.div_mul_le_self ..) x hx
      · split at hx
        · cases hx
        · split at hx
          · cases hx
          · rw [List.mem_singleton] at hx
            subst hx
            refine wholePiece_counted nullable st (accepts_trim hR hb) ((dropTrailingNulls_ends b).append_left hend) ?_
            rw [valuesOf_append, List.length_append]
            omega
    · exact ih _ _ g1 (fun b hb => hbs b (List.mem_cons_of_mem _ hb)) g2 x hx

end RowTotal

/-- C87, exactly, for primitive columns in release builds, whatever the block size: the rows told are those the blocks of
`Spec.columnPieces` count. In a column that is not nullable these are the values that are read back from the blocks, so that
what is told is right if and only if all values are written. -/
theorem C87_primitive_release_exact [Element α] (q : Profile) (nullable : Bool) (m : Nat) (hm : 0 < m) (hm64 : m < 2 ^ 64)
    (bufs : List (List (Option α))) (bs) (hb : buildAll nullable bufs = .ok bs) (hlen : rowCount bufs < 2 ^ 32 - 8) (e blocks)
    (hrun : encodeColumn .release recorder bs (Encoder.new m nullable, []) = (.ok (), (e, blocks))) :
    rowsTold (blocks.map (·.1)) = countedBy (columnPieces nullable (Element.size α) m [] [] bufs) ∧
    (nullable = false → ∃ rows, readColumn (α := α) q false (blocks.map (·.2)) = some rows ∧
      rowsTold (blocks.map (·.1)) = (valuesOf rows).length) := by
  obtain ⟨h1, h2⟩ := C26_primitive_release_exact q nullable m hm hm64 bufs bs hb hlen
  have hcount : countedBy (columnPieces nullable (Element.size α) m [] [] bufs) < 2 ^ 32 := by
    rcases Nat.lt_or_ge (countedBy (columnPieces nullable (Element.size α) m [] [] bufs)) (2 ^ 32) with h | h
    · exact h
    · obtain ⟨e', bl, j, h3, _⟩ := h2 h
      rw [h3] at hrun
      cases (Prod.mk.inj hrun).1
  obtain ⟨e', bl, h3, h4, h5⟩ := h1 hcount
  rw [h3] at hrun
  obtain rfl : bl = blocks := (Prod.mk.inj (Prod.mk.inj hrun).2).2
  obtain ⟨hA, _⟩ := buildAll_ok hb
  have hc : 0 < valuesPerBlock (Element.size α) m := by rw [perBlock_values]; exact perBlock_pos hm
  have hp := RowTotal.columnPieces_counted nullable hc bufs [] [] (.inr (by simp)) hA (.inl rfl)
  have htold : rowsTold (bl.map (·.1)) = countedBy (columnPieces nullable (Element.size α) m [] [] bufs) := by
    rw [h5, RowTotal.pieceIds_count, RowTotal.told_positive, countedBy]
    intro c hc
    obtain ⟨x, hx, rfl⟩ := List.mem_map.mp hc
    exact (hp x hx).1
  refine ⟨htold, fun hn => ?_⟩
  subst hn
  refine ⟨_, by rw [readColumn, h4, Option.map_some], ?_⟩
  rw [htold, countedBy]
  generalize columnPieces false (Element.size α) m [] [] bufs = ps at hp
  clear htold h3 h4 h5 hcount h1 h2 hrun
  induction ps with
  | nil => rfl
  | cons x ps ih =>
    have h6 := (hp x (by simp)).2 rfl
    have h7 := ih fun y hy => hp y (List.mem_cons_of_mem _ hy)
    simp only [List.map_cons, List.sum_cons, List.flatten_cons, valuesOf_append, List.length_append] at h7 ⊢
    omega

/-- Blocks of 6 bytes of `i32`: of the eight values of this column seven are told, one is dropped. -/
example : countedBy (columnPieces false 4 6 [] [] [[some 1], [some 2, some 3], [some 4, some 5, some 6, some 7], [some 8]]) = 7 ∧
    (columnPieces false 4 6 [] [] [[some 1], [some 2, some 3], [some 4, some 5, some 6, some 7], [some 8]]).map (·.rows) =
      [[some 1, some 2, some 4, some 5, some 6, some 7], [some 8]] ∧
    rowsTold [5, 6] = 7 := by decide +kernel

namespace RowTotal

theorem entryIds_count (xs : List Entry) : ∀ n, entryIds n xs = countIds n (xs.map (·.counted)) := by
  induction xs with
  | nil => intro n; rfl
  | cons x xs ih => intro n; simp only [entryIds, List.map_cons, countIds, ih]

theorem whole_counted (nullable : Bool) (st : List Bool) (rows : List (Option Bytes)) (h : valuesOf rows ≠ []) :
    1 ≤ (wholeEntry nullable st rows).counted := by
  rw [(BinaryEnc.wholeEntry_bytes nullable st rows).1]
  exact BinaryEnc.writtenBits_pos nullable st (List.length_pos_iff.mpr h)

theorem loop_counted (m : Nat) (hm : 0 < m) (nullable : Bool) (rows : List (Option Bytes)) : ∀ (n pos : Nat),
    ∀ x ∈ loopEntries m nullable rows n pos, 1 ≤ x.counted := by
  intro n
  induction n with
  | zero => intro pos x hx; cases hx
  | succ n ih =>
    intro pos x hx
    rw [loopEntries] at hx
    cases hf : fill m ((valuesOf rows).drop pos) with
    | none => rw [hf] at hx; cases hx
    | some j =>
      rw [hf] at hx
      simp only at hx
      split at hx
      · rename_i hc
        rcases List.mem_cons.mp hx with rfl | hx
        · have h1 := (BinaryEnc.fill_some hf).1
          have h2 := BinaryEnc.fill_pos hf hm
          rw [List.length_drop] at h1
          cases nullable with
          | false => simp only [Bool.false_eq_true, if_false]; omega
          | true =>
            simp only [if_true]
            have h3 : (valuesOf (takeVals j rows)).length ≤ (takeVals j rows).length := List.length_filterMap_le ..
            rw [takeVals_values, List.length_take] at h3
            omega
        · exact ih j x hx
      · cases hx

theorem columnEntries_counted (m : Nat) (hm : 0 < m) (nullable : Bool) (bufs : List (List (Option Bytes))) :
    ∀ (stale : List Bool) (held : List (Option Bytes)), EndsWithValue held →
    ∀ x ∈ columnEntries m nullable stale held bufs, 1 ≤ x.counted := by
  induction bufs with
  | nil =>
    intro stale held _ x hx
    rw [columnEntries] at hx
    split at hx
    · cases hx
    · rename_i h
      rw [List.mem_singleton] at hx
      subst hx
      exact whole_counted _ _ _ h
  | cons b bufs ih =>
    intro stale held hhe x hx
    rw [columnEntries] at hx
    rcases List.mem_append.mp hx with hx | hx
    · simp only [callEntries] at hx
      split at hx
      · exact loop_counted m hm nullable b _ _ x hx
      · rename_i h0
        split at hx
        · cases hx
        · rcases List.mem_cons.mp hx with rfl | hx
          · refine whole_counted _ _ _ fun h => ?_
            rw [valuesOf_append] at h
            have h1 := (List.append_eq_nil_iff.mp h).1
            exact h0 ((BinaryEnc.ends_nil_iff hhe).mp (by rw [h1]; rfl))
          · exact loop_counted m hm nullable b _ _ x hx
    · exact ih _ _ (BinaryEnc.heldRows_ends m held b hhe) x hx

end RowTotal

/-- C87, exactly, for every binary column whose calls return: the rows told are those the blocks of `Spec.columnEntries` count,
so they are right if and only if these are as many as the rows. -/
theorem C87_binary_total (p : Profile) (nullable : Bool) (m : Nat) (hm : 0 < m)
    (bufs : List (List (Option Bytes))) (bs) (hb : buildBinary nullable bufs = .ok bs)
    (hlen : bufs.flatten.length < 2 ^ 32 - 7) (hm32 : m ≤ U32_MAX) (e blocks)
    (hrun : BinaryEnc.encodeColumn p recorder bs (BinaryEnc.Encoder.new m nullable, []) = (.ok (), (e, blocks))) :
    rowsTold (blocks.map (·.1)) = ((columnEntries m nullable [] [] bufs).map (·.counted)).sum := by
  rw [(C32_binary_blocks_exact p p nullable m hm bufs bs hb hlen hm32 e blocks hrun).1.1, RowTotal.entryIds_count,
    RowTotal.told_positive]
  intro c hc
  obtain ⟨x, hx, rfl⟩ := List.mem_map.mp hc
  exact RowTotal.columnEntries_counted m hm nullable bufs [] [] (.inl rfl) x hx

/-- A history that is not manageable: four rows, but the second block counts those of the first again, so five are told. -/
example : ((columnEntries 2 true [] [] [[some [1, 1], none, some [2], some [3]]]).map (·.counted)) = [1, 3, 1] ∧
    (do let bs ← buildBinary true [[some [1, 1], none, some [2], some [3]]]
        return (BinaryEnc.encodeColumn .debug recorder bs (BinaryEnc.Encoder.new 2 true, [])).2.2.map Prod.fst) =
      .ok [0, 3, 4] := by
  decide +kernel

end Meerkat
