import Verif.Proofs.BinaryCompletes

set_option autoImplicit false

/-! # Reading the blocks of the binary encoder, rightly divided or not -/

namespace Meerkat.BinaryEnc
open Spec Varint BinaryBuffer

theorem splitBlock_entry (q : Profile) (nullable : Bool) {n : Nat} (x : Entry) (h : Sound n x) :
    splitBlock q x.items.length (entryBytes nullable x) =
      some (x.data.flatten, Offsets.width (x.items.map List.length),
        (Offsets.pack (Offsets.width (x.items.map List.length)) (x.items.map List.length ++
          List.replicate (128 - (x.items.map List.length).length) 0)).take
            (((x.items.map List.length).length * Offsets.width (x.items.map List.length) + 7) / 8),
        if nullable then Rle.rleBytes x.bits else []) := by
  obtain ⟨h128, hsize, hitem, _, _⟩ := h
  have hw : Offsets.width (x.items.map List.length) ≤ 32 := by
    apply Offsets.width_le_32
    intro y hy
    obtain ⟨v, hv, rfl⟩ := List.mem_map.mp hy
    exact hitem v hv
  have hb : entryBytes nullable x = varintBytes x.data.flatten.length ++ (x.data.flatten ++
    (Offsets.offsetBytes (x.items.map List.length) ++ if nullable then Rle.rleBytes x.bits else [])) := by
    simp [entryBytes]
  rw [splitBlock, hb, decode_varintBytes q (by omega)]
  simp only [List.drop_left, List.take_left]
  rw [← List.drop_drop, List.drop_left, List.drop_left]
  generalize hxs : x.items.map List.length = xs at *
  have hxl : xs.length = x.items.length := by rw [← hxs, List.length_map]
  have htn : (UInt8.ofNat (Offsets.width xs)).toNat = Offsets.width xs := by
    rw [UInt8.toNat_ofNat']; omega
  have hceil : Util.ceil8 (Offsets.width xs * xs.length) = (x.items.length * Offsets.width xs + 7) / 8 := by
    rw [Util.ceil8_eq, Nat.mul_comm, hxl]
  have hplen : ((Offsets.pack (Offsets.width xs) (xs ++ List.replicate (128 - xs.length) 0)).take
      ((x.items.length * Offsets.width xs + 7) / 8)).length = (x.items.length * Offsets.width xs + 7) / 8 := by
    rw [List.length_take, Offsets.pack_length, Nat.min_eq_left]
    have h : x.items.length * Offsets.width xs ≤ 128 * Offsets.width xs := Nat.mul_le_mul_right _ h128
    omega
  rw [Offsets.offsetBytes, List.cons_append]
  simp only [htn, hceil]
  generalize hP : ((Offsets.pack (Offsets.width xs) (xs ++ List.replicate (128 - xs.length) 0)).take
      ((x.items.length * Offsets.width xs + 7) / 8)) = P at *
  have ht : ∀ t : Bytes, (P ++ t).take ((x.items.length * Offsets.width xs + 7) / 8) = P := by
    intro t; rw [← hplen, List.take_left]
  have ht2 : ∀ t : Bytes, (P ++ t).drop ((x.items.length * Offsets.width xs + 7) / 8) = t := by
    intro t; rw [← hplen, List.drop_left]
  rw [hxl] at hP
  rw [ht, ht2, hxl, hP]

theorem blockData_entry (q : Profile) (nullable : Bool) (x : Entry) (h : x.data.flatten.length < 2 ^ 32) :
    blockData q (entryBytes nullable x) = some x.data.flatten := by
  have hb : entryBytes nullable x = varintBytes x.data.flatten.length ++ (x.data.flatten ++
    (Offsets.offsetBytes (x.items.map List.length) ++ if nullable then Rle.rleBytes x.bits else [])) := by
    simp [entryBytes]
  rw [blockData, hb, decode_varintBytes q (by omega)]
  simp only [List.drop_left]
  rw [if_pos (by simp only [List.length_append]; omega), List.take_left]

theorem readLengths_entry (q : Profile) (nullable : Bool) {n : Nat} (x : Entry) (h : Sound n x)
    (hr : ReadableLengths (x.items.map List.length)) :
    readLengths q x.items.length (entryBytes nullable x) = some (x.items.map List.length) := by
  rw [readLengths, splitBlock_entry q nullable x h]
  have := unpack_offsetBytes (x.items.map List.length) (by simpa using h.1) hr
  have hl : (x.items.map List.length).length = x.items.length := List.length_map ..
  rw [hl] at this ⊢
  simp only [this]

theorem readPositions_entry (q : Profile) {n : Nat} (x : Entry) (h : Sound n x) (hn : n < 2 ^ 32 - 7) :
    readPositions q x.items.length (entryBytes true x) = some (setPositions x.bits) := by
  obtain ⟨_, _, _, hbl, hbc⟩ := id h
  rw [readPositions, splitBlock_entry q true x h]
  obtain ⟨d, h3, h4⟩ := Rle.Decoder.decode_rleBytes q x.bits
    (List.replicate x.items.length 0) (by omega) (by simp [hbc])
  have hdec : Rle.decode q (Rle.rleBytes x.bits) (List.replicate x.items.length 0) = .ok (setPositions x.bits) := by
    simp only [Rle.decode, h3, ok_bind, pure_eq_ok, h4, hbc]
    simp
  simp only [if_true, hdec]
  rfl

theorem entryBlocks_ids (nullable : Bool) (xs : List Entry) : ∀ n,
    (entryBlocks nullable n xs).map (·.1) = entryIds n xs := by
  induction xs with
  | nil => intro n; rfl
  | cons x xs ih => intro n; rw [entryBlocks, List.map_cons, ih, entryIds]

theorem entryBlocks_length (nullable : Bool) (xs : List Entry) : ∀ n, (entryBlocks nullable n xs).length = xs.length := by
  induction xs with
  | nil => intro n; rfl
  | cons x xs ih => intro n; rw [entryBlocks, List.length_cons, ih, List.length_cons]

theorem entryBlocks_zip (nullable : Bool) (xs : List Entry) : ∀ n, ∀ x ∈ xs.zip (entryBlocks nullable n xs),
    x.1 ∈ xs ∧ x.2.2 = entryBytes nullable x.1 := by
  induction xs with
  | nil => intro n x hx; simp at hx
  | cons y xs ih =>
    intro n x hx
    rw [entryBlocks, List.zip_cons_cons] at hx
    rcases List.mem_cons.mp hx with rfl | hx
    · exact ⟨by simp, rfl⟩
    · obtain ⟨h1, h2⟩ := ih _ x hx
      exact ⟨by simp [h1], h2⟩

/-- The blocks of the encoder, read. -/
theorem written_blocks (q : Profile) (nullable : Bool) (xs : List Entry) (n : Nat) (hn : n < 2 ^ 32 - 7)
    (hs : ∀ x ∈ xs, Sound n x) : Written q nullable xs (entryBlocks nullable 0 xs) := by
  refine ⟨entryBlocks_ids .., entryBlocks_length .., fun x hx => ?_⟩
  obtain ⟨hm, hb⟩ := entryBlocks_zip nullable xs 0 x hx
  have h := hs _ hm
  rw [hb]
  refine ⟨blockData_entry q nullable _ h.2.1, readLengths_entry q nullable _ h, ?_, ?_⟩
  · rintro rfl; exact readPositions_entry q _ h hn
  · rintro rfl
    rw [readRest, splitBlock_entry q false _ h]
    rfl

/-! ## The items of the blocks -/

theorem take_drop_split (vs : List Bytes) (a b : Nat) : (vs.drop a).take (b - a) ++ vs.drop b =
    if a ≤ b then vs.drop a else vs.drop b := by
  split
  · rename_i h
    have := List.take_append_drop (b - a) (vs.drop a)
    rw [List.drop_drop, Nat.add_sub_cancel' h] at this
    exact this
  · rename_i h
    rw [Nat.sub_eq_zero_of_le (by omega), List.take_zero, List.nil_append]

theorem loopEntries_items (m : Nat) (nullable : Bool) (rows : List (Option Bytes)) : ∀ (n pos s : Nat),
    loopEnd m (valuesOf rows) n pos = some s →
    (loopEntries m nullable rows n pos).flatMap (·.items) ++ (valuesOf rows).drop s = (valuesOf rows).drop pos := by
  intro n
  induction n with
  | zero => intro pos s h; cases h
  | succ n ih =>
    intro pos s h
    rw [loopEnd] at h
    rw [loopEntries]
    cases hf : fill m ((valuesOf rows).drop pos) with
    | none => rw [hf] at h; simp only at h ⊢; cases h; rfl
    | some j =>
      rw [hf] at h
      simp only at h ⊢
      by_cases hc : pos < j ∧ j - pos ≤ 128
      · rw [if_pos hc] at h ⊢
        rw [List.flatMap_cons, List.append_assoc, ih j s h, take_drop_split, if_pos (by omega)]
      · rw [if_neg hc] at h; cases h

theorem columnEntries_items (m : Nat) (nullable : Bool) (bufs : List (List (Option Bytes))) :
    ∀ (stale : List Bool) (held : List (Option Bytes)), EndsWithValue held →
    Completes m (valuesOf held) (bufs.map valuesOf) →
    (columnEntries m nullable stale held bufs).flatMap (·.items) = valuesOf held ++ valuesOf bufs.flatten := by
  induction bufs with
  | nil =>
    intro stale held _ _
    rw [columnEntries]
    split
    · rename_i h; simp [h]
    · simp [wholeEntry]
  | cons b bufs ih =>
    intro stale held hhe hc
    rw [List.map_cons, Completes] at hc
    cases hh : heldAfter m (valuesOf held) (valuesOf b) with
    | none => rw [hh] at hc; exact hc.elim
    | some h' =>
      rw [hh] at hc
      simp only at hc
      have hnil : valuesOf held = [] ↔ held = [] :=
        ⟨fun h => (ends_nil_iff hhe).mp (by rw [h]; rfl), fun h => by rw [h]; rfl⟩
      have key : valuesOf (heldRows m held b) = h' ∧ EndsWithValue (heldRows m held b) ∧
          (callEntries m nullable stale held b).flatMap (·.items) ++ h' = valuesOf held ++ valuesOf b := by
        rw [heldAfter] at hh
        by_cases h0 : held = []
        · rw [if_pos (hnil.mpr h0)] at hh
          obtain ⟨s, hs, rfl⟩ := Option.map_eq_some_iff.mp hh
          simp only [heldRows, callEntries, if_pos h0, hs, Option.getD_some]
          refine ⟨by rw [dropTrailingNulls_values, behind_values], dropTrailingNulls_ends _, ?_⟩
          rw [loopEntries_items m nullable b _ _ _ hs, h0]; rfl
        · rw [if_neg (fun h => h0 (hnil.mp h))] at hh
          have hbh : (valuesOf held).flatten.length = byteCount held := rfl
          rw [hbh] at hh
          simp only [heldRows, callEntries, if_neg h0]
          cases hf : fill (m - byteCount held) (valuesOf b) with
          | none =>
            rw [hf] at hh
            cases hh
            simp only
            refine ⟨by rw [valuesOf_append, dropTrailingNulls_values], ?_, by simp⟩
            rcases dropTrailingNulls_ends b with h | ⟨v, h⟩
            · rw [h, List.append_nil]; exact hhe
            · right; exact ⟨v, by rw [List.getLast?_append, h]; rfl⟩
          | some j =>
            rw [hf] at hh
            simp only at hh ⊢
            by_cases h128 : (valuesOf held).length + j ≤ 128 ∧ (valuesOf held ++ (valuesOf b).take j).flatten.length < 2 ^ 32 - 1
            · rw [if_pos h128] at hh
              obtain ⟨s, hs, rfl⟩ := Option.map_eq_some_iff.mp hh
              simp only [hs, Option.getD_some]
              refine ⟨by rw [dropTrailingNulls_values, behind_values], dropTrailingNulls_ends _, ?_⟩
              rw [List.flatMap_cons, List.append_assoc, loopEntries_items m nullable b _ _ _ hs]
              simp only [wholeEntry]
              rw [valuesOf_append, takeVals_values, List.append_assoc, List.take_append_drop]
            · rw [if_neg h128] at hh; cases hh
      obtain ⟨k1, k2, k3⟩ := key
      rw [columnEntries, List.flatMap_append, ih _ _ k2 (by rw [k1]; exact hc), k1, ← List.append_assoc, k3,
        List.flatten_cons, valuesOf_append, List.append_assoc]

/-- Without nulls every block counts the items it has the lengths of. -/
theorem loopEntries_counted (m : Nat) (rows : List (Option Bytes)) : ∀ (n pos : Nat),
    ∀ x ∈ loopEntries m false rows n pos, x.counted = x.items.length := by
  intro n
  induction n with
  | zero => intro pos x hx; simp [loopEntries] at hx
  | succ n ih =>
    intro pos x hx
    rw [loopEntries] at hx
    cases hf : fill m ((valuesOf rows).drop pos) with
    | none => rw [hf] at hx; simp at hx
    | some j =>
      rw [hf] at hx
      simp only at hx
      split at hx
      · rename_i hc
        have hj := (fill_some hf).1
        rcases List.mem_cons.mp hx with rfl | hx
        · simp only [List.length_take, Bool.false_eq_true, if_false]; omega
        · exact ih j x hx
      · simp at hx

theorem wholeEntry_counted (st : List Bool) (rows : List (Option Bytes)) (h : none ∉ rows) :
    (wholeEntry false st rows).counted = (wholeEntry false st rows).items.length := by
  simp only [wholeEntry, Bool.false_eq_true, if_false, validityOf_length]
  exact (valuesOf_length_of_no_none h).symm

theorem none_dropTrailing {l rows : List (Option Bytes)} (hl : l <:+ rows) (h : none ∉ rows) : none ∉ dropTrailingNulls l := by
  obtain ⟨q, hq, _⟩ := dropTrailingNulls_spec l
  intro hn
  exact h (hl.subset (hq ▸ List.mem_append_left _ hn))

theorem columnEntries_counted (m : Nat) (bufs : List (List (Option Bytes))) :
    ∀ (stale : List Bool) (held : List (Option Bytes)), none ∉ held → (∀ b ∈ bufs, none ∉ b) →
    ∀ x ∈ columnEntries m false stale held bufs, x.counted = x.items.length := by
  induction bufs with
  | nil =>
    intro stale held hn _ x hx
    rw [columnEntries] at hx
    split at hx
    · simp at hx
    · rw [List.mem_singleton.mp hx]; exact wholeEntry_counted _ _ hn
  | cons b bufs ih =>
    intro stale held hn hb x hx
    have hbn := hb b (by simp)
    have hbe : ∀ k, none ∉ dropTrailingNulls (behind k b) := fun k => none_dropTrailing (List.drop_suffix ..) hbn
    rw [columnEntries] at hx
    rcases List.mem_append.mp hx with hx | hx
    · simp only [callEntries] at hx
      split at hx
      · exact loopEntries_counted m b _ _ x hx
      · split at hx
        · simp at hx
        · rename_i j _
          rcases List.mem_cons.mp hx with rfl | hx
          · refine wholeEntry_counted _ _ (fun h => ?_)
            rcases List.mem_append.mp h with h | h
            · exact hn h
            · exact hbn ((takeVals_prefix _ b).subset h)
          · exact loopEntries_counted m b _ _ x hx
    · refine ih _ _ ?_ (fun b' hb' => hb b' (by simp [hb'])) x hx
      simp only [heldRows]
      split
      · exact hbe _
      · split
        · intro h
          rcases List.mem_append.mp h with h | h
          · exact hn h
          · exact none_dropTrailing (List.suffix_refl _) hbn h
        · exact hbe _

theorem entryIds_items (xs : List Entry) (h : ∀ x ∈ xs, x.counted = x.items.length) : ∀ n,
    entryIds n xs = lastRowIds n (xs.map (·.items)) := by
  induction xs with
  | nil => intro n; rfl
  | cons x xs ih =>
    intro n
    rw [entryIds, List.map_cons, lastRowIds, ih (fun y hy => h y (by simp [hy])), h x (by simp)]

end Meerkat.BinaryEnc
