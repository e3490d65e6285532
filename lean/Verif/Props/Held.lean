import Verif.Props.EmptyBuffer

set_option autoImplicit false

/-!
# C106: an encoder holds back fewer rows than a block has bytes

The encoders keep a buffer `remaining` of rows not yet written. The property: between calls it has fewer rows than a
block has bytes, so that memory is bounded by the block size. What the code bounds is the bytes of the values held.
-/

namespace Meerkat
open Spec
variable {S α : Type} [Element α]

namespace BinaryEnc

/-- The held values are fewer than the bytes of a block if none of them is empty. -/
theorem length_le_flatten {items : List Bytes} (h : ∀ v ∈ items, v ≠ []) : items.length ≤ items.flatten.length := by
  induction items with
  | nil => exact Nat.le_refl _
  | cons v items ih =>
    have h1 := List.length_pos_iff.2 (h v (by simp))
    have h2 := ih fun w hw => h w (by simp [hw])
    simp only [List.length_cons, List.flatten_cons, List.length_append]
    omega

theorem held_from (p : Profile) (k : Sink S) {m : Nat} (hm : 0 < m) {nullable : Bool}
    (cs : List (EncCall BinaryBuffer))
    (hcs : ∀ b, .encode b ∈ cs → ∃ rows, b.Shows nullable rows ∧ some [] ∉ rows) {e e' : Encoder} {s s' : S}
    (ht : Tidy m nullable e) {held : List Bytes} (hh : Items e.remaining held) (hne : ∀ v ∈ held, v ≠ [])
    (h : calls p k cs (e, s) = (.ok (), (e', s'))) :
    Tidy m nullable e' ∧ ∃ held', Items e'.remaining held' ∧ ∀ v ∈ held', v ≠ [] := by
  induction cs generalizing e s held with
  | nil => cases h; exact ⟨ht, held, hh, hne⟩
  | cons c cs ih =>
    have hcs' : ∀ b, .encode b ∈ cs → ∃ rows, b.Shows nullable rows ∧ some [] ∉ rows := fun b hb => hcs b (by simp [hb])
    cases c with
    | encode b =>
      obtain ⟨_, ⟨e1, s1⟩, h1, h2⟩ := bind_inv h
      obtain ⟨rows, hsh, hr⟩ := hcs b (by simp)
      have hit := items_of_shows hsh
      obtain ⟨_, held', g1, _, g2⟩ := encode_small_from p k m hm b _ held hit e s e1 s1 ht.size hh h1
      refine ih hcs' (ht.encode p k hit hm h1) g1 (fun v hv => ?_) h2
      rcases g2 v hv with g | g
      · exact hne v g
      · rintro rfl
        exact hr (by simpa [valuesOf] using g)
    | flush =>
      obtain ⟨_, ⟨e1, s1⟩, h1, h2⟩ := bind_inv h
      obtain ⟨g1, g2⟩ : e1.remaining = e.remaining ∧ True := by
        rw [BinaryEnc.flush, Run.bind_ok (Run.get_apply _)] at h1
        dsimp only at h1
        split at h1
        · obtain ⟨k1, k2⟩ := writeRemaining_frame p k e s
          rcases hw : writeRemaining p k (e, s) with ⟨_ | r, e2, s2⟩
          · rw [Run.bind_error hw] at h1; cases (Prod.mk.inj h1).1
          · rw [hw] at k1
            rw [Run.bind_ok hw] at h1
            cases h1
            exact ⟨k1, trivial⟩
        · cases h1; exact ⟨rfl, trivial⟩
      exact ih hcs' (ht.flush p k h1) (by rw [g1]; exact hh) hne h2

/-- A first buffer smaller than a block is held back up to its last value. -/
theorem encode_first_held (p : Profile) (nullable : Bool) (rows : List (Option Bytes)) {m : Nat}
    (hf : (valuesOf rows).flatten.length < m) (hfit : m ≤ U32_MAX) :
    ∃ e, encode p recorder (BinaryBuffer.ofRows nullable rows) (Encoder.new m nullable, []) = (.ok (), (e, [])) ∧
      Holds nullable [] e.remaining (dropTrailingNulls rows) := by
  have hrem : Holds nullable [] (Encoder.new m nullable).remaining [] := by
    have := holds_ofRows nullable []
    rw [← BinaryBuffer.new_eq] at this
    exact this
  have hnone : fill m (valuesOf rows) = none := by
    cases hj : fill m (valuesOf rows) with
    | none => rfl
    | some j =>
      have h1 := (fill_some hj).2.1
      have h2 := congrArg (fun l => l.flatten.length) (List.take_append_drop j (valuesOf rows))
      simp only [List.flatten_append, List.length_append] at h2
      omega
  have hl0 : ¬ (Encoder.new m nullable).remaining.len > 0 := by rw [hrem.len]; simp
  simp only [encode, Run.bind_apply, Run.get_apply, if_neg hl0]
  obtain ⟨e', h1, _, h3, _⟩ := encodeLoop_last p m ((BinaryBuffer.ofRows nullable rows).offsets.length) [] rows 0
    (Encoder.new m nullable) [] rfl hrem hnone hfit (fun _ => rfl)
  exact ⟨e', by simpa using h1, h3⟩

end BinaryEnc

/-- C106 for columns without nulls: with any positive block size, sink, and calls of `encode` and `flush` that all
succeed, fewer rows are held back than a block has bytes, if no value is empty. For any column this bounds the values
held back. -/
theorem C106_binary_held_partial (p : Profile) (k : Sink S) (nullable : Bool) (m : Nat) (hm : 0 < m)
    (cs : List (EncCall BinaryBuffer))
    (hcs : ∀ b, .encode b ∈ cs → ∃ rows, b.Shows nullable rows ∧ some [] ∉ rows) (s s' : S) (e : BinaryEnc.Encoder)
    (h : BinaryEnc.calls p k cs (BinaryEnc.Encoder.new m nullable, s) = (.ok (), (e, s'))) :
    e.remaining.len < m ∧ (nullable = false → e.remaining.numValues < m) := by
  have h0 : BinaryEnc.Items (BinaryEnc.Encoder.new m nullable).remaining [] := by
    have := (BinaryEnc.holds_ofRows nullable []).items
    rw [← BinaryBuffer.new_eq] at this
    exact this
  obtain ⟨ht, held, h1, h2⟩ := BinaryEnc.held_from p k hm cs hcs (.new hm nullable) h0 (fun v hv => nomatch hv) h
  have h3 := BinaryEnc.length_le_flatten h2
  have h4 := ht.lt
  rw [h1.data] at h4
  have h5 : e.remaining.len < m := by rw [h1.len]; omega
  refine ⟨h5, fun hn => ?_⟩
  have h6 := ht.nullable
  rw [hn, BinaryBuffer.isNullable] at h6
  rw [BinaryBuffer.numValues]
  cases hv : e.remaining.validity with
  | none => exact h5
  | some v => rw [hv] at h6; cases h6

/-- The same for the primitive encoder, with any values. -/
theorem C106_primitive_held_partial (p : Profile) (k : Sink S) (nullable : Bool) (m : Nat) (hm : 0 < m)
    (cs : List (EncCall (PrimitiveBuffer α))) (s s' : S) (e : PrimitiveEnc.Encoder α)
    (h : PrimitiveEnc.calls p k cs (PrimitiveEnc.Encoder.new m nullable, s) = (.ok (), (e, s'))) :
    e.remaining.len < m ∧ (nullable = false → e.remaining.numValues < m) := by
  have ht := PrimitiveEnc.Tidy.calls p k hm cs (.new hm nullable) h
  refine ⟨ht.lt, fun hn => ?_⟩
  have h6 := ht.nullable
  rw [hn, PrimitiveBuffer.isNullable] at h6
  rw [PrimitiveBuffer.numValues]
  cases hv : e.remaining.validity with
  | none => exact ht.lt
  | some v => rw [hv] at h6; cases h6

/-- C106 fails for a column of byte strings without nulls: any number of empty strings is held back, whatever the size
of a block. -/
theorem C106_empty_values_violated (p : Profile) (n m : Nat) (hm : 0 < m) (hfit : m ≤ U32_MAX) :
    ∃ b e, (BinaryBuffer.new false).pushAll (List.replicate n (some [])) = .ok b ∧
      BinaryEnc.encode p recorder b (BinaryEnc.Encoder.new m false, []) = (.ok (), (e, [])) ∧
      e.remaining.numValues = n := by
  have hv : valuesOf (List.replicate n (some ([] : Bytes))) = List.replicate n [] := by
    simp [valuesOf, List.filterMap_replicate]
  have hfl : (List.replicate n ([] : Bytes)).flatten = [] := by simp
  have hnn : none ∉ List.replicate n (some ([] : Bytes)) := by simp [List.mem_replicate]
  obtain ⟨e, h1, h2⟩ := BinaryEnc.encode_first_held p false (List.replicate n (some [])) (m := m)
    (by rw [hv, hfl]; exact hm) hfit
  refine ⟨_, e, BinaryBuffer.new_pushAll false _ (.inr hnn) (by rw [BinaryBuffer.dataLen, hv, hfl]; exact Nat.zero_le _),
    h1, ?_⟩
  have h3 : e.remaining.validity = none := h2.validity
  rw [BinaryBuffer.numValues, h3]
  show e.remaining.len = n
  rw [h2.items.len, dropTrailingNulls_values, hv, List.length_replicate]

/-- C106 fails for a nullable column of byte strings: any number of nulls before a small value is held back. -/
theorem C106_binary_nulls_violated (p : Profile) (n m : Nat) (v : Bytes) (hv : v.length < m) (hfit : m ≤ U32_MAX) :
    ∃ b e, (BinaryBuffer.new true).pushAll (List.replicate n none ++ [some v]) = .ok b ∧
      BinaryEnc.encode p recorder b (BinaryEnc.Encoder.new m true, []) = (.ok (), (e, [])) ∧
      e.remaining.numValues = n + 1 := by
  have hvals : valuesOf (List.replicate n none ++ [some v]) = [v] := by
    simp [valuesOf, List.filterMap_replicate]
  obtain ⟨e, h1, h2⟩ := BinaryEnc.encode_first_held p true (List.replicate n none ++ [some v]) (m := m)
    (by rw [hvals]; simpa using hv) hfit
  refine ⟨_, e, BinaryBuffer.new_pushAll true _ (.inl rfl) (by rw [BinaryBuffer.dataLen, hvals]; simp; omega), h1, ?_⟩
  obtain ⟨bm, h3, _, h4, _⟩ := h2.validity
  rw [BinaryBuffer.numValues, h3]
  show bm.len = n + 1
  rw [h4, dropTrailingNulls_of_ends (.inr ⟨v, by simp⟩)]
  simp

/-- C106 fails for a nullable column of any primitive type in the same way. -/
theorem C106_primitive_nulls_violated (p : Profile) (n m : Nat) (hn : n < 2 ^ 59) (v : α)
    (hm : Element.size α < m) (hm64 : m < 2 ^ 64) :
    ∃ b e, (PrimitiveBuffer.new true : PrimitiveBuffer α).pushAll (List.replicate n none ++ [some v]) = .ok b ∧
      PrimitiveEnc.encode p recorder b (PrimitiveEnc.Encoder.new m true, []) = (.ok (), (e, [])) ∧
      e.remaining.numValues = n + 1 := by
  have hvals : valuesOf (List.replicate n none ++ [some v]) = [v] := by
    simp [valuesOf, List.filterMap_replicate]
  have hper : 1 < PrimitiveEnc.perBlock α m := by
    simp only [PrimitiveEnc.perBlock]
    rcases Element.size_eq (α := α) with h | h <;> rw [h] at hm ⊢ <;> split <;> omega
  have hl0 : ¬ (PrimitiveEnc.Encoder.new m true : PrimitiveEnc.Encoder α).remaining.len > 0 := by
    simp [PrimitiveEnc.Encoder.new, PrimitiveBuffer.new, PrimitiveBuffer.len]
  obtain ⟨e, h1, h2, _, _⟩ := PrimitiveEnc.encodeLoop_ok (α := α) p true m (by omega) hm64 0
    ((PrimitiveBuffer.ofRows true (List.replicate n none ++ [some v])).len + 1) []
    (List.replicate n none ++ [some v]) 0 (PrimitiveEnc.Encoder.new m true) [] rfl (PrimitiveBuffer.new_eq true)
    (by rw [hvals]; exact (Nat.div_eq_of_lt hper).symm) (Nat.succ_pos _)
    (by simp; omega) (by rw [hvals, List.length_singleton, Nat.mod_eq_of_lt hper]; decide) (fun _ => rfl)
    (by simp [PrimitiveEnc.chunkRows, PrimitiveEnc.increments, PrimitiveEnc.Encoder.new])
  refine ⟨_, e, PrimitiveBuffer.new_pushAll true _ (.inl rfl), ?_, ?_⟩
  · rw [PrimitiveEnc.encode, PrimitiveEnc.encodeFuel, Run.bind_ok (Run.get_apply _)]
    dsimp only
    rw [if_neg hl0]
    simpa [PrimitiveEnc.chunkRows, PrimitiveEnc.blocksFrom] using h1
  · rw [h2, PrimitiveEnc.afterChunks, dropTrailingNulls_of_ends (.inr ⟨v, by simp⟩)]
    simp [PrimitiveBuffer.numValues, PrimitiveBuffer.ofRows, validityOfBits, Bitmap.ofBits_len]

/-- Two hundred empty strings and a block of 128 bytes: nothing is written and two hundred rows are held back; with
strings of one byte 127 is the most. -/
example :
    let run (v : Bytes) (n : Nat) := do
      let b ← (BinaryBuffer.new false).pushAll (List.replicate n (some v))
      let r := BinaryEnc.encode .release recorder b (BinaryEnc.Encoder.new 128 false, [])
      return (r.2.1.remaining.numValues, r.2.2.length)
    (run [] 200).toOption = some (200, 0) ∧ (run [7] 127).toOption = some (127, 0) ∧
      (run [7] 128).toOption = some (0, 1) := by
  decide +kernel

/-- Fifty nulls and one value of four bytes: 51 rows are held back with blocks of five bytes. -/
example :
    let r := do
      let b ← (PrimitiveBuffer.new true : PrimitiveBuffer Int32).pushAll (List.replicate 50 none ++ [some 7])
      let r := PrimitiveEnc.encode .debug recorder b (PrimitiveEnc.Encoder.new 5 true, [])
      return (r.2.1.remaining.numValues, r.2.2.length)
    r.toOption = some (51, 0) := by
  decide +kernel

end Meerkat
