import Verif.Proofs.BinaryExact

set_option autoImplicit false

/-! # Properties of raw/binary_enc.rs (C31–C36)

A column is given as the rows of its successive buffers; `Spec.readBinary` reads blocks back. The
histories the encoder handles are those with `Spec.Manageable`. -/

namespace Meerkat
open Spec BinaryEnc

/-- The buffers of a column, built through the API, one from each list of rows. -/
def buildBinary (nullable : Bool) (bufs : List (List (Option Bytes))) : Res (List BinaryBuffer) :=
  bufs.mapM fun rows => (BinaryBuffer.new nullable).pushAll rows

theorem buildBinary_ok {nullable : Bool} {bufs : List (List (Option Bytes))} {bs}
    (h : buildBinary nullable bufs = .ok bs) :
    (∀ b ∈ bufs, Accepts nullable b) ∧ (∀ b ∈ bufs, byteCount b ≤ U32_MAX) ∧
      bs = bufs.map (BinaryBuffer.ofRows nullable) := by
  induction bufs generalizing bs with
  | nil => simp [buildBinary, pure, Except.pure] at h; subst h; simp
  | cons b bufs ih =>
    rw [buildBinary, List.mapM_cons] at h
    rcases h1 : (BinaryBuffer.new nullable).pushAll b with x | b1
    · rw [h1] at h; cases h
    · obtain ⟨hA, hd, rfl⟩ := BinaryBuffer.new_pushAll_ok h1
      rw [h1] at h
      simp only [ok_bind] at h
      rcases hr : buildBinary nullable bufs with x | bs'
      · rw [buildBinary] at hr; rw [hr] at h; cases h
      · obtain ⟨g1, g2, g3⟩ := ih hr
        rw [buildBinary] at hr; rw [hr] at h; cases h
        refine ⟨?_, ?_, by simp [g3]⟩
        · intro c hc
          rcases List.mem_cons.mp hc with rfl | hc
          · exact hA
          · exact g1 c hc
        · intro c hc
          rcases List.mem_cons.mp hc with rfl | hc
          · exact hd
          · exact g2 c hc

theorem buildBinary_of_accepts {nullable : Bool} {bufs : List (List (Option Bytes))}
    (h : ∀ b ∈ bufs, Accepts nullable b) (hd : ∀ b ∈ bufs, byteCount b ≤ U32_MAX) :
    buildBinary nullable bufs = .ok (bufs.map (BinaryBuffer.ofRows nullable)) := by
  induction bufs with
  | nil => rfl
  | cons b bufs ih =>
    have h2 := ih (fun b' hb' => h b' (List.mem_cons_of_mem _ hb')) (fun b' hb' => hd b' (List.mem_cons_of_mem _ hb'))
    rw [buildBinary] at h2
    rw [buildBinary, List.mapM_cons,
      BinaryBuffer.new_pushAll _ _ (h b (List.mem_cons_self ..)) (hd b (List.mem_cons_self ..)), ok_bind, h2]
    rfl

/-! ## C31: one block -/

/-- 128 lengths lose no bit: the offset encoder keeps all the packed bytes. -/
theorem readableLengths_128 (lens : List Nat) (h : lens.length = 128) : ReadableLengths lens := by
  have hw := (Offsets.width_eq_iff lens (Offsets.width lens)).mp rfl
  refine ⟨Offsets.width lens, hw, fun i c hi hc => ?_⟩
  have hcb : c < Offsets.width lens := by
    have hlt : lens.getD i 0 < 2 ^ Offsets.width lens := by
      rw [List.getD_eq_getElem?_getD, List.getElem?_eq_getElem hi]
      exact hw.1 _ (List.getElem_mem ..)
    exact Classical.byContradiction fun hn => by
      rw [Nat.testBit_lt_two_pow (Nat.lt_of_lt_of_le hlt (Nat.pow_le_pow_right (by decide) (by omega)))] at hc
      cases hc
  have := Offsets.bytePos_lt (Offsets.width lens) i c (by omega) hcb
  rw [h]; omega

/-- C31 as far as it holds. Encoding the rows `mid` of a buffer `pre ++ mid ++ post` built through the
API, from the chunk describing their items, gives a block from which the rows are read back, provided
the packed lengths lose no bit in the bytes the offset encoder drops (always so for 128 items). -/
theorem C31_binary_block_partial (p q : Profile) (nullable : Bool) (pre mid post : List (Option Bytes)) (b)
    (hb : (BinaryBuffer.new nullable).pushAll (pre ++ mid ++ post) = .ok b) (be : Rle.Encoder)
    (hmid : ∃ l v, mid = l ++ [some v]) (h128 : (valuesOf mid).length ≤ 128) (hlen : mid.length < 2 ^ 32 - 7)
    (hr : ReadableLengths ((valuesOf mid).map List.length) ∨ (valuesOf mid).length = 128) :
    ∃ r, encodeBinaryBuffer p b
        { startPos := (valuesOf pre).length, endPos := (valuesOf (pre ++ mid)).length,
          startOffset := (valuesOf pre).flatten.length, endOffset := (valuesOf (pre ++ mid)).flatten.length,
          size := (valuesOf mid).flatten.length, len := (valuesOf mid).length } pre.length be = .ok r ∧
      readBinary q nullable (valuesOf mid).length r.data = some mid := by
  obtain ⟨hA, hd, rfl⟩ := BinaryBuffer.new_pushAll_ok hb
  have hU : U32_MAX = 2 ^ 32 - 1 := rfl
  have hsz : byteCount mid ≤ U32_MAX := by
    have := byteCount_append (pre ++ mid) post
    rw [byteCount_append pre mid] at this
    unfold byteCount at this ⊢
    unfold BinaryBuffer.dataLen at hd
    omega
  have hend : EndsWithValue mid := by
    obtain ⟨l, v, rfl⟩ := hmid; simp [EndsWithValue]
  have h1 : 1 ≤ (valuesOf mid).length := by
    obtain ⟨l, v, rfl⟩ := hmid; simp [valuesOf]
  have hacc : Accepts nullable mid := accepts_sub hA (fun x hx => by simp [hx])
  have hsrc := holds_ofRows nullable (pre ++ mid ++ post)
  obtain ⟨be', ds, h⟩ := encodeBinaryBuffer_ok p hsrc pre.length (hsrc.shows_mid hacc hend) be
    (by rw [validityOf_length]; omega) (by omega) h1 h128
  have hr' : ReadableLengths ((valuesOf mid).map List.length) := by
    rcases hr with h | h
    · exact h
    · exact readableLengths_128 _ (by simpa using h)
  exact ⟨_, h, readBinary_blockBytes q nullable mid hend hacc hlen (by omega) h128 hr'⟩

/-- Blocks that are read back: 128 items, and one item after a null. -/
example (p q : Profile) (be : Rle.Encoder) :
    (∃ b r, (BinaryBuffer.new false).pushAll (List.replicate 127 (some [7, 8]) ++ [some [9]]) = .ok b ∧
      encodeBinaryBuffer p b ⟨0, 128, 0, 255, 255, 128⟩ 0 be = .ok r ∧
      readBinary q false 128 r.data = some (List.replicate 127 (some [7, 8]) ++ [some [9]])) ∧
    ∃ b r, (BinaryBuffer.new true).pushAll ([some [1]] ++ [none, some [7, 8, 9]] ++ [none]) = .ok b ∧
      encodeBinaryBuffer p b ⟨1, 2, 1, 4, 3, 1⟩ 1 be = .ok r ∧
      readBinary q true 1 r.data = some [none, some [7, 8, 9]] := by
  constructor
  · have hb := BinaryBuffer.new_pushAll false (List.replicate 127 (some [7, 8]) ++ [some [9]]) (.inr (by decide +kernel))
      (by decide +kernel)
    obtain ⟨r, h1, h2⟩ := C31_binary_block_partial p q false [] (List.replicate 127 (some [7, 8]) ++ [some [9]]) [] _
      (by rw [List.nil_append, List.append_nil]; exact hb) be ⟨_, _, rfl⟩ (by decide +kernel) (by decide +kernel)
      (.inr (by decide +kernel))
    have hv : (valuesOf (List.replicate 127 (some [7, 8]) ++ [some [9]] : List (Option Bytes))).length = 128 ∧
      (valuesOf (List.replicate 127 (some [7, 8]) ++ [some [9]] : List (Option Bytes))).flatten.length = 255 := by
      decide +kernel
    rw [List.nil_append, hv.1, hv.2] at h1
    rw [hv.1] at h2
    exact ⟨_, r, hb, h1, h2⟩
  · have hb := BinaryBuffer.new_pushAll true ([some [1]] ++ [none, some [7, 8, 9]] ++ [none]) (.inl rfl) (by decide)
    obtain ⟨r, h1, h2⟩ := C31_binary_block_partial p q true [some [1]] [none, some [7, 8, 9]] [none] _ hb be
      ⟨[none], _, rfl⟩ (by decide) (by decide)
      (.inl ⟨2, ⟨by decide, .inr ⟨3, by decide⟩⟩, fun i c hi hc => by
        have : i = 0 := by simp [valuesOf] at hi; exact hi
        subst this
        have hc : (3 : Nat).testBit c = true := hc
        have hc2 : c < 2 := Classical.byContradiction fun hn => by
          rw [Nat.testBit_lt_two_pow (Nat.lt_of_lt_of_le (by decide : (3 : Nat) < 2 ^ 2)
            (Nat.pow_le_pow_right (by decide) (by omega)))] at hc
          cases hc
        rcases c with _ | _ | c
        · decide
        · decide
        · omega⟩)
    exact ⟨_, r, hb, h1, h2⟩

/-- The block `encode` calls and `flush` write for one buffer of rows. -/
def oneBlock (p : Profile) (nullable : Bool) (rows : List (Option Bytes)) : Option (List (Nat × Bytes)) :=
  match buildBinary nullable [rows] with
  | .error _ => none
  | .ok bs =>
    match encodeColumn p recorder bs (Encoder.new 128 nullable, []) with
    | (.ok (), (_, blocks)) => some blocks
    | _ => none

/-- C31 fails: two columns of three items give the same single block with the same row id, so no
reader whatever can tell them apart, even when told the row id as well. -/
theorem C31_binary_block_violated (p : Profile) (nullable : Bool) (R : Type)
    (reader : Bool → Nat × Bytes → R) (rows : R → List (Option Bytes)) :
    ¬ ∀ col block, oneBlock p nullable col = some [block] → rows (reader nullable block) = col := by
  intro h
  cases p <;> cases nullable
  · have h1 := h [some [1, 2], some [3], some []] (2, [3, 1, 2, 3, 2, 2]) (by decide +kernel)
    have h2 := h [some [1, 2], some [], some [3]] (2, [3, 1, 2, 3, 2, 2]) (by decide +kernel)
    rw [h1] at h2; revert h2; decide
  · have h1 := h [some [1, 2], some [3], some []] (2, [3, 1, 2, 3, 2, 2, 3, 7]) (by decide +kernel)
    have h2 := h [some [1, 2], some [], some [3]] (2, [3, 1, 2, 3, 2, 2, 3, 7]) (by decide +kernel)
    rw [h1] at h2; revert h2; decide
  · have h1 := h [some [1, 2], some [3], some []] (2, [3, 1, 2, 3, 2, 2]) (by decide +kernel)
    have h2 := h [some [1, 2], some [], some [3]] (2, [3, 1, 2, 3, 2, 2]) (by decide +kernel)
    rw [h1] at h2; revert h2; decide
  · have h1 := h [some [1, 2], some [3], some []] (2, [3, 1, 2, 3, 2, 2, 3, 7]) (by decide +kernel)
    have h2 := h [some [1, 2], some [], some [3]] (2, [3, 1, 2, 3, 2, 2, 3, 7]) (by decide +kernel)
    rw [h1] at h2; revert h2; decide

/-! ## Runs on manageable histories -/

/-- What a run on a manageable history writes. -/
theorem binary_run (p : Profile) {nullable : Bool} {m : Nat} (hm : 0 < m) {bufs : List (List (Option Bytes))} {bs}
    (hb : buildBinary nullable bufs = .ok bs) (hlen : bufs.flatten.length < 2 ^ 32)
    (hm32 : m ≤ U32_MAX)
    (hman : Manageable m nullable [] [] bufs) :
    ∃ e, encodeColumn p recorder bs (Encoder.new m nullable, []) =
      (.ok (), (e, blocksOf nullable 0 (fillGroups m [] bufs))) := by
  obtain ⟨hA, hD, rfl⟩ := buildBinary_ok hb
  have hz : (Encoder.new m nullable).numRows = 0 := rfl
  obtain ⟨e, h⟩ := encodeColumn_ok p nullable m hm hm32 bufs [] [] (Encoder.new m nullable) [] rfl
    (by
      have := holds_ofRows nullable []
      rw [← BinaryBuffer.new_eq] at this
      exact this)
    (.inl rfl) (by simpa [byteCount] using hm) (.inr (by simp)) hA hD hman
    (by rw [hz]; simpa using hlen)
  exact ⟨e, by rw [h, hz, List.nil_append]⟩

theorem group_facts {nullable : Bool} {m : Nat} {bufs : List (List (Option Bytes))} {bs : List BinaryBuffer}
    (hb : buildBinary nullable bufs = .ok bs) (hlen : bufs.flatten.length < 2 ^ 32 - 7)
    (hm : 0 < m) (hm32 : m ≤ U32_MAX)
    (hman : Manageable m nullable [] [] bufs) :
    ∀ g ∈ fillGroups m [] bufs, EndsWithValue g ∧ Accepts nullable g ∧ g.length < 2 ^ 32 - 7 ∧
      byteCount g < 2 ^ 32 ∧ (valuesOf g).length ≤ 128 := by
  obtain ⟨hA, hD, rfl⟩ := buildBinary_ok hb
  intro g hg
  have hrows := fillGroups_rows m bufs [] (.inl rfl)
  rw [List.nil_append] at hrows
  have hdl : ∀ (bs : List (List (Option Bytes))), (bs.flatMap dropTrailingNulls).length ≤ bs.flatten.length := by
    intro bs; induction bs with
    | nil => simp
    | cons b bs ih =>
      have := dropTrailingNulls_length_le b
      rw [List.flatMap_cons, List.flatten_cons, List.length_append, List.length_append]
      omega
  have hsub : g.Sublist (bufs.flatMap dropTrailingNulls) := by
    rw [← hrows]; exact List.sublist_flatten_of_mem hg
  refine ⟨fillGroups_ends m bufs [] (.inl rfl) g hg, ?_, ?_, ?_, fillGroups_128 bufs [] [] hman g hg⟩
  · cases nullable with
    | true => exact .inl rfl
    | false =>
      refine .inr fun hn => ?_
      obtain ⟨b, hb, hrb⟩ := List.mem_flatMap.mp (hsub.subset hn)
      rcases hA b hb with h | h
      · cases h
      · exact h (mem_of_mem_dropTrailingNulls hrb)
  · have := hsub.length_le
    have := hdl bufs
    omega
  · have := fillGroups_bytes hm32 bufs [] [] (by simpa [byteCount, valuesOf] using hm) hD hman g hg
    have hU : U32_MAX = 2 ^ 32 - 1 := rfl
    omega

/-! ## C33: completing -/

/-- C33 as far as it holds: on manageable histories, `encode` and `flush` return normally, in both
build profiles. -/
theorem C33_binary_completes_partial (p : Profile) (nullable : Bool) (m : Nat) (hm : 0 < m)
    (bufs : List (List (Option Bytes))) (bs) (hb : buildBinary nullable bufs = .ok bs)
    (hlen : bufs.flatten.length < 2 ^ 32) (hm32 : m ≤ U32_MAX)
    (hman : Manageable m nullable [] [] bufs) :
    ∃ e blocks, encodeColumn p recorder bs (Encoder.new m nullable, []) = (.ok (), (e, blocks)) := by
  obtain ⟨e, h⟩ := binary_run p hm hb hlen hm32 hman
  exact ⟨e, _, h⟩

theorem items_le_bytes (vs : List Bytes) (h : [] ∉ vs) : vs.length ≤ vs.flatten.length := by
  induction vs with
  | nil => simp
  | cons v vs ih =>
    have h1 := ih (fun hn => h (List.mem_cons_of_mem _ hn))
    have h2 : 0 < v.length := List.length_pos_iff.mpr (fun hv => h (by simp [hv]))
    rw [List.flatten_cons, List.length_append, List.length_cons]; omega

theorem nonempty_takeVals {rows : List (Option Bytes)} (h : some [] ∉ rows) : [] ∉ valuesOf rows := by
  intro hn
  simp only [valuesOf, List.mem_filterMap, id] at hn
  obtain ⟨r, hr, rfl⟩ := hn
  exact h hr

/-- A block completed by one item too many has at most `m` items when none is empty. -/
theorem group_items {m : Nat} {held b : List (Option Bytes)} (hlt : byteCount held < m)
    (hh : some [] ∉ held) (hb : some [] ∉ b) :
    ∀ g ∈ (fillStep m held b).1, (valuesOf g).length ≤ m := by
  simp only [fillStep]
  cases hf : fill (m - byteCount held) (valuesOf b) with
  | none => simp
  | some j =>
    simp only [List.mem_singleton, forall_eq, valuesOf_append, List.length_append, takeVals_values, List.length_take]
    obtain ⟨h1, h2, h3⟩ := fill_some hf
    have hj := fill_pos hf (by omega)
    have h4 := h3 (j - 1) (by omega)
    have h5 := items_le_bytes ((valuesOf b).take (j - 1))
      (fun hn => nonempty_takeVals hb (List.mem_of_mem_take hn))
    have h6 := items_le_bytes (valuesOf held) (nonempty_takeVals hh)
    rw [List.length_take] at h5
    unfold byteCount at h4 hlt
    omega

/-- A plain sufficient condition: no nulls, no empty strings, every buffer smaller than a block, and
blocks of at most 128 bytes (128 is the size segment_writer.rs uses). -/
theorem manageable_of_small (m : Nat) (hm : 0 < m) (hm128 : m ≤ 128) (nullable : Bool)
    (bufs : List (List (Option Bytes))) (hnone : ∀ b ∈ bufs, none ∉ b) (hempty : ∀ b ∈ bufs, some [] ∉ b)
    (hsmall : ∀ b ∈ bufs, byteCount b < m) : ∀ (stale : List Bool) (held : List (Option Bytes)),
    none ∉ held → some [] ∉ held → byteCount held < m → EndsWithValue held →
    Manageable m nullable stale held bufs := by
  induction bufs with
  | nil =>
    intro stale held h1 h2 h3 _
    have := items_le_bytes (valuesOf held) (nonempty_takeVals h2)
    unfold byteCount at h3
    exact ⟨by omega, fun _ => seenBits_full stale h1⟩
  | cons b bufs ih =>
    intro stale held h1 h2 h3 h4
    have hmem : ∀ x ∈ (fillStep m held b).2, x ∈ held ∨ x ∈ b := by
      intro x hx
      have : x ∈ held ++ dropTrailingNulls b := by rw [← fillStep_rows]; exact List.mem_append_right _ hx
      rcases List.mem_append.mp this with h | h
      · exact .inl h
      · exact .inr (mem_of_mem_dropTrailingNulls h)
    have hmem' : ∀ g ∈ (fillStep m held b).1, ∀ x ∈ g, x ∈ held ∨ x ∈ b := by
      intro g hg x hx
      have : x ∈ held ++ dropTrailingNulls b := by
        rw [← fillStep_rows]; exact List.mem_append_left _ (List.mem_flatten.mpr ⟨g, hg, hx⟩)
      rcases List.mem_append.mp this with h | h
      · exact .inl h
      · exact .inr (mem_of_mem_dropTrailingNulls h)
    have hbn := hnone b (by simp)
    have hbe := hempty b (by simp)
    have hbs := hsmall b (by simp)
    have hleft : (fillStep m held b).1 ≠ [] → byteCount (fillStep m held b).2 < m := by
      intro hne
      have hr := congrArg byteCount (fillStep_rows m held b)
      rw [byteCount_append, byteCount_append, byteCount_dropTrailingNulls] at hr
      simp only [fillStep] at hne hr ⊢
      cases hf : fill (m - byteCount held) (valuesOf b) with
      | none => rw [hf] at hne; simp at hne
      | some j =>
        rw [hf] at hr
        simp only [List.flatten_cons, List.flatten_nil, List.append_nil, byteCount_append] at hr ⊢
        omega
    have hn2 : none ∉ (fillStep m held b).2 := fun h => (hmem _ h).elim h1 hbn
    have he2 : some [] ∉ (fillStep m held b).2 := fun h => (hmem _ h).elim h2 hbe
    refine ⟨hleft, fun g hg => ⟨Nat.le_trans (group_items h3 h2 hbe g hg) hm128, fun _ => by
      have := fillStep_bytes g hg
      omega⟩,
      fun _ _ g hg => seenBits_full stale fun h => (hmem' g hg _ h).elim h1 hbn, ?_⟩
    exact ih (fun b' hb' => hnone b' (by simp [hb'])) (fun b' hb' => hempty b' (by simp [hb']))
      (fun b' hb' => hsmall b' (by simp [hb'])) _ _ hn2 he2 (fillStep_small h3 hleft) (fillStep_ends m h4).2

/-- C33 fails, in both build profiles: two items of a block each in one buffer; 129 items in one
block; block size zero. -/
theorem C33_binary_completes_violated (p : Profile) (nullable : Bool) :
    (∃ bs, buildBinary nullable [[some [1, 2, 3, 4], some [5, 6, 7, 8]]] = .ok bs ∧
      (encodeColumn p recorder bs (Encoder.new 4 nullable, [])).1 = .error (.panic .assertion)) ∧
    (∃ bs, buildBinary nullable [List.replicate 129 (some [])] = .ok bs ∧
      ∃ f, (encodeColumn p recorder bs (Encoder.new 128 nullable, [])).1 = .error (.panic f)) ∧
    (∃ bs, buildBinary nullable [[some [1]]] = .ok bs ∧
      (encodeColumn p recorder bs (Encoder.new 0 nullable, [])).1 = .error (.panic .assertion)) := by
  refine ⟨⟨_, buildBinary_of_accepts (by simp [Accepts]) (by simp [byteCount, valuesOf, U32_MAX]), ?_⟩,
    ⟨_, buildBinary_of_accepts (by simp [Accepts]) (by decide), ?_⟩,
    ⟨_, buildBinary_of_accepts (by simp [Accepts]) (by simp [byteCount, valuesOf, U32_MAX]), ?_⟩⟩
  · cases p <;> cases nullable <;> decide +kernel
  · cases p <;> cases nullable <;> exact ⟨.assertion, by decide +kernel⟩
  · cases p <;> cases nullable <;> decide +kernel

/-- Two columns of the segment writer's block size that are handled: one with held back rows, one with
nulls. -/
example : Manageable 128 true [] [] [[some [1, 2], none, some [], none], [none, some [3]]] ∧
    Manageable 4 false [] [] [[some [1, 2]], [some [3], some [4, 5, 6], some [7]]] := by
  decide

/-! ## C32: values -/

theorem mapM_some_of_forall {α β : Type} {f : α → Option β} {g : α → β} {l : List α}
    (h : ∀ x ∈ l, f x = some (g x)) : l.mapM f = some (l.map g) := by
  induction l with
  | nil => rfl
  | cons a l ih =>
    rw [List.mapM_cons, h a (by simp), ih (fun x hx => h x (by simp [hx]))]
    rfl

/-- Reading blocks one by one, being told the number of items of each. -/
def readBlocks (q : Profile) (nullable : Bool) (blocks : List (Nat × Bytes)) : Option (List (List (Option Bytes))) :=
  blocks.mapM fun b => readBinary q nullable b.1 b.2

theorem binary_values {bufs : List (List (Option Bytes))} (m : Nat) :
    valuesOf (fillGroups m [] bufs).flatten = valuesOf bufs.flatten := by
  rw [fillGroups_rows m bufs [] (.inl rfl), List.nil_append]
  induction bufs with
  | nil => rfl
  | cons b bs ih => rw [List.flatMap_cons, List.flatten_cons, valuesOf_append, valuesOf_append, ih,
      dropTrailingNulls_values]

/-- C32 as far as it holds, on manageable histories. The data bytes of the blocks, one after the other,
are the bytes of all byte strings of all buffers, in order. And when no block loses bits of its lengths,
reading each block, knowing its number of items, gives back exactly the byte strings, in order. -/
theorem C32_binary_values_partial (p q : Profile) (nullable : Bool) (m : Nat) (hm : 0 < m)
    (bufs : List (List (Option Bytes))) (bs) (hb : buildBinary nullable bufs = .ok bs)
    (hlen : bufs.flatten.length < 2 ^ 32 - 7) (hm32 : m ≤ U32_MAX)
    (hman : Manageable m nullable [] [] bufs) (e blocks)
    (hrun : encodeColumn p recorder bs (Encoder.new m nullable, []) = (.ok (), (e, blocks))) :
    ∃ datas, (blocks.map (·.2)).mapM (blockData q) = some datas ∧
      datas.flatten = (valuesOf bufs.flatten).flatten ∧
      ((∀ g ∈ fillGroups m [] bufs, ReadableLengths ((valuesOf g).map List.length)) →
        ∃ (counts : List Nat) (groups : _), counts.length = blocks.length ∧
          readBlocks q nullable (counts.zip (blocks.map (·.2))) = some groups ∧
          valuesOf groups.flatten = valuesOf bufs.flatten) := by
  obtain ⟨e', h⟩ := binary_run p hm hb (by omega) hm32 hman
  rw [h] at hrun
  simp only [Prod.mk.injEq, true_and] at hrun
  obtain ⟨_, rfl⟩ := hrun
  have hg := group_facts hb hlen hm hm32 hman
  rw [blocksOf_data]
  refine ⟨(fillGroups m [] bufs).map fun g => (valuesOf g).flatten, ?_, ?_, fun hr => ?_⟩
  · rw [List.mapM_map]
    exact mapM_some_of_forall fun g hgm => blockData_blockBytes q nullable g (hg g hgm).2.2.2.1
  · have := binary_values (bufs := bufs) m
    rw [← this]
    generalize fillGroups m [] bufs = gs
    induction gs with
    | nil => rfl
    | cons g gs ih => rw [List.map_cons, List.flatten_cons, List.flatten_cons, valuesOf_append,
        List.flatten_append, ih]
  · refine ⟨(fillGroups m [] bufs).map fun g => (valuesOf g).length, fillGroups m [] bufs, ?_, ?_, binary_values m⟩
    · have := congrArg List.length (blocksOf_data nullable 0 (fillGroups m [] bufs))
      rw [List.length_map, List.length_map] at this
      rw [List.length_map, this]
    · rw [readBlocks, List.zip_map', List.mapM_map]
      have := mapM_some_of_forall (l := fillGroups m [] bufs) (g := id)
        (f := fun g => readBinary q nullable (valuesOf g).length (blockBytes nullable g)) fun g hgm =>
          readBinary_blockBytes q nullable g (hg g hgm).1 (hg g hgm).2.1 (hg g hgm).2.2.1 (hg g hgm).2.2.2.1
            (hg g hgm).2.2.2.2 (hr g hgm)
      rw [List.map_id] at this
      exact this

/-- The result and the sink of a run, without the encoder. -/
def outcome {E S : Type} (r : Except Fault Unit × (E × S)) : Except Fault Unit × S := (r.1, r.2.2)

theorem of_outcome {E S : Type} {r : Except Fault Unit × (E × S)} {a : Except Fault Unit} {b : S}
    (h : outcome r = (a, b)) : ∃ e, r = (a, (e, b)) := by
  obtain ⟨x, e, y⟩ := r
  cases h
  exact ⟨e, rfl⟩

/-- C32 fails: three items, blocks of two bytes, in both build profiles. The last byte string is written
twice, and a byte is written that the block's lengths do not account for. -/
theorem C32_binary_values_violated (p q : Profile) :
    ∃ bs e blocks, buildBinary false [[some [1, 1], some [2], some [3]]] = .ok bs ∧
      encodeColumn p recorder bs (Encoder.new 2 false, []) = (.ok (), (e, blocks)) ∧
      (blocks.map (·.2)).mapM (blockData q) = some [[1, 1], [2, 3], [3]] ∧
      (blocks.map (·.2)).map (readBinary q false 1) = [some [some [1, 1]], none, some [some [3]]] := by
  have hb := buildBinary_of_accepts (nullable := false) (bufs := [[some [1, 1], some [2], some [3]]])
    (by simp [Accepts]) (by simp [byteCount, valuesOf, U32_MAX])
  obtain ⟨e, h⟩ := of_outcome (r := encodeColumn p recorder ([[some [1, 1], some [2], some [3]]].map
    (BinaryBuffer.ofRows false)) (Encoder.new 2 false, [])) (a := .ok ())
    (b := [(0, [2, 1, 1, 2, 2]), (1, [2, 2, 3, 1, 1]), (2, [1, 3, 1, 1])]) (by cases p <;> decide +kernel)
  refine ⟨_, e, _, hb, h, ?_, ?_⟩ <;> cases q <;> decide +kernel

/-- Generally: a full chunk that does not start at the beginning of its buffer is never written
correctly. Either the encoder panics, or the lengths in the block account for fewer bytes than it has. -/
theorem C32_binary_second_chunk_violated (p q : Profile) (nullable : Bool) (rows : List (Option Bytes)) (b)
    (hb : (BinaryBuffer.new nullable).pushAll rows = .ok b) (hlen : rows.length < 2 ^ 63) (m pos : Nat)
    (hpos : 0 < pos) (c : BinaryChunk) (hc : chunk p b pos m = .ok c) (hfull : m ≤ c.size)
    (bitPos : Nat) (be : Rle.Encoder) (r : Encoded) (h : encodeBinaryBuffer p b c bitPos be = .ok r) :
    ∃ data lens rest, r.data = Varint.varintBytes data.length ++ data ++ Offsets.offsetBytes lens ++ rest ∧
      blockData q r.data = some data ∧ 1 ≤ lens.length ∧ lens.length ≤ 128 ∧ lens.sum < data.length := by
  obtain ⟨hA, hd, rfl⟩ := BinaryBuffer.new_pushAll_ok hb
  have hU : U32_MAX = 2 ^ 32 - 1 := rfl
  have hitems : Items (BinaryBuffer.ofRows nullable rows) (valuesOf rows) := (holds_ofRows nullable rows).items
  have hle : pos ≤ (valuesOf rows).length := by
    apply Classical.byContradiction
    intro hn
    have hnone : (BinaryBuffer.ofRows nullable rows).offsets[pos]? = none := by
      rw [List.getElem?_eq_none_iff, hitems.offsets, offsetsOf_length]; omega
    rw [chunk, index, hnone] at hc
    cases hc
  have hvl : (valuesOf rows).length ≤ rows.length := List.length_filterMap_le ..
  have hsplit : (valuesOf rows) = (valuesOf rows).take pos ++ (valuesOf rows).drop pos :=
    (List.take_append_drop pos _).symm
  have hl : ((valuesOf rows).take pos).length = pos := by rw [List.length_take]; omega
  have hce := chunk_eq p (BinaryBuffer.ofRows nullable rows) ((valuesOf rows).take pos) ((valuesOf rows).drop pos)
    (by rw [← hsplit]; exact hitems.offsets) m
  rw [hl, hc] at hce
  cases hf : fill m ((valuesOf rows).drop pos) with
  | none =>
    rw [hf] at hce
    simp only [Except.ok.injEq] at hce
    subst hce
    have := fill_none hf
    simp only at hfull
    omega
  | some j =>
    obtain ⟨data, lens, rest, h1, h2, h3, h4, h5, h6, _⟩ := second_chunk_inconsistent p _ ((valuesOf rows).take pos)
      ((valuesOf rows).drop pos) (by rw [← hsplit]; exact hitems) (by omega) m j hf
      (by rw [← hsplit]; omega) (by rw [← hsplit]; unfold BinaryBuffer.dataLen at hd; omega)
      c (by rw [hl]; exact hc) bitPos be r h
    refine ⟨data, lens, rest, h1, ?_, h2, h3, by omega⟩
    rw [h1, List.append_assoc _ (Offsets.offsetBytes lens)]
    exact blockData_layout q data _ (by omega)

theorem mapM_none_of_mem {α β : Type} {f : α → Option β} {l : List α} {x : α} (hx : x ∈ l) (h : f x = none) :
    l.mapM f = none := by
  induction l with
  | nil => simp at hx
  | cons a l ih =>
    rw [List.mapM_cons]
    rcases List.mem_cons.mp hx with rfl | hx
    · rw [h]; rfl
    · rw [ih hx]
      cases f a <;> rfl

/-- No counts make a list of blocks readable that contains an unreadable one. -/
theorem readBlocks_unreadable (q : Profile) (counts : List Nat) (blocks : List Bytes) (b : Bytes) (hb : b ∈ blocks)
    (hlen : counts.length = blocks.length) (h : Unreadable q b) :
    readBlocks q false (counts.zip blocks) = none := by
  obtain ⟨i, hi, rfl⟩ := List.mem_iff_getElem.mp hb
  have hm : (counts[i]'(by omega), blocks[i]) ∈ counts.zip blocks :=
    List.mem_iff_getElem.mpr ⟨i, by simp; omega, by simp⟩
  exact mapM_none_of_mem hm (h _)

/-- C32 and C33 exactly, for non-nullable columns, in both build profiles: the run completes and its blocks
can be read back, with some numbers of items, to the byte strings of the column, if and only if the
history is manageable and no block loses bits of its lengths. -/
theorem C32_binary_values_exact (p q : Profile) (m : Nat) (hm : 0 < m)
    (bufs : List (List (Option Bytes))) (bs) (hb : buildBinary false bufs = .ok bs)
    (hlen : bufs.flatten.length < 2 ^ 32 - 7) (hm32 : m ≤ U32_MAX) :
    (∃ (e : Encoder) (blocks : List (Nat × Bytes)) (counts : List Nat) (groups : List (List (Option Bytes))),
      encodeColumn p recorder bs (Encoder.new m false, []) = (.ok (), (e, blocks)) ∧
      counts.length = blocks.length ∧ readBlocks q false (counts.zip (blocks.map (·.2))) = some groups ∧
      valuesOf groups.flatten = valuesOf bufs.flatten) ↔
    Manageable m false [] [] bufs ∧
      ∀ g ∈ fillGroups m [] bufs, ReadableLengths ((valuesOf g).map List.length) := by
  constructor
  · rintro ⟨e, blocks, counts, groups, hrun, hcl, hread, _⟩
    have hman : Manageable m false [] [] bufs := by
      apply Classical.byContradiction
      intro hman
      obtain ⟨hA, hD, hbs⟩ := buildBinary_ok hb
      have hz : (Encoder.new m false).numRows = 0 := rfl
      obtain ⟨x, hx, hu⟩ := encodeColumn_spoils p q m hm hm32 bufs [] [] (Encoder.new m false) [] rfl
        (by
          have := holds_ofRows false []
          rw [← BinaryBuffer.new_eq] at this
          exact this)
        (.inl rfl) (by simpa [byteCount] using hm) (.inr (by simp)) hA hD hman
        (by rw [hz, List.length_nil]; omega) e blocks (by rw [← hbs]; exact hrun)
      rw [readBlocks_unreadable q counts (blocks.map (·.2)) x.2 (List.mem_map_of_mem hx) (by simpa using hcl) hu]
        at hread
      cases hread
    refine ⟨hman, fun g hg => ?_⟩
    apply Classical.byContradiction
    intro hr
    obtain ⟨e', h⟩ := binary_run p hm hb (by omega) hm32 hman
    rw [h] at hrun
    simp only [Prod.mk.injEq, true_and] at hrun
    obtain ⟨_, rfl⟩ := hrun
    obtain ⟨_, _, _, h4, h5⟩ := group_facts hb hlen hm hm32 hman g hg
    rw [readBlocks_unreadable q counts _ (blockBytes false g)
      (by rw [blocksOf_data]; exact List.mem_map_of_mem hg) (by simpa using hcl) (unreadable_blockBytes q g h4 h5 hr)]
      at hread
    cases hread
  · rintro ⟨hman, hr⟩
    obtain ⟨e, h⟩ := binary_run p hm hb (by omega) hm32 hman
    obtain ⟨_, _, _, hval⟩ := C32_binary_values_partial p q false m hm bufs bs hb hlen hm32 hman e _ h
    obtain ⟨counts, groups, h1, h2, h3⟩ := hval hr
    exact ⟨e, _, counts, groups, h, h1, h2, h3⟩

/-- Both sides occur: a column of one-byte strings in blocks of two bytes is read back when each buffer is
small, and is not when they come in one buffer. -/
example : (Manageable 2 false [] [] [[some [1], some [2]], [some [3]]]) ∧
    ¬ Manageable 2 false [] [] [[some [1], some [2], some [3], some [4]]] := by
  decide

/-! ## C34: row ids -/

theorem describes_blocksOf (q : Profile) (nullable : Bool) (gs : List (List (Option Bytes))) : ∀ n,
    (∀ g ∈ gs, g.length < 2 ^ 32 - 7 ∧ byteCount g < 2 ^ 32 ∧ (valuesOf g).length ≤ 128) →
    Describes q nullable gs (blocksOf nullable n gs) := by
  induction gs with
  | nil => intro n _; exact ⟨rfl, by simp⟩
  | cons g gs ih =>
    intro n h
    obtain ⟨h1, h2⟩ := ih (n + g.length) (fun g' hg' => h g' (by simp [hg']))
    obtain ⟨g1, g2, g3⟩ := h g (by simp)
    refine ⟨by simp [blocksOf, h1], ?_⟩
    intro x hx
    rw [blocksOf, List.zip_cons_cons] at hx
    rcases List.mem_cons.mp hx with rfl | hx
    · refine ⟨blockData_blockBytes q nullable g g2, ?_⟩
      rintro rfl
      exact readPositions_blockBytes q g g1 g2 g3
    · exact h2 x hx

/-- C34, exactly, on manageable histories: the row ids are the zero-based indexes of the last row of
each group, where the groups are the rows of the column without the trailing nulls of each buffer. -/
theorem C34_binary_row_ids_exact (p q : Profile) (nullable : Bool) (m : Nat) (hm : 0 < m)
    (bufs : List (List (Option Bytes))) (bs) (hb : buildBinary nullable bufs = .ok bs)
    (hlen : bufs.flatten.length < 2 ^ 32 - 7) (hm32 : m ≤ U32_MAX)
    (hman : Manageable m nullable [] [] bufs) (e blocks)
    (hrun : encodeColumn p recorder bs (Encoder.new m nullable, []) = (.ok (), (e, blocks))) :
    ∃ groups, groups.flatten = bufs.flatMap dropTrailingNulls ∧ Describes q nullable groups blocks ∧
      blocks.map (·.1) = lastRowIds 0 groups := by
  obtain ⟨e', h⟩ := binary_run p hm hb (by omega) hm32 hman
  rw [h] at hrun
  simp only [Prod.mk.injEq, true_and] at hrun
  obtain ⟨_, rfl⟩ := hrun
  have hg := group_facts hb hlen hm hm32 hman
  exact ⟨fillGroups m [] bufs, by rw [fillGroups_rows m bufs [] (.inl rfl), List.nil_append],
    describes_blocksOf q nullable _ 0 (fun g hgm => (hg g hgm).2.2), blocksOf_ids ..⟩

theorem flatMap_ends {bufs : List (List (Option Bytes))} (hend : ∀ b ∈ bufs, b = [] ∨ ∃ l v, b = l ++ [some v]) :
    bufs.flatMap dropTrailingNulls = bufs.flatten := by
  induction bufs with
  | nil => rfl
  | cons b l ih =>
    have hb : EndsWithValue b := by
      rcases hend b (by simp) with rfl | ⟨l, v, rfl⟩ <;> simp [EndsWithValue]
    rw [List.flatMap_cons, List.flatten_cons, ih (fun b' hb' => hend b' (List.mem_cons_of_mem _ hb')),
      dropTrailingNulls_of_ends hb]

/-- C34 as far as it holds: when moreover every buffer ends with a value (or is empty), the groups are
the rows of the column, so each row id is the index of the last row of its block. -/
theorem C34_binary_row_ids_partial (p q : Profile) (nullable : Bool) (m : Nat) (hm : 0 < m)
    (bufs : List (List (Option Bytes))) (bs) (hb : buildBinary nullable bufs = .ok bs)
    (hlen : bufs.flatten.length < 2 ^ 32 - 7) (hm32 : m ≤ U32_MAX)
    (hman : Manageable m nullable [] [] bufs) (hend : ∀ b ∈ bufs, b = [] ∨ ∃ l v, b = l ++ [some v]) (e blocks)
    (hrun : encodeColumn p recorder bs (Encoder.new m nullable, []) = (.ok (), (e, blocks))) :
    ∃ groups, groups.flatten = bufs.flatten ∧ Describes q nullable groups blocks ∧
      blocks.map (·.1) = lastRowIds 0 groups := by
  rw [← flatMap_ends hend]
  exact C34_binary_row_ids_exact p q nullable m hm bufs bs hb hlen hm32 hman e blocks hrun

/-- C34 fails. With a null at the end of the first buffer the only block of a three-row column has row
id 1. With two blocks from one nullable buffer the row ids go past the end of the column. -/
theorem C34_binary_row_ids_violated (p : Profile) :
    (∃ bs e block, buildBinary true [[some [1], none], [some [2]]] = .ok bs ∧
      encodeColumn p recorder bs (Encoder.new 128 true, []) = (.ok (), (e, [(1, block)]))) ∧
    ∃ bs e b1 b2 b3, buildBinary true [[some [1, 1], some [2], some [3]]] = .ok bs ∧
      encodeColumn p recorder bs (Encoder.new 2 true, []) = (.ok (), (e, [(0, b1), (2, b2), (3, b3)])) := by
  constructor
  · have hb := buildBinary_of_accepts (nullable := true) (bufs := [[some [1], none], [some [2]]])
      (by simp [Accepts]) (by simp [byteCount, valuesOf, U32_MAX])
    obtain ⟨e, h⟩ := of_outcome (r := encodeColumn p recorder ([[some [1], none], [some [2]]].map
      (BinaryBuffer.ofRows true)) (Encoder.new 128 true, [])) (a := .ok ())
      (b := [(1, [2, 1, 2, 1, 1, 3, 3])]) (by cases p <;> decide +kernel)
    exact ⟨_, e, _, hb, h⟩
  · have hb := buildBinary_of_accepts (nullable := true) (bufs := [[some [1, 1], some [2], some [3]]])
      (by simp [Accepts]) (by simp [byteCount, valuesOf, U32_MAX])
    obtain ⟨e, h⟩ := of_outcome (r := encodeColumn p recorder ([[some [1, 1], some [2], some [3]]].map
      (BinaryBuffer.ofRows true)) (Encoder.new 2 true, [])) (a := .ok ())
      (b := [(0, [2, 1, 1, 2, 2, 3, 1]), (2, [2, 2, 3, 1, 1, 3, 1]), (3, [1, 3, 1, 1, 3, 1])])
      (by cases p <;> decide +kernel)
    exact ⟨_, e, _, _, _, hb, h⟩

/-! ## C35: nulls -/

/-- C35 as far as it holds: on manageable histories whose buffers end with a value, the validity data of
the blocks puts every item in its row: the groups of rows they describe make up the column. When no
block loses bits of its lengths either, the whole column is read back. -/
theorem C35_binary_nulls_partial (p q : Profile) (m : Nat) (hm : 0 < m)
    (bufs : List (List (Option Bytes))) (bs) (hb : buildBinary true bufs = .ok bs)
    (hlen : bufs.flatten.length < 2 ^ 32 - 7) (hm32 : m ≤ U32_MAX)
    (hman : Manageable m true [] [] bufs) (hend : ∀ b ∈ bufs, b = [] ∨ ∃ l v, b = l ++ [some v]) (e blocks)
    (hrun : encodeColumn p recorder bs (Encoder.new m true, []) = (.ok (), (e, blocks))) :
    ∃ groups, groups.flatten = bufs.flatten ∧ groups.length = blocks.length ∧
      (∀ x ∈ groups.zip blocks, readPositions q (valuesOf x.1).length x.2.2 = some (setPositions (validityOf x.1))) ∧
      ((∀ g ∈ groups, ReadableLengths ((valuesOf g).map List.length)) →
        ∃ counts : List Nat, counts.length = blocks.length ∧
          readBlocks q true (counts.zip (blocks.map (·.2))) = some groups) := by
  obtain ⟨e', h⟩ := binary_run p hm hb (by omega) hm32 hman
  rw [h] at hrun
  simp only [Prod.mk.injEq, true_and] at hrun
  obtain ⟨_, rfl⟩ := hrun
  have hg := group_facts hb hlen hm hm32 hman
  have hD := describes_blocksOf q true (fillGroups m [] bufs) 0 (fun g hgm => (hg g hgm).2.2)
  refine ⟨fillGroups m [] bufs, ?_, hD.1.symm, fun x hx => (hD.2 x hx).2 rfl, fun hr => ?_⟩
  · rw [fillGroups_rows m bufs [] (.inl rfl), List.nil_append, flatMap_ends hend]
  · refine ⟨(fillGroups m [] bufs).map fun g => (valuesOf g).length, by rw [List.length_map, hD.1], ?_⟩
    rw [blocksOf_data, readBlocks, List.zip_map', List.mapM_map]
    have := mapM_some_of_forall (l := fillGroups m [] bufs) (g := id)
      (f := fun g => readBinary q true (valuesOf g).length (blockBytes true g)) fun g hgm =>
        readBinary_blockBytes q true g (hg g hgm).1 (hg g hgm).2.1 (hg g hgm).2.2.1 (hg g hgm).2.2.2.1
          (hg g hgm).2.2.2.2 (hr g hgm)
    rw [List.map_id] at this
    exact this

/-- C35 fails. Nulls at the end of a buffer are dropped, so the next item moves up. And a null that
reaches a leftover buffer used before is turned into a set bit, so it vanishes too. -/
theorem C35_binary_nulls_violated (p q : Profile) :
    (∃ bs e block, buildBinary true [[some [1], none], [some [2]]] = .ok bs ∧
      encodeColumn p recorder bs (Encoder.new 128 true, []) = (.ok (), (e, [(1, block)])) ∧
      readPositions q 2 block = some [0, 1]) ∧
    ∃ bs e b1 b2, buildBinary true [[some [1]], [some [2]], [none, some [3]]] = .ok bs ∧
      encodeColumn p recorder bs (Encoder.new 2 true, []) = (.ok (), (e, [(1, b1), (2, b2)])) ∧
      readPositions q 2 b1 = some [0, 1] ∧ readPositions q 1 b2 = some [0] := by
  constructor
  · have hb := buildBinary_of_accepts (nullable := true) (bufs := [[some [1], none], [some [2]]])
      (by simp [Accepts]) (by simp [byteCount, valuesOf, U32_MAX])
    obtain ⟨e, h⟩ := of_outcome (r := encodeColumn p recorder ([[some [1], none], [some [2]]].map
      (BinaryBuffer.ofRows true)) (Encoder.new 128 true, [])) (a := .ok ())
      (b := [(1, [2, 1, 2, 1, 1, 3, 3])]) (by cases p <;> decide +kernel)
    exact ⟨_, e, _, hb, h, by cases q <;> decide +kernel⟩
  · have hb := buildBinary_of_accepts (nullable := true) (bufs := [[some [1]], [some [2]], [none, some [3]]])
      (by simp [Accepts]) (by simp [byteCount, valuesOf, U32_MAX])
    obtain ⟨e, h⟩ := of_outcome (r := encodeColumn p recorder ([[some [1]], [some [2]], [none, some [3]]].map
      (BinaryBuffer.ofRows true)) (Encoder.new 2 true, [])) (a := .ok ())
      (b := [(1, [2, 1, 2, 1, 1, 3, 3]), (2, [1, 3, 1, 1, 3, 1])]) (by cases p <;> decide +kernel)
    exact ⟨_, e, _, _, hb, h, by cases q <;> decide +kernel, by cases q <;> decide +kernel⟩

/-! ## C36: leftovers -/

/-- C36. After any sequence of `encode` calls that return normally, with any sink, less than one block
of data bytes is held back. Every block `encode` calls offer to a recording sink, however the last call
ends, holds at least the block size. -/
theorem C36_binary_leftovers (p q : Profile) (nullable : Bool) (m : Nat) (hm : 0 < m)
    (bufs : List (List (Option Bytes))) (bs) (hb : buildBinary nullable bufs = .ok bs) :
    (∀ {S : Type} (k : Sink S) (s s' : S) (e : Encoder),
      encodeAll p k bs (Encoder.new m nullable, s) = (.ok (), (e, s')) →
        e.minBlockSize = m ∧ e.remaining.data.length < m) ∧
    (bufs.flatten.length < 2 ^ 63 →
      ∀ b ∈ (encodeAll p recorder bs (Encoder.new m nullable, [])).2.2,
        ∃ d, blockData q b.2 = some d ∧ m ≤ d.length) := by
  obtain ⟨hA, hd, rfl⟩ := buildBinary_ok hb
  have hnew : Items (Encoder.new m nullable).remaining [] := by
    have := (holds_ofRows nullable []).items
    rw [← BinaryBuffer.new_eq] at this
    exact this
  have hU : U32_MAX = 2 ^ 32 - 1 := rfl
  constructor
  · intro S k s s' e h
    obtain ⟨h1, held, h2, h3⟩ := encodeAll_small p k m hm _ [] (Encoder.new m nullable) s e s'
      (by
        intro b hb
        obtain ⟨rows, _, rfl⟩ := List.mem_map.mp hb
        exact ⟨_, (holds_ofRows nullable rows).items⟩) rfl hnew (by simpa using hm) h
    exact ⟨h1, by rw [h2.data]; exact h3⟩
  · intro hlen b hbm
    have hvl : ∀ l : List (List (Option Bytes)), (l.map valuesOf).flatten.length ≤ l.flatten.length := by
      intro l
      induction l with
      | nil => simp
      | cons a l ih =>
        rw [List.map_cons, List.flatten_cons, List.flatten_cons, List.length_append, List.length_append]
        have : (valuesOf a).length ≤ a.length := List.length_filterMap_le ..
        omega
    obtain ⟨new, h1, h2⟩ := encodeAll_blocks p q m hm (bufs.map valuesOf) (bufs.map (BinaryBuffer.ofRows nullable))
      ⟨by simp, by
        intro x hx
        rw [List.zip_map'] at hx
        obtain ⟨rows, _, rfl⟩ := List.mem_map.mp hx
        exact (holds_ofRows nullable rows).items⟩
      (by
        intro b hb
        obtain ⟨rows, hr, rfl⟩ := List.mem_map.mp hb
        have := hd rows hr
        unfold byteCount at this
        omega) [] (Encoder.new m nullable) [] rfl hnew (by
          have := hvl bufs
          rw [List.length_nil]; omega)
    rw [h1, List.nil_append] at hbm
    exact h2 b hbm

/-- A run that holds back three of four bytes, after a block of five. -/
example : ∃ bs e block, buildBinary false [[some [1, 2]], [some [3], some [4, 5], some [6, 7, 8]]] = .ok bs ∧
    encodeAll .debug recorder bs (Encoder.new 4 false, []) = (.ok (), (e, [(2, block)])) ∧
    blockData .debug block = some [1, 2, 3, 4, 5] := by
  have hb := buildBinary_of_accepts (nullable := false)
    (bufs := [[some [1, 2]], [some [3], some [4, 5], some [6, 7, 8]]])
    (by simp [Accepts]) (by simp [byteCount, valuesOf, U32_MAX])
  obtain ⟨e, h⟩ := of_outcome (r := encodeAll .debug recorder ([[some [1, 2]], [some [3], some [4, 5],
    some [6, 7, 8]]].map (BinaryBuffer.ofRows false)) (Encoder.new 4 false, [])) (a := .ok ())
    (b := [(2, [5, 1, 2, 3, 4, 5, 2, 2])]) (by decide +kernel)
  exact ⟨_, e, _, hb, h, by decide +kernel⟩

end Meerkat
