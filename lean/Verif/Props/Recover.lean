import Verif.Spec.Recover
import Verif.Props.BlockReader
import Verif.Props.EncodingChoice
import Verif.Props.Crash

set_option autoImplicit false

/-! # From the values of a column to the disk and back: C60 -/

namespace Meerkat

open Spec BinaryEnc ReadStream

/-- Reading bracketed blocks gives the blocks. -/
theorem read_bracketed (q : Profile) {file : Bytes} (hlen : file.length < 2 ^ 63) {entries : List (Nat × Nat)} :
    ∀ {start row : Nat} {blocks : List (Nat × Bytes)} {ys : List Yield}, start < 2 ^ 64 →
    Brackets file start entries blocks → ys.length = (indexOps start row entries).length →
    (∀ (i : Nat) (op : ReadOp), (indexOps start row entries)[i]? = some op →
      ∃ r, ys[i]? = some { opInfo := op.opInfo, result := r } ∧ ReadBlock q false file op.blockRange r) →
    ys.map Yield.result = blocks.map (fun b => .ok b.2) := by
  induction entries with
  | nil =>
    intro start row blocks ys _ hb hl _
    cases blocks with
    | nil => simp only [indexOps, List.length_nil, List.length_eq_zero_iff] at hl; rw [hl]; rfl
    | cons b bs => exact absurd hb (by simp [Brackets])
  | cons e es ih =>
    intro start row blocks ys hs hb hl hy
    cases blocks with
    | nil => exact absurd hb (by simp [Brackets])
    | cons b bs =>
      obtain ⟨h1, h2, h3, h4, h5⟩ := hb
      cases ys with
      | nil => simp [indexOps] at hl
      | cons y ys =>
        simp only [indexOps, List.length_cons, Nat.add_right_cancel_iff] at hl
        obtain ⟨r, h6, h7⟩ := hy 0 _ rfl
        simp only [List.getElem?_cons_zero, Option.some.injEq] at h6
        subst h6
        have h8 := (C43_read_block q file hlen _ hs r h7).1 ⟨h2, .inr h3⟩
        have h9 := ih (start := e.2) (row := e.1 + 1) (by omega) h5 hl (fun i op hop => by
          have := hy (i + 1) op (by simpa only [indexOps, List.getElem?_cons_succ] using hop)
          simpa only [List.getElem?_cons_succ] using this)
        rw [List.map_cons, List.map_cons, h9, h8, bytesOf, h4]

/-- Decoding the blocks of groups of rows gives the rows. -/
theorem decode_groups (q : Profile) {nullable : Bool} {groups : List (List (Option Bytes))} :
    ∀ {n : Nat} {ys : List Yield},
    (∀ g ∈ groups, EndsWithValue g ∧ Accepts nullable g ∧ g.length < 2 ^ 32 - 7 ∧ byteCount g < 2 ^ 32 ∧
      (valuesOf g).length ≤ 128 ∧ ReadableLengths ((valuesOf g).map List.length)) →
    ys.map Yield.result = (blocksOf nullable n groups).map (fun b => .ok b.2) →
    decodeYields q nullable (groups.map (fun g => (valuesOf g).length)) ys = some groups.flatten := by
  induction groups with
  | nil =>
    intro n ys _ hy
    simp only [blocksOf, List.map_nil, List.map_eq_nil_iff] at hy
    subst hy; rfl
  | cons g gs ih =>
    intro n ys hall hy
    cases ys with
    | nil => simp [blocksOf] at hy
    | cons y ys =>
      simp only [blocksOf, List.map_cons, List.cons.injEq] at hy
      obtain ⟨h1, h2, h3, h4, h5, h6⟩ := hall g (by simp)
      simp only [List.map_cons, decodeYields, hy.1, readBinary_blockBytes q nullable g h1 h2 h3 h4 h5 h6,
        ih (fun g hg => hall g (by simp [hg])) hy.2, List.flatten_cons]

/-- The row counts of the blocks of groups of rows. -/
theorem rowCounts_groups {nullable : Bool} {file : Bytes} {groups : List (List (Option Bytes))}
    (hne : ∀ g ∈ groups, g ≠ []) : ∀ {n start : Nat} {entries : List (Nat × Nat)},
    Brackets file start entries (blocksOf nullable n groups) → rowCounts n entries = groups.map List.length := by
  induction groups with
  | nil =>
    intro n start entries h
    cases entries with
    | nil => rfl
    | cons e es => exact absurd h (by simp [blocksOf, Brackets])
  | cons g gs ih =>
    intro n start entries h
    cases entries with
    | nil => exact absurd h (by simp [blocksOf, Brackets])
    | cons e es =>
      obtain ⟨h1, _, _, _, h5⟩ := h
      have hg := List.length_pos_iff.2 (hne g (by simp))
      have e1 : e.1 + 1 = n + g.length := by omega
      simp only [rowCounts, e1, ih (fun g hg => hne g (by simp [hg])) h5, List.map_cons]
      congr 1
      omega

/-- The row ids of bracketed blocks. -/
theorem brackets_rows {file : Bytes} {entries : List (Nat × Nat)} : ∀ {start : Nat} {blocks : List (Nat × Bytes)},
    Brackets file start entries blocks → entries.map Prod.fst = blocks.map Prod.fst := by
  induction entries with
  | nil =>
    intro start blocks h
    cases blocks with
    | nil => rfl
    | cons b bs => exact absurd h (by simp [Brackets])
  | cons e es ih =>
    intro start blocks h
    cases blocks with
    | nil => exact absurd h (by simp [Brackets])
    | cons b bs =>
      obtain ⟨h1, _, _, _, h5⟩ := h
      rw [List.map_cons, List.map_cons, ih h5, h1]

/-- After any crash of a synced segment the index of a column brackets the blocks it produced. -/
theorem blocks_bracketed (p : Profile) (os : SegmentOs) (info : SegmentInfo) (s sa s1 s' s'' : SegmentWriter)
    (hnew : SegmentWriter.new p os info = .ok s) (before later : List SegOp) (order : HashOrder)
    (ci : ColumnInfo) (cops : List ColOp) (rs0 rs1 rs2 : List SegResult)
    (hrun0 : runSeg p os before s = (rs0, sa)) (hrun1 : runSeg p os [.column ci cops] sa = (rs1, s1))
    (hrun2 : runSeg p os (later ++ [.close order]) s1 = (rs2, s')) (hgood : ∀ x ∈ rs0 ++ rs1 ++ rs2, x.Good)
    (hsync : SegmentWriter.sync os s' = (.ok (), s'')) (disk : Bytes)
    (hdisk : AfterCrash s''.dataWriter.file disk) (hsize : disk.length < 2 ^ 63) :
    sa.dataWriter.pos < 2 ^ 64 ∧ Brackets disk sa.dataWriter.pos s1.blockIndex.entries (blocksAlone p ci cops) := by
  -- the history as a whole
  have hrunA : runSeg p os (before ++ [.column ci cops]) s = (rs0 ++ rs1, s1) := by
    rw [runSeg_append, hrun0]; simp only [hrun1]
  have hrunB : runSeg p os ((before ++ [.column ci cops] ++ later) ++ [.close order]) s =
      (rs0 ++ rs1 ++ rs2, s') := by
    rw [List.append_assoc _ later, runSeg_append, hrunA]; simp only [hrun2]
  obtain ⟨_, d1, d2, d3⟩ := synced_state hnew hrunB hgood hsync
  have hd : disk = s'.dataWriter.file.content := by rw [hdisk.complete (by rw [d3, d1]) d2, d1]
  obtain ⟨_, data, _, k1, _, _, k2⟩ := closed_state hnew hrunB hgood
  have hpend : s'.dataWriter.file.pending = [] := by simp [TokioFile.pending, k2]
  -- the positions
  obtain ⟨g1, g2, _⟩ := new_ok hnew
  obtain ⟨g3, m3, g4⟩ := runSeg_data (p := p) (os := os) before (s := s)
    (by rw [hrun0]; exact fun x hx => hgood x (by simp [hx])) g2 g1
  rw [hrun0] at g3 g4
  obtain ⟨g5, m5, g6⟩ := runSeg_data (p := p) (os := os) [.column ci cops] (s := sa)
    (by rw [hrun1]; exact fun x hx => hgood x (by simp [hx])) g3 g4
  rw [hrun1] at g5 g6
  obtain ⟨g7, _⟩ := runSeg_data (p := p) (os := os) (later ++ [.close order]) (s := s1)
    (by rw [hrun2]; exact fun x hx => hgood x (by simp [hx])) g5 g6
  rw [hrun2] at g7
  have hl7 := congrArg List.length g7.content
  have hl5 := congrArg List.length g5.content
  rw [hpend, List.append_nil, ← hd] at hl7
  simp only [List.length_append] at hl7 hl5
  have hpos : sa.dataWriter.pos = DATA_FILE_SIGNATURE.length + (columnBytes p before).length := by
    rw [g3.pos, List.length_append, Nat.mod_eq_of_lt (by omega)]
  obtain ⟨w1, w2, w3⟩ := C47_index_is_own p os info s s1 s' hnew before (later ++ [.close order]) ci cops
    _ rs2 hrunA hrun2 hgood (by omega)
  rw [hpend, List.append_nil, ← hd, ← hpos] at w3
  exact ⟨by omega, w3⟩

/-- C60 as far as the blocks go, for every column, whatever its encoding, calls and values: if no call failed up to
close() and sync(), then after any crash the blocks the column produced, no more and no less and in order, are
read back from the data file with the block index the column left in memory, under every schedule of the reads; and
the entries of the index have their row ids. -/
theorem C60_blocks_recovered (p q : Profile) (os : SegmentOs) (info : SegmentInfo) (s sa s1 s' s'' : SegmentWriter)
    (hnew : SegmentWriter.new p os info = .ok s) (before later : List SegOp) (order : HashOrder)
    (ci : ColumnInfo) (cops : List ColOp) (rs0 rs1 rs2 : List SegResult)
    (hrun0 : runSeg p os before s = (rs0, sa)) (hrun1 : runSeg p os [.column ci cops] sa = (rs1, s1))
    (hrun2 : runSeg p os (later ++ [.close order]) s1 = (rs2, s')) (hgood : ∀ x ∈ rs0 ++ rs1 ++ rs2, x.Good)
    (hsync : SegmentWriter.sync os s' = (.ok (), s'')) (disk : Bytes)
    (hdisk : AfterCrash s''.dataWriter.file disk) (hsize : disk.length < 2 ^ 63)
    (n : Nat) (st : ReadStream)
    (hrun : Steps (ReadBlock q false disk) n (start (indexOps sa.dataWriter.pos 0 s1.blockIndex.entries)) st) (hend : st.Ended) :
    st.out.map Yield.result = (blocksAlone p ci cops).map (fun b => .ok b.2) ∧
    s1.blockIndex.entries.map Prod.fst = (blocksAlone p ci cops).map Prod.fst ∧
    Brackets disk sa.dataWriter.pos s1.blockIndex.entries (blocksAlone p ci cops) := by
  obtain ⟨hpos, w3⟩ := blocks_bracketed p os info s sa s1 s' s'' hnew before later order ci cops rs0 rs1 rs2 hrun0 hrun1
    hrun2 hgood hsync disk hdisk hsize
  obtain ⟨u1, u2⟩ := C44_results_in_order q false disk _ n st hrun hend
  exact ⟨read_bracketed q hsize hpos w3 u1 u2, brackets_rows w3, w3⟩

/-- What the column of a synced segment gives back after a crash. -/
theorem column_recovered (p q : Profile) (os : SegmentOs) (info : SegmentInfo) (s sa s1 s' s'' : SegmentWriter)
    (hnew : SegmentWriter.new p os info = .ok s) (before later : List SegOp) (order : HashOrder)
    (ci : ColumnInfo) (hraw : ci.encoding = .raw) (bufs : List (List (Option Bytes))) (bs : List BinaryBuffer)
    (hb : buildBinary ci.nullable bufs = .ok bs) (rs0 rs1 rs2 : List SegResult)
    (hrun0 : runSeg p os before s = (rs0, sa))
    (hrun1 : runSeg p os [.column ci (writeAllOps bs)] sa = (rs1, s1))
    (hrun2 : runSeg p os (later ++ [.close order]) s1 = (rs2, s')) (hgood : ∀ x ∈ rs0 ++ rs1 ++ rs2, x.Good)
    (hsync : SegmentWriter.sync os s' = (.ok (), s'')) (disk : Bytes)
    (hdisk : AfterCrash s''.dataWriter.file disk) (hsize : disk.length < 2 ^ 63)
    (hlen : bufs.flatten.length < 2 ^ 32 - 7)
    (hman : Manageable BLOCK_SIZE ci.nullable [] [] bufs)
    (hr : ∀ g ∈ fillGroups BLOCK_SIZE [] bufs, ReadableLengths ((valuesOf g).map List.length))
    (n : Nat) (st : ReadStream)
    (hrun : Steps (ReadBlock q false disk) n (start (indexOps sa.dataWriter.pos 0 s1.blockIndex.entries)) st) (hend : st.Ended) :
    decodeYields q ci.nullable ((fillGroups BLOCK_SIZE [] bufs).map (fun g => (valuesOf g).length)) st.out =
      some (fillGroups BLOCK_SIZE [] bufs).flatten ∧
    rowCounts 0 s1.blockIndex.entries = (fillGroups BLOCK_SIZE [] bufs).map List.length := by
  have hB : BLOCK_SIZE ≤ U32_MAX := by decide +kernel
  have hB0 : 0 < BLOCK_SIZE := by decide
  -- the blocks
  obtain ⟨e, hrun3⟩ := binary_run p hB0 hb (by omega) hB hman
  have hblocks : blocksAlone p ci (writeAllOps bs) =
      blocksOf ci.nullable 0 (fillGroups BLOCK_SIZE [] bufs) := by
    rw [blocksAlone_raw p hraw, hrun3]
  have hfacts := group_facts hb hlen hB0 hB hman
  have hne := fillGroups_nonempty bufs [] [] (by simpa [byteCount, valuesOf] using hB0) hman
  obtain ⟨hres, _, w3⟩ := C60_blocks_recovered p q os info s sa s1 s' s'' hnew before later order ci (writeAllOps bs) rs0 rs1
    rs2 hrun0 hrun1 hrun2 hgood hsync disk hdisk hsize n st hrun hend
  rw [hblocks] at hres w3
  refine ⟨decode_groups q (fun g hg => ?_) hres, ?_⟩
  · obtain ⟨x1, x2, x3, x4, x5⟩ := hfacts g hg
    exact ⟨x1, x2, x3, x4, x5, hr g hg⟩
  · exact rowCounts_groups hne w3

/-- C60 as far as it holds. A raw column that is not nullable, written to a segment among any other columns, on a
history the encoder handles (`Manageable`) and whose lengths lose no bit in the offset encoding (`ReadableLengths`):
if no call failed up to close() and sync(), then after any crash the values are read back exactly, in order, from the data
file, with the block index the column left in memory, under every schedule of the reads. -/
theorem C60_column_recovered_partial (p q : Profile) (os : SegmentOs) (info : SegmentInfo)
    (s sa s1 s' s'' : SegmentWriter)
    (hnew : SegmentWriter.new p os info = .ok s) (before later : List SegOp) (order : HashOrder)
    (ci : ColumnInfo) (hraw : ci.encoding = .raw) (hn : ci.nullable = false)
    (values : List (List Bytes)) (bs : List BinaryBuffer)
    (hb : buildBinary false (values.map (·.map some)) = .ok bs) (rs0 rs1 rs2 : List SegResult)
    (hrun0 : runSeg p os before s = (rs0, sa))
    (hrun1 : runSeg p os [.column ci (writeAllOps bs)] sa = (rs1, s1))
    (hrun2 : runSeg p os (later ++ [.close order]) s1 = (rs2, s')) (hgood : ∀ x ∈ rs0 ++ rs1 ++ rs2, x.Good)
    (hsync : SegmentWriter.sync os s' = (.ok (), s'')) (disk : Bytes)
    (hdisk : AfterCrash s''.dataWriter.file disk) (hsize : disk.length < 2 ^ 63)
    (hlen : values.flatten.length < 2 ^ 32 - 7)
    (hman : Manageable BLOCK_SIZE false [] [] (values.map (·.map some)))
    (hr : ∀ g ∈ fillGroups BLOCK_SIZE [] (values.map (·.map some)), ReadableLengths ((valuesOf g).map List.length))
    (n : Nat) (st : ReadStream)
    (hrun : Steps (ReadBlock q false disk) n (start (indexOps sa.dataWriter.pos 0 s1.blockIndex.entries)) st) (hend : st.Ended) :
    decodeYields q false (rowCounts 0 s1.blockIndex.entries) st.out = some (values.flatten.map some) := by
  have hv : ∀ l : List Bytes, valuesOf (l.map some) = l := fun l => by simp [valuesOf, List.filterMap_map]
  have hfl : (values.map (·.map some)).flatten = values.flatten.map some := by rw [List.map_flatten]
  have hB : BLOCK_SIZE ≤ U32_MAX := by decide +kernel
  have hB0 : 0 < BLOCK_SIZE := by decide
  rw [← hn] at hb
  have hman : Manageable BLOCK_SIZE ci.nullable [] [] (values.map (·.map some)) := by rw [hn]; exact hman
  obtain ⟨h1, h2⟩ := column_recovered p q os info s sa s1 s' s'' hnew before later order ci hraw _ bs hb rs0 rs1 rs2 hrun0
    hrun1 hrun2 hgood hsync disk hdisk hsize (by rw [hfl, List.length_map]; exact hlen)
    hman hr n st hrun hend
  have hfacts := group_facts hb (by rw [hfl, List.length_map]; exact hlen)
    hB0 hB hman
  rw [hn] at h1 hfacts
  have hno : ∀ g ∈ fillGroups BLOCK_SIZE [] (values.map (·.map some)), none ∉ g := fun g hg =>
    (hfacts g hg).2.1.resolve_left (by decide)
  rw [h2]
  have hcounts : (fillGroups BLOCK_SIZE [] (values.map (·.map some))).map (fun g => (valuesOf g).length) =
      (fillGroups BLOCK_SIZE [] (values.map (·.map some))).map List.length :=
    List.map_congr_left fun g hg => valuesOf_length_of_none (hno g hg)
  rw [hcounts] at h1
  rw [h1]
  have hnf : none ∉ (fillGroups BLOCK_SIZE [] (values.map (·.map some))).flatten := by
    intro h
    obtain ⟨g, hg, hx⟩ := List.mem_flatten.1 h
    exact hno g hg hx
  rw [← rows_of_nonnull hnf, binary_values, hfl, hv]

/-- C60 for nullable columns, as far as it holds: the rows are read back, except trailing nulls of buffers, by a reader
that is told how many items each block has (the index does not say). -/
theorem C60_nullable_recovered_partial (p q : Profile) (os : SegmentOs) (info : SegmentInfo)
    (s sa s1 s' s'' : SegmentWriter)
    (hnew : SegmentWriter.new p os info = .ok s) (before later : List SegOp) (order : HashOrder)
    (ci : ColumnInfo) (hraw : ci.encoding = .raw) (bufs : List (List (Option Bytes))) (bs : List BinaryBuffer)
    (hb : buildBinary ci.nullable bufs = .ok bs) (rs0 rs1 rs2 : List SegResult)
    (hrun0 : runSeg p os before s = (rs0, sa))
    (hrun1 : runSeg p os [.column ci (writeAllOps bs)] sa = (rs1, s1))
    (hrun2 : runSeg p os (later ++ [.close order]) s1 = (rs2, s')) (hgood : ∀ x ∈ rs0 ++ rs1 ++ rs2, x.Good)
    (hsync : SegmentWriter.sync os s' = (.ok (), s'')) (disk : Bytes)
    (hdisk : AfterCrash s''.dataWriter.file disk) (hsize : disk.length < 2 ^ 63)
    (hlen : bufs.flatten.length < 2 ^ 32 - 7)
    (hman : Manageable BLOCK_SIZE ci.nullable [] [] bufs)
    (hr : ∀ g ∈ fillGroups BLOCK_SIZE [] bufs, ReadableLengths ((valuesOf g).map List.length))
    (n : Nat) (st : ReadStream)
    (hrun : Steps (ReadBlock q false disk) n (start (indexOps sa.dataWriter.pos 0 s1.blockIndex.entries)) st) (hend : st.Ended) :
    decodeYields q ci.nullable ((fillGroups BLOCK_SIZE [] bufs).map (fun g => (valuesOf g).length)) st.out =
      some (bufs.flatMap dropTrailingNulls) := by
  obtain ⟨h1, _⟩ := column_recovered p q os info s sa s1 s' s'' hnew before later order ci hraw _ bs hb rs0 rs1 rs2 hrun0
    hrun1 hrun2 hgood hsync disk hdisk hsize hlen hman hr n st hrun hend
  rw [h1, fillGroups_rows _ _ _ (.inl rfl), List.nil_append]

theorem readableLengths_of {lens : List Nat} (b : Nat) (hw : Width lens b)
    (h : ∀ i, i < lens.length → ∀ c, c < b → (lens.getD i 0).testBit c = true →
      bytePos b i c < (lens.length * b + 7) / 8) : ReadableLengths lens := by
  refine ⟨b, hw, fun i c hi hc => ?_⟩
  by_cases hcb : c < b
  · exact h i hi c hcb hc
  · have hlt : lens.getD i 0 < 2 ^ c := by
      rw [List.getD_eq_getElem?_getD, List.getElem?_eq_getElem hi]
      exact Nat.lt_of_lt_of_le (hw.1 _ (List.getElem_mem ..)) (Nat.pow_le_pow_right (by decide) (by omega))
    rw [Nat.testBit_lt_two_pow hlt] at hc
    cases hc

/-- The values of the column of the example: two buffers; the first completes a block. -/
def exampleValues : List (List Bytes) := [[List.replicate 200 7, [8, 9]], [[]]]

def exampleRecover : List SegOp :=
  [.column (exampleColumn "c") (writeAllOps ((exampleValues.map (·.map some)).map (BinaryBuffer.ofRows false)))]

/-- The example segment with the column of the example between two others is synced, crashes and gives the values
back. -/
example (q : Profile) : ∃ s, SegmentWriter.new .debug .reliable exampleInfo = .ok s ∧
    let a := runSeg .debug .reliable exampleOps s
    let b := runSeg .debug .reliable exampleRecover a.2
    let c := runSeg .debug .reliable (exampleOps ++ [.close .insertion]) b.2
    let d := SegmentWriter.sync .reliable c.2
    d.1 = .ok () ∧ ∀ disk, AfterCrash d.2.dataWriter.file disk → ∀ n st,
      Steps (ReadBlock q false disk) n (start (indexOps a.2.dataWriter.pos 0 b.2.blockIndex.entries)) st → st.Ended →
      decodeYields q false (rowCounts 0 b.2.blockIndex.entries) st.out =
        some [some (List.replicate 200 7), some [8, 9], some []] := by
  have hs : ∃ s, SegmentWriter.new .debug .reliable exampleInfo = .ok s ∧
      let a := runSeg .debug .reliable exampleOps s
      let b := runSeg .debug .reliable exampleRecover a.2
      let c := runSeg .debug .reliable (exampleOps ++ [.close .insertion]) b.2
      let d := SegmentWriter.sync .reliable c.2
      (∀ x ∈ a.1 ++ b.1 ++ c.1, x.Good) ∧ d.1 = .ok () ∧
      d.2.dataWriter.file.content.length + d.2.dataWriter.file.pending.length < 2 ^ 63 := by
    refine exists_ok ?_
    decide +kernel
  obtain ⟨s, hnew, hgood, hsync, hsize⟩ := hs
  refine ⟨s, hnew, hsync, fun disk hdisk n st hrun hend => ?_⟩
  have hgroups : fillGroups BLOCK_SIZE [] (exampleValues.map (·.map some)) =
      [[some (List.replicate 200 7)], [some [8, 9], some []]] := by decide +kernel
  have hb := buildBinary_of_accepts (nullable := false) (bufs := exampleValues.map (·.map some)) (by
    intro b hb
    exact .inr (by revert b; decide +kernel)) (by decide +kernel)
  rcases ha : runSeg .debug .reliable exampleOps s with ⟨ra, sa⟩
  rw [ha] at hgood hsync hsize hdisk hrun
  dsimp only at hgood hsync hsize hdisk hrun ⊢
  rcases hc1 : runSeg .debug .reliable exampleRecover sa with ⟨rb, sb⟩
  rw [hc1] at hgood hsync hsize hdisk hrun
  dsimp only at hgood hsync hsize hdisk hrun ⊢
  rcases hc2 : runSeg .debug .reliable (exampleOps ++ [.close .insertion]) sb with ⟨rc, sc⟩
  rw [hc2] at hgood hsync hsize hdisk
  dsimp only at hgood hsync hsize hdisk
  rcases hd : SegmentWriter.sync .reliable sc with ⟨r, sd⟩
  rw [hd] at hsync hsize hdisk
  dsimp only at hsync hsize hdisk
  subst hsync
  exact C60_column_recovered_partial .debug q .reliable exampleInfo s sa sb sc sd hnew exampleOps exampleOps .insertion
    (exampleColumn "c") rfl rfl exampleValues _ hb ra rb rc ha hc1 hc2 hgood hd disk hdisk
    (by have := hdisk.2.1; rw [List.length_append] at this; omega)
    (by decide +kernel) (by decide +kernel)
    (by
      rw [hgroups]
      intro g hg
      rcases List.mem_cons.1 hg with rfl | hg
      · exact readableLengths_of 8 ⟨by decide +kernel, .inr ⟨200, by decide +kernel, by decide⟩⟩ (by decide +kernel)
      · obtain rfl := List.mem_singleton.1 hg
        exact readableLengths_of 2 ⟨by decide +kernel, .inr ⟨2, by decide +kernel, by decide⟩⟩ (by decide +kernel))
    n st hrun hend

/-- The run of a segment with one raw column made of one buffer, on an operating system that never fails, and what it
leaves: whether every call succeeded, the bytes of the data file and the entries of the block index. -/
def oneColumnRun (p : Profile) (nullable : Bool) (rows : List (Option Bytes)) :
    Option (Bool × Bytes × List (Nat × Nat)) :=
  match buildBinary nullable [rows], SegmentWriter.new p .reliable exampleInfo with
  | .ok bs, .ok s =>
    let run := runSeg p .reliable [.column { exampleColumn "a" with nullable := nullable } (writeAllOps bs),
      .close .insertion] s
    let good := run.1.all fun r => match r with
      | .column _ rs => rs.all fun x => x.2 == .ok ()
      | .closed r => r == .ok ()
      | .rejected _ => false
    some (good, run.2.dataWriter.file.content, run.2.blockIndex.entries)
  | _, _ => none

/-- C60 is false of the code: two columns with different values leave the same data file and the same block index although
every call succeeded, so that no reader whatever can give both back. -/
theorem C60_column_recovered_violated (p : Profile) (nullable : Bool)
    (reader : Bytes → List (Nat × Nat) → List (Option Bytes)) :
    ∃ rows file index, oneColumnRun p nullable rows = some (true, file, index) ∧ reader file index ≠ rows := by
  have key : ∃ file index, oneColumnRun p nullable [some [1, 2], some [3], some []] = some (true, file, index) ∧
      oneColumnRun p nullable [some [1, 2], some [], some [3]] = some (true, file, index) := by
    have h1 : oneColumnRun p nullable [some [1, 2], some [3], some []] =
        oneColumnRun p nullable [some [1, 2], some [], some [3]] ∧
        (oneColumnRun p nullable [some [1, 2], some [3], some []]).map Prod.fst = some true := by
      cases p <;> cases nullable <;> decide +kernel
    obtain ⟨⟨_, file, index⟩, h2, rfl⟩ := Option.map_eq_some_iff.1 h1.2
    exact ⟨file, index, h2, h1.1 ▸ h2⟩
  obtain ⟨file, index, h1, h2⟩ := key
  by_cases h : reader file index = [some [1, 2], some [3], some []]
  · exact ⟨_, file, index, h2, by rw [h]; decide⟩
  · exact ⟨_, file, index, h1, h⟩

end Meerkat
