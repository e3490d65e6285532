import Verif.Props.Lookup
import Verif.Props.Recover

set_option autoImplicit false

/-! # Looking up a row on the disk (C75) -/

namespace Meerkat

open Spec BinaryEnc

/-- The block of row `r` is found in the index of bracketed blocks. -/
theorem find_bracketed (q : Profile) {nullable : Bool} {file : Bytes} (hlen : file.length < 2 ^ 63)
    {groups : List (List (Option Bytes))} :
    ∀ {n start row r : Nat} {entries : List (Nat × Nat)}, start < 2 ^ 64 → (∀ g ∈ groups, g ≠ []) →
    Brackets file start entries (blocksOf nullable n groups) → n ≤ r → r < n + groups.flatten.length →
    ∃ cnt op i, findBlock n ((entries.map Prod.fst).zip ((rowCounts n entries).zip (indexOps start row entries))) r =
        some ((cnt, op), i) ∧ ∃ g ∈ groups, cnt = g.length ∧ groups.flatten[r - n]? = g[i]? ∧ i < g.length ∧
      ∀ result, ReadBlock q false file op.blockRange result → result = .ok (blockBytes nullable g) := by
  induction groups with
  | nil => intro n start row r entries _ _ _ h1 h2; simp at h2; omega
  | cons g gs ih =>
    intro n start row r entries hs hne hb h1 h2
    cases entries with
    | nil => exact absurd hb (by simp [blocksOf, Brackets])
    | cons e es =>
      obtain ⟨k1, k2, k3, k4, k5⟩ := hb
      have hg := List.length_pos_iff.2 (hne g (by simp))
      have e1 : e.1 + 1 = n + g.length := by
        rw [k1]; omega
      rw [List.flatten_cons, List.length_append] at h2
      simp only [List.map_cons, rowCounts, indexOps, List.zip_cons_cons, findBlock]
      by_cases hr : r ≤ e.1
      · rw [if_pos hr]
        refine ⟨_, _, _, rfl, g, by simp, by omega, ?_, by omega, fun result h => ?_⟩
        · rw [List.flatten_cons, List.getElem?_append_left (by omega)]
        · have := (C43_read_block q file hlen _ hs result h).1 ⟨k2, .inr k3⟩
          rw [this, bytesOf, k4]
      · rw [if_neg hr]
        rw [← e1] at k5
        obtain ⟨cnt, op, i, f1, g', f2, f3, f4, f5, f6⟩ := ih (n := e.1 + 1) (start := e.2) (row := e.1 + 1) (r := r)
          (by omega) (fun g hg => hne g (by simp [hg])) k5 (by omega) (by omega)
        refine ⟨cnt, op, i, f1, g', by simp [f2], f3, ?_, f5, f6⟩
        rw [List.flatten_cons, List.getElem?_append_right (by omega), ← f4]
        congr 1
        omega

/-- C75 on the disk, as far as it holds. For a raw column that is not nullable, in a synced segment among any other columns,
on a history the encoder handles and whose lengths lose no bit: after any crash, every row is found with a single read of
the range the index gives for it. -/
theorem C75_segment_lookup_partial (p q : Profile) (os : SegmentOs) (info : SegmentInfo)
    (s sa s1 s' s'' : SegmentWriter)
    (hnew : SegmentWriter.new p os info = .ok s) (before later : List SegOp) (order : HashOrder)
    (ci : ColumnInfo) (hraw : ci.encoding = .raw) (hn : ci.nullable = false)
    (values : List (List Bytes)) (bs : List BinaryBuffer)
    (hb : buildBinary false (values.map (·.map some)) = .ok bs) (rs0 rs1 rs2 : List SegResult)
    (hrun0 : runSeg p os before s = (rs0, sa))
    (hrun1 : runSeg p os [.column ci (writeAllOps bs)] sa = (rs1, s1))
    (hrun2 : runSeg p os (later ++ [.close order]) s1 = (rs2, s')) (hgood : ∀ x ∈ rs0 ++ rs1 ++ rs2, x.Good)
    (hsync : SegmentWriter.sync os s' = (.ok (), s'')) (disk : Bytes)
    (hdisk : AfterCrash s''.dataWriter.file disk) (hsize : disk.length < 2 ^ 63)
    (hlen : values.flatten.length < 2 ^ 32 - 7)
    (hman : Manageable BLOCK_SIZE false [] [] (values.map (·.map some)))
    (hr : ∀ g ∈ fillGroups BLOCK_SIZE [] (values.map (·.map some)), ReadableLengths ((valuesOf g).map List.length))
    (r : Nat) (v : Bytes) (hv : values.flatten[r]? = some v) :
    ∃ cnt op i, findBlock 0 (indexedRanges sa.dataWriter.pos s1.blockIndex.entries) r = some ((cnt, op), i) ∧
      ∀ result, ReadBlock q false disk op.blockRange result → ∃ block rows, result = .ok block ∧
        readBinary q false cnt block = some rows ∧ rows[i]? = some (some v) := by
  have hvs : ∀ l : List Bytes, valuesOf (l.map some) = l := fun l => by simp [valuesOf, List.filterMap_map]
  have hfl : (values.map (·.map some)).flatten = values.flatten.map some := by rw [List.map_flatten]
  have hB : BLOCK_SIZE ≤ U32_MAX := by decide +kernel
  have hB0 : 0 < BLOCK_SIZE := by decide
  obtain ⟨hpos, w3⟩ := blocks_bracketed p os info s sa s1 s' s'' hnew before later order ci (writeAllOps bs) rs0 rs1 rs2
    hrun0 hrun1 hrun2 hgood hsync disk hdisk hsize
  have hlen' : (values.map (·.map some)).flatten.length < 2 ^ 32 - 7 := by rw [hfl, List.length_map]; exact hlen
  obtain ⟨e, hrun3⟩ := binary_run p hB0 hb (by omega) hB hman
  rw [blocksAlone_raw p hraw, hn, hrun3] at w3
  have hfacts := group_facts hb hlen' hB0 hB hman
  have hne := fillGroups_nonempty (values.map (·.map some)) [] [] (by simpa [byteCount, valuesOf] using hB0) hman
  have hno : ∀ g ∈ fillGroups BLOCK_SIZE [] (values.map (·.map some)), none ∉ g := fun g hg =>
    (hfacts g hg).2.1.resolve_left (by decide)
  have hnf : none ∉ (fillGroups BLOCK_SIZE [] (values.map (·.map some))).flatten := by
    intro h
    obtain ⟨g, hg, hx⟩ := List.mem_flatten.1 h
    exact hno g hg hx
  have hrows : (fillGroups BLOCK_SIZE [] (values.map (·.map some))).flatten = values.flatten.map some := by
    rw [← rows_of_nonnull hnf, binary_values, hfl, hvs]
  have hlt : r < values.flatten.length := (List.getElem?_eq_some_iff.mp hv).1
  obtain ⟨cnt, op, i, f1, g, f2, f3, f4, f5, f6⟩ := find_bracketed q hsize (row := 0) (r := r) hpos hne w3 (by omega)
    (by rw [hrows, List.length_map]; omega)
  refine ⟨cnt, op, i, f1, fun result h => ⟨_, g, f6 result h, ?_, ?_⟩⟩
  · obtain ⟨x1, x2, x3, x4, x5⟩ := hfacts g f2
    rw [f3, ← valuesOf_length_of_none (hno g f2)]
    exact readBinary_blockBytes q false g x1 x2 x3 x4 x5 (hr g f2)
  · rw [← f4, Nat.sub_zero, hrows, List.getElem?_map, hv]; rfl

/-- C75 on the disk for nullable columns, as far as it holds: rows are found with a single read of the range the index gives,
by their numbers among the rows that are written (all but the trailing nulls of buffers), by a reader that is told the number
of items of the block, which the index does not say. -/
theorem C75_segment_nullable_partial (p q : Profile) (os : SegmentOs) (info : SegmentInfo)
    (s sa s1 s' s'' : SegmentWriter)
    (hnew : SegmentWriter.new p os info = .ok s) (before later : List SegOp) (order : HashOrder)
    (ci : ColumnInfo) (hraw : ci.encoding = .raw) (bufs : List (List (Option Bytes))) (bs : List BinaryBuffer)
    (hb : buildBinary ci.nullable bufs = .ok bs) (rs0 rs1 rs2 : List SegResult)
    (hrun0 : runSeg p os before s = (rs0, sa))
    (hrun1 : runSeg p os [.column ci (writeAllOps bs)] sa = (rs1, s1))
    (hrun2 : runSeg p os (later ++ [.close order]) s1 = (rs2, s')) (hgood : ∀ x ∈ rs0 ++ rs1 ++ rs2, x.Good)
    (hsync : SegmentWriter.sync os s' = (.ok (), s'')) (disk : Bytes)
    (hdisk : AfterCrash s''.dataWriter.file disk) (hsize : disk.length < 2 ^ 63)
    (hlen : bufs.flatten.length < 2 ^ 32 - 7)
    (hman : Manageable BLOCK_SIZE ci.nullable [] [] bufs)
    (hr : ∀ g ∈ fillGroups BLOCK_SIZE [] bufs, ReadableLengths ((valuesOf g).map List.length))
    (r : Nat) (row : Option Bytes) (hrow : (bufs.flatMap dropTrailingNulls)[r]? = some row) :
    ∃ cnt op i items, findBlock 0 (indexedRanges sa.dataWriter.pos s1.blockIndex.entries) r = some ((cnt, op), i) ∧
      items ≤ cnt ∧ ∀ result, ReadBlock q false disk op.blockRange result → ∃ block rows, result = .ok block ∧
        readBinary q ci.nullable items block = some rows ∧ rows.length = cnt ∧ rows[i]? = some row := by
  have hB : BLOCK_SIZE ≤ U32_MAX := by decide +kernel
  have hB0 : 0 < BLOCK_SIZE := by decide
  obtain ⟨hpos, w3⟩ := blocks_bracketed p os info s sa s1 s' s'' hnew before later order ci (writeAllOps bs) rs0 rs1 rs2
    hrun0 hrun1 hrun2 hgood hsync disk hdisk hsize
  obtain ⟨e, hrun3⟩ := binary_run p hB0 hb (by omega) hB hman
  rw [blocksAlone_raw p hraw, hrun3] at w3
  have hfacts := group_facts hb hlen hB0 hB hman
  have hne := fillGroups_nonempty bufs [] [] (by simpa [byteCount, valuesOf] using hB0) hman
  have hrows := fillGroups_rows BLOCK_SIZE bufs [] (.inl rfl)
  rw [List.nil_append] at hrows
  have hlt : r < (bufs.flatMap dropTrailingNulls).length := (List.getElem?_eq_some_iff.mp hrow).1
  obtain ⟨cnt, op, i, f1, g, f2, f3, f4, f5, f6⟩ := find_bracketed q hsize (row := 0) (r := r) hpos hne w3 (by omega)
    (by rw [hrows]; omega)
  refine ⟨cnt, op, i, (valuesOf g).length, f1, ?_, fun result h => ⟨_, g, f6 result h, ?_, f3.symm, ?_⟩⟩
  · rw [f3]; exact List.length_filterMap_le ..
  · obtain ⟨x1, x2, x3, x4, x5⟩ := hfacts g f2
    exact readBinary_blockBytes q ci.nullable g x1 x2 x3 x4 x5 (hr g f2)
  · rw [← f4, Nat.sub_zero, hrows]; exact hrow

/-- In the example segment of C60, with its column between two others, each of the three rows is found after a crash. -/
example (q : Profile) : ∃ s, SegmentWriter.new .debug .reliable exampleInfo = .ok s ∧
    let a := runSeg .debug .reliable exampleOps s
    let b := runSeg .debug .reliable exampleRecover a.2
    let c := runSeg .debug .reliable (exampleOps ++ [.close .insertion]) b.2
    let d := SegmentWriter.sync .reliable c.2
    d.1 = .ok () ∧ ∀ disk, AfterCrash d.2.dataWriter.file disk → ∀ r v,
      [List.replicate 200 7, [8, 9], []][r]? = some v →
      ∃ cnt op i, findBlock 0 (indexedRanges a.2.dataWriter.pos b.2.blockIndex.entries) r = some ((cnt, op), i) ∧
        ∀ result, ReadBlock q false disk op.blockRange result → ∃ block rows, result = .ok block ∧
          readBinary q false cnt block = some rows ∧ rows[i]? = some (some v) := by
  have hs : ∃ s, SegmentWriter.new .debug .reliable exampleInfo = .ok s ∧
      let a := runSeg .debug .reliable exampleOps s
      let b := runSeg .debug .reliable exampleRecover a.2
      let c := runSeg .debug .reliable (exampleOps ++ [.close .insertion]) b.2
      let d := SegmentWriter.sync .reliable c.2
      (∀ x ∈ a.1 ++ b.1 ++ c.1, x.Good) ∧ d.1 = .ok () ∧
      d.2.dataWriter.file.content.length + d.2.dataWriter.file.pending.length < 2 ^ 63 := by
    refine exists_ok ?_
    decide +kernel
  obtain ⟨s, hnew, hgood, hsync, hsize⟩ := hs
  refine ⟨s, hnew, hsync, fun disk hdisk r v hv => ?_⟩
  have hgroups : fillGroups BLOCK_SIZE [] (exampleValues.map (·.map some)) =
      [[some (List.replicate 200 7)], [some [8, 9], some []]] := by decide +kernel
  have hb := buildBinary_of_accepts (nullable := false) (bufs := exampleValues.map (·.map some)) (by
    intro b hb
    exact .inr (by revert b; decide +kernel)) (by decide +kernel)
  rcases ha : runSeg .debug .reliable exampleOps s with ⟨ra, sa⟩
  rw [ha] at hgood hsync hsize hdisk
  dsimp only at hgood hsync hsize hdisk ⊢
  rcases hc1 : runSeg .debug .reliable exampleRecover sa with ⟨rb, sb⟩
  rw [hc1] at hgood hsync hsize hdisk
  dsimp only at hgood hsync hsize hdisk ⊢
  rcases hc2 : runSeg .debug .reliable (exampleOps ++ [.close .insertion]) sb with ⟨rc, sc⟩
  rw [hc2] at hgood hsync hsize hdisk
  dsimp only at hgood hsync hsize hdisk
  rcases hd : SegmentWriter.sync .reliable sc with ⟨x, sd⟩
  rw [hd] at hsync hsize hdisk
  dsimp only at hsync hsize hdisk
  subst hsync
  exact C75_segment_lookup_partial .debug q .reliable exampleInfo s sa sb sc sd hnew exampleOps exampleOps .insertion
    (exampleColumn "c") rfl rfl exampleValues _ hb ra rb rc ha hc1 hc2 hgood hd disk hdisk
    (by have := hdisk.2.1; rw [List.length_append] at this; omega)
    (by decide +kernel) (by decide +kernel)
    (by
      rw [hgroups]
      intro g hg
      rcases List.mem_cons.1 hg with rfl | hg
      · exact readableLengths_of 8 ⟨by decide +kernel, .inr ⟨200, by decide +kernel, by decide⟩⟩ (by decide +kernel)
      · obtain rfl := List.mem_singleton.1 hg
        exact readableLengths_of 2 ⟨by decide +kernel, .inr ⟨2, by decide +kernel, by decide⟩⟩ (by decide +kernel))
    r v hv

/-- The rows of a nullable column: nulls before and behind values, in two blocks. -/
def nullableRows : List (List (Option Bytes)) := [[some (List.replicate 200 7)], [none, some [8, 9]], [some [], none]]

def nullableColumn : ColumnInfo := { exampleColumn "c" with nullable := true }

/-- With a nullable column between two others, each row that is written is found after a crash; the null at the end is not
written. -/
example (q : Profile) : ∃ s, SegmentWriter.new .debug .reliable exampleInfo = .ok s ∧
    let a := runSeg .debug .reliable exampleOps s
    let b := runSeg .debug .reliable [.column nullableColumn (writeAllOps (nullableRows.map (BinaryBuffer.ofRows true)))] a.2
    let c := runSeg .debug .reliable (exampleOps ++ [.close .insertion]) b.2
    let d := SegmentWriter.sync .reliable c.2
    d.1 = .ok () ∧ ∀ disk, AfterCrash d.2.dataWriter.file disk → ∀ r row,
      [some (List.replicate 200 7), none, some [8, 9], some []][r]? = some row →
      ∃ cnt op i items, findBlock 0 (indexedRanges a.2.dataWriter.pos b.2.blockIndex.entries) r = some ((cnt, op), i) ∧
        items ≤ cnt ∧ ∀ result, ReadBlock q false disk op.blockRange result → ∃ block rows, result = .ok block ∧
          readBinary q true items block = some rows ∧ rows.length = cnt ∧ rows[i]? = some row := by
  have hs : ∃ s, SegmentWriter.new .debug .reliable exampleInfo = .ok s ∧
      let a := runSeg .debug .reliable exampleOps s
      let b := runSeg .debug .reliable [.column nullableColumn (writeAllOps (nullableRows.map (BinaryBuffer.ofRows true)))]
        a.2
      let c := runSeg .debug .reliable (exampleOps ++ [.close .insertion]) b.2
      let d := SegmentWriter.sync .reliable c.2
      (∀ x ∈ a.1 ++ b.1 ++ c.1, x.Good) ∧ d.1 = .ok () ∧
      d.2.dataWriter.file.content.length + d.2.dataWriter.file.pending.length < 2 ^ 63 := by
    refine exists_ok ?_
    decide +kernel
  obtain ⟨s, hnew, hgood, hsync, hsize⟩ := hs
  refine ⟨s, hnew, hsync, fun disk hdisk r row hv => ?_⟩
  have hgroups : fillGroups BLOCK_SIZE [] nullableRows =
      [[some (List.replicate 200 7)], [none, some [8, 9], some []]] := by decide +kernel
  have hb := buildBinary_of_accepts (nullable := true) (bufs := nullableRows) (by
    intro b hb
    exact .inl rfl) (by decide +kernel)
  rcases ha : runSeg .debug .reliable exampleOps s with ⟨ra, sa⟩
  rw [ha] at hgood hsync hsize hdisk
  dsimp only at hgood hsync hsize hdisk ⊢
  rcases hc1 : runSeg .debug .reliable
    [.column nullableColumn (writeAllOps (nullableRows.map (BinaryBuffer.ofRows true)))] sa with ⟨rb, sb⟩
  rw [hc1] at hgood hsync hsize hdisk
  dsimp only at hgood hsync hsize hdisk ⊢
  rcases hc2 : runSeg .debug .reliable (exampleOps ++ [.close .insertion]) sb with ⟨rc, sc⟩
  rw [hc2] at hgood hsync hsize hdisk
  dsimp only at hgood hsync hsize hdisk
  rcases hd : SegmentWriter.sync .reliable sc with ⟨x, sd⟩
  rw [hd] at hsync hsize hdisk
  dsimp only at hsync hsize hdisk
  subst hsync
  exact C75_segment_nullable_partial .debug q .reliable exampleInfo s sa sb sc sd hnew exampleOps exampleOps .insertion
    nullableColumn rfl nullableRows _ hb ra rb rc ha hc1 hc2 hgood hd disk hdisk
    (by have := hdisk.2.1; rw [List.length_append] at this; omega)
    (by decide +kernel) (by decide +kernel)
    (by
      rw [hgroups]
      intro g hg
      rcases List.mem_cons.1 hg with rfl | hg
      · exact readableLengths_of 8 ⟨by decide +kernel, .inr ⟨200, by decide +kernel, by decide⟩⟩ (by decide +kernel)
      · obtain rfl := List.mem_singleton.1 hg
        exact readableLengths_of 2 ⟨by decide +kernel, .inr ⟨2, by decide +kernel, by decide⟩⟩ (by decide +kernel))
    r row hv

end Meerkat
