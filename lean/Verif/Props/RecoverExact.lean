import Verif.Props.Recover
import Verif.Props.BinaryExact

set_option autoImplicit false

/-! # Exactly which columns can be read back from a synced segment: C60 -/

namespace Meerkat

open Spec BinaryEnc ReadStream

/-- Decoding what the stream yielded is reading the blocks it yielded. -/
theorem decodeYields_iff (q : Profile) {nullable : Bool} : ∀ {ys : List Yield} {counts : List Nat} {blocks : List Bytes}
    {rows : List (Option Bytes)}, ys.map Yield.result = blocks.map (fun b => .ok b) →
    (decodeYields q nullable counts ys = some rows ↔ counts.length = blocks.length ∧
      ∃ groups, readBlocks q nullable (counts.zip blocks) = some groups ∧ groups.flatten = rows) := by
  intro ys
  induction ys with
  | nil =>
    intro counts blocks rows h
    obtain rfl : blocks = [] := by simpa using h.symm
    cases counts with
    | nil =>
      simp only [decodeYields, Option.some.injEq, readBlocks, List.zip_nil_right, List.mapM_nil]
      constructor
      · rintro rfl; exact ⟨rfl, [], rfl, rfl⟩
      · rintro ⟨_, _, h1, rfl⟩; cases h1; rfl
    | cons c cs => simp [decodeYields]
  | cons y ys ih =>
    intro counts blocks rows h
    cases blocks with
    | nil => simp at h
    | cons b blocks =>
      simp only [List.map_cons, List.cons.injEq] at h
      cases counts with
      | nil => simp [decodeYields]
      | cons c cs =>
        simp only [decodeYields, h.1, List.length_cons, Nat.add_right_cancel_iff, readBlocks, List.zip_cons_cons,
          List.mapM_cons]
        cases h1 : readBinary q nullable c b with
        | none => simp
        | some r =>
          have ih' := fun rows => ih (counts := cs) (rows := rows) h.2
          cases h2 : decodeYields q nullable cs ys with
          | none =>
            simp only [reduceCtorEq, false_iff, not_and]
            rintro hl ⟨groups, h3, _⟩
            cases h4 : (cs.zip blocks).mapM fun b => readBinary q nullable b.1 b.2 with
            | none => simp [h4] at h3
            | some gs =>
              have := (ih' gs.flatten).2 ⟨hl, gs, h4, rfl⟩
              rw [h2] at this; cases this
          | some rest =>
            obtain ⟨hl, gs, h3, h4⟩ := (ih' rest).1 h2
            rw [readBlocks] at h3
            simp only [Option.some.injEq, hl, true_and, h3]
            constructor
            · rintro rfl; exact ⟨r :: gs, rfl, by simp [h4]⟩
            · rintro ⟨_, h5, rfl⟩; cases h5; simp [h4]

/-- A raw column none of whose calls failed is a run of the encoder that completes. -/
theorem column_completes {p : Profile} {os : SegmentOs} {ci : ColumnInfo} (hraw : ci.encoding = .raw)
    {bs : List BinaryBuffer} {s s1 : SegmentWriter} {rs : List SegResult}
    (hrun : runSeg p os [.column ci (writeAllOps bs)] s = (rs, s1)) (hgood : ∀ x ∈ rs, x.Good) {data : Bytes}
    (hg : GoodWriter s.dataWriter data) :
    ∃ e, encodeColumn p recorder bs (Encoder.new BLOCK_SIZE ci.nullable, []) =
      (.ok (), (e, blocksAlone p ci (writeAllOps bs))) := by
  rw [blocksAlone_raw p hraw]
  rcases h2 : SegOp.run p os (.column ci (writeAllOps bs)) s with ⟨r, sb⟩
  simp only [runSeg, h2, Prod.mk.injEq] at hrun
  obtain ⟨rfl, rfl⟩ := hrun
  have hr : r.Good := hgood r (by simp)
  simp only [SegOp.run, SegmentWriter.newBinaryColumnWriter, hraw, newBinaryEncoder] at h2
  rcases h3 : runColOps p os (writeAllOps bs) ({ columnInfo := ci, encoder := .raw (Encoder.new BLOCK_SIZE ci.nullable) },
    { s with blockIndex := s.blockIndex.clear }) with ⟨rs, c2, s2⟩
  simp only [h3] at h2
  cases h2
  obtain ⟨bl, e', h4, _⟩ := colOps_ok (p := p) (os := os) (writeAllOps bs)
    (c := { columnInfo := ci, encoder := .raw (Encoder.new BLOCK_SIZE ci.nullable) })
    (s := { s with blockIndex := s.blockIndex.clear }) (by rw [h3]; exact hr) hg
  have h5 := h4 []
  rw [aloneOps_raw] at h5
  rcases h6 : encodeColumn p recorder bs (Encoder.new BLOCK_SIZE ci.nullable, []) with ⟨r6, e6, l6⟩
  rw [h6] at h5
  simp only [Prod.mk.injEq] at h5
  rw [h5.1]
  exact ⟨e6, rfl⟩

/-- C60 exactly, for raw columns that are not nullable: if no call failed up to close() and sync(), then after any crash and
under every schedule of the reads, the values can be read back with some numbers of items, or with those the block
index says, if and only if no buffer leaves a block or more after completing one, no block has more than 128 items
(`Manageable`) and no block loses bits of its lengths (`ReadableLengths`). -/
theorem C60_column_recovered_exact (p q : Profile) (os : SegmentOs) (info : SegmentInfo)
    (s sa s1 s' s'' : SegmentWriter)
    (hnew : SegmentWriter.new p os info = .ok s) (before later : List SegOp) (order : HashOrder)
    (ci : ColumnInfo) (hraw : ci.encoding = .raw) (hn : ci.nullable = false)
    (values : List (List Bytes)) (bs : List BinaryBuffer)
    (hb : buildBinary false (values.map (·.map some)) = .ok bs) (rs0 rs1 rs2 : List SegResult)
    (hrun0 : runSeg p os before s = (rs0, sa))
    (hrun1 : runSeg p os [.column ci (writeAllOps bs)] sa = (rs1, s1))
    (hrun2 : runSeg p os (later ++ [.close order]) s1 = (rs2, s')) (hgood : ∀ x ∈ rs0 ++ rs1 ++ rs2, x.Good)
    (hsync : SegmentWriter.sync os s' = (.ok (), s'')) (disk : Bytes)
    (hdisk : AfterCrash s''.dataWriter.file disk) (hsize : disk.length < 2 ^ 63)
    (hlen : values.flatten.length < 2 ^ 32 - 7)
    (n : Nat) (st : ReadStream)
    (hrun : Steps (ReadBlock q false disk) n (start (indexOps sa.dataWriter.pos 0 s1.blockIndex.entries)) st) (hend : st.Ended) :
    ((∃ counts, decodeYields q false counts st.out = some (values.flatten.map some)) ↔
      Manageable BLOCK_SIZE false [] [] (values.map (·.map some)) ∧
      ∀ g ∈ fillGroups BLOCK_SIZE [] (values.map (·.map some)), ReadableLengths ((valuesOf g).map List.length)) ∧
    (decodeYields q false (rowCounts 0 s1.blockIndex.entries) st.out = some (values.flatten.map some) ↔
      Manageable BLOCK_SIZE false [] [] (values.map (·.map some)) ∧
      ∀ g ∈ fillGroups BLOCK_SIZE [] (values.map (·.map some)), ReadableLengths ((valuesOf g).map List.length)) := by
  have hB : BLOCK_SIZE ≤ U32_MAX := by decide +kernel
  have hB0 : 0 < BLOCK_SIZE := by decide
  have hv : ∀ l : List Bytes, valuesOf (l.map some) = l := fun l => by simp [valuesOf, List.filterMap_map]
  have hfl : (values.map (·.map some)).flatten = values.flatten.map some := by rw [List.map_flatten]
  have hlen' : (values.map (·.map some)).flatten.length < 2 ^ 32 - 7 := by rw [hfl, List.length_map]; exact hlen
  obtain ⟨g1, g2, _⟩ := new_ok hnew
  obtain ⟨g3, _⟩ := runSeg_data (p := p) (os := os) before (s := s)
    (by rw [hrun0]; exact fun x hx => hgood x (by simp [hx])) g2 g1
  rw [hrun0] at g3
  obtain ⟨e, hcol⟩ := column_completes hraw hrun1 (fun x hx => hgood x (by simp [hx])) g3
  obtain ⟨hres, _, _⟩ := C60_blocks_recovered p q os info s sa s1 s' s'' hnew before later order ci (writeAllOps bs) rs0 rs1
    rs2 hrun0 hrun1 hrun2 hgood hsync disk hdisk hsize n st hrun hend
  rw [hn] at hcol
  have hres' : st.out.map Yield.result = ((blocksAlone p ci (writeAllOps bs)).map (·.2)).map (fun b => .ok b) := by
    rw [hres, List.map_map]; rfl
  have hexact := C32_binary_values_exact p q BLOCK_SIZE hB0 _ bs hb hlen' hB
  have fwd : ∀ counts, decodeYields q false counts st.out = some (values.flatten.map some) →
      Manageable BLOCK_SIZE false [] [] (values.map (·.map some)) ∧
      ∀ g ∈ fillGroups BLOCK_SIZE [] (values.map (·.map some)), ReadableLengths ((valuesOf g).map List.length) := by
    intro counts h
    obtain ⟨h1, groups, h2, h3⟩ := (decodeYields_iff q hres').1 h
    exact hexact.1 ⟨e, _, counts, groups, hcol, by simpa using h1, h2, by rw [h3, hfl]⟩
  have bwd : (Manageable BLOCK_SIZE false [] [] (values.map (·.map some)) ∧
      ∀ g ∈ fillGroups BLOCK_SIZE [] (values.map (·.map some)), ReadableLengths ((valuesOf g).map List.length)) →
      decodeYields q false (rowCounts 0 s1.blockIndex.entries) st.out = some (values.flatten.map some) := fun h =>
    C60_column_recovered_partial p q os info s sa s1 s' s'' hnew before later order ci hraw hn values bs hb rs0 rs1 rs2 hrun0
      hrun1 hrun2 hgood hsync disk hdisk hsize hlen h.1 h.2 n st hrun hend
  exact ⟨⟨fun ⟨c, h⟩ => fwd c h, fun h => ⟨_, bwd h⟩⟩, fwd _, bwd⟩

/-- C60 exactly, for all raw columns, nullable or not: if no call failed up to close() and sync(), then after any crash and
under every schedule of the reads, the blocks read can be decoded, with some numbers of items, to groups of rows that make up
the column and end at the rows the block index says, if and only if the history is manageable, no buffer ends with a null
and no block loses bits of its lengths. -/
theorem C60_nullable_recovered_exact (p q : Profile) (os : SegmentOs) (info : SegmentInfo)
    (s sa s1 s' s'' : SegmentWriter)
    (hnew : SegmentWriter.new p os info = .ok s) (before later : List SegOp) (order : HashOrder)
    (ci : ColumnInfo) (hraw : ci.encoding = .raw) (bufs : List (List (Option Bytes))) (bs : List BinaryBuffer)
    (hb : buildBinary ci.nullable bufs = .ok bs) (rs0 rs1 rs2 : List SegResult)
    (hrun0 : runSeg p os before s = (rs0, sa))
    (hrun1 : runSeg p os [.column ci (writeAllOps bs)] sa = (rs1, s1))
    (hrun2 : runSeg p os (later ++ [.close order]) s1 = (rs2, s')) (hgood : ∀ x ∈ rs0 ++ rs1 ++ rs2, x.Good)
    (hsync : SegmentWriter.sync os s' = (.ok (), s'')) (disk : Bytes)
    (hdisk : AfterCrash s''.dataWriter.file disk) (hsize : disk.length < 2 ^ 63)
    (hlen : bufs.flatten.length < 2 ^ 32 - 7)
    (n : Nat) (st : ReadStream)
    (hrun : Steps (ReadBlock q false disk) n (start (indexOps sa.dataWriter.pos 0 s1.blockIndex.entries)) st) (hend : st.Ended) :
    (∃ (blocks : List Bytes) (counts : List Nat) (groups : List (List (Option Bytes))),
      st.out.map Yield.result = blocks.map (fun b => .ok b) ∧ counts.length = blocks.length ∧
      readBlocks q ci.nullable (counts.zip blocks) = some groups ∧ groups.flatten = bufs.flatten ∧ (∀ g ∈ groups, g ≠ []) ∧
      s1.blockIndex.entries.map Prod.fst = lastRowIds 0 groups) ↔
    Manageable BLOCK_SIZE ci.nullable [] [] bufs ∧ (∀ b ∈ bufs, b = [] ∨ ∃ l v, b = l ++ [some v]) ∧
      ∀ g ∈ fillGroups BLOCK_SIZE [] bufs, ReadableLengths ((valuesOf g).map List.length) := by
  have hB : BLOCK_SIZE ≤ U32_MAX := by decide +kernel
  have hB0 : 0 < BLOCK_SIZE := by decide
  obtain ⟨g1, g2, _⟩ := new_ok hnew
  obtain ⟨g3, _⟩ := runSeg_data (p := p) (os := os) before (s := s)
    (by rw [hrun0]; exact fun x hx => hgood x (by simp [hx])) g2 g1
  rw [hrun0] at g3
  obtain ⟨e, hcol⟩ := column_completes hraw hrun1 (fun x hx => hgood x (by simp [hx])) g3
  obtain ⟨hres, hrows, _⟩ := C60_blocks_recovered p q os info s sa s1 s' s'' hnew before later order ci (writeAllOps bs) rs0
    rs1 rs2 hrun0 hrun1 hrun2 hgood hsync disk hdisk hsize n st hrun hend
  have hres' : st.out.map Yield.result = ((blocksAlone p ci (writeAllOps bs)).map (·.2)).map (fun b => .ok b) := by
    rw [hres, List.map_map]; rfl
  rw [← C35_binary_roundtrip_exact p q ci.nullable BLOCK_SIZE hB0 bufs bs hb hlen hB]
  constructor
  · rintro ⟨blocks, counts, groups, h1, h2, h3, h4, h5, h6⟩
    have hbl : blocks = (blocksAlone p ci (writeAllOps bs)).map (·.2) := by
      rw [hres'] at h1
      exact ((List.map_inj_right fun x y h => Except.ok.inj h).1 h1).symm
    subst hbl
    exact ⟨e, _, counts, groups, hcol, by simpa using h2, h3, h4, h5, by rw [← hrows]; exact h6⟩
  · rintro ⟨e', blocks, counts, groups, h0, h2, h3, h4, h5, h6⟩
    rw [hcol] at h0
    simp only [Prod.mk.injEq, true_and] at h0
    obtain ⟨_, rfl⟩ := h0
    exact ⟨_, counts, groups, hres', by simpa using h2, h3, h4, h5, by rw [hrows]; exact h6⟩

/-- The values `[1, 2]` and `[3]`: the bit of the second length is dropped. -/
def unreadableValues : List (List Bytes) := [[[1, 2], [3]]]

/-- A column written and synced without an error that is not recovered, with whatever numbers of items. -/
example (q : Profile) : ∃ s, SegmentWriter.new .debug .reliable exampleInfo = .ok s ∧
    let b := runSeg .debug .reliable
      [.column (exampleColumn "c") (writeAllOps ((unreadableValues.map (·.map some)).map (BinaryBuffer.ofRows false)))] s
    let c := runSeg .debug .reliable [.close .insertion] b.2
    let d := SegmentWriter.sync .reliable c.2
    d.1 = .ok () ∧ ∀ disk, AfterCrash d.2.dataWriter.file disk → ∀ n st,
      Steps (ReadBlock q false disk) n (start (indexOps s.dataWriter.pos 0 b.2.blockIndex.entries)) st → st.Ended →
      ¬ ∃ counts, decodeYields q false counts st.out = some [some [1, 2], some [3]] := by
  have hs : ∃ s, SegmentWriter.new .debug .reliable exampleInfo = .ok s ∧
      let b := runSeg .debug .reliable
        [.column (exampleColumn "c") (writeAllOps ((unreadableValues.map (·.map some)).map (BinaryBuffer.ofRows false)))] s
      let c := runSeg .debug .reliable [.close .insertion] b.2
      let d := SegmentWriter.sync .reliable c.2
      (∀ x ∈ b.1 ++ c.1, x.Good) ∧ d.1 = .ok () ∧
      d.2.dataWriter.file.content.length + d.2.dataWriter.file.pending.length < 2 ^ 63 := by
    refine exists_ok ?_
    decide +kernel
  obtain ⟨s, hnew, hgood, hsync, hsize⟩ := hs
  refine ⟨s, hnew, hsync, fun disk hdisk n st hrun hend => ?_⟩
  have hb := buildBinary_of_accepts (nullable := false) (bufs := unreadableValues.map (·.map some)) (by
    intro b hb
    exact .inr (by revert b; decide +kernel)) (by decide +kernel)
  rcases hc1 : runSeg .debug .reliable
    [.column (exampleColumn "c") (writeAllOps ((unreadableValues.map (·.map some)).map (BinaryBuffer.ofRows false)))] s
    with ⟨rb, sb⟩
  rw [hc1] at hgood hsync hsize hdisk hrun
  dsimp only at hgood hsync hsize hdisk hrun ⊢
  rcases hc2 : runSeg .debug .reliable [.close .insertion] sb with ⟨rc, sc⟩
  rw [hc2] at hgood hsync hsize hdisk
  dsimp only at hgood hsync hsize hdisk
  rcases hd : SegmentWriter.sync .reliable sc with ⟨r, sd⟩
  rw [hd] at hsync hsize hdisk
  dsimp only at hsync hsize hdisk
  subst hsync
  intro h
  obtain ⟨_, h2⟩ := (C60_column_recovered_exact .debug q .reliable exampleInfo s s sb sc sd hnew [] [] .insertion
    (exampleColumn "c") rfl rfl unreadableValues _ hb [] rb rc rfl hc1 hc2 hgood hd disk hdisk
    (by have := hdisk.2.1; rw [List.length_append] at this; omega)
    (by decide +kernel) n st hrun hend).1.1 h
  have hgroups : fillGroups BLOCK_SIZE [] (unreadableValues.map (·.map some)) = [[some [1, 2], some [3]]] := by
    decide +kernel
  rw [hgroups] at h2
  obtain ⟨b, hw, h3⟩ := h2 _ (List.mem_singleton.2 rfl)
  have hb2 : b = 2 := by
    obtain ⟨w1, w2⟩ := hw
    have w3 : 2 < 2 ^ b := w1 2 (by decide)
    have w4 : 1 < b := by
      rcases Nat.lt_or_ge 1 b with h | h
      · exact h
      · have := Nat.pow_le_pow_right (n := 2) (by decide) h; omega
    rcases w2 with rfl | ⟨x, hx, hx2⟩
    · omega
    · have hx3 : x ≤ 2 := by
        have : x = 2 ∨ x = 1 := by simpa [valuesOf] using hx
        omega
      rcases Nat.lt_or_ge 2 b with h | h
      · have := Nat.pow_le_pow_right (n := 2) (by decide) (show 2 ≤ b - 1 by omega); omega
      · omega
  subst hb2
  exact absurd (h3 1 0 (by decide) (by decide)) (by decide +kernel)

end Meerkat
