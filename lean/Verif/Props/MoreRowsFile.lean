import Verif.Props.MoreRows
import Verif.Props.Segment

set_option autoImplicit false

/-!
# C119 in the data file
-/

namespace Meerkat
open Spec

namespace MoreRows

/-- The call of the encoder that a call of the column writer makes. -/
def toCall : ColOp → EncCall BinaryBuffer
  | .write b => .encode b
  | .close => .flush

theorem aloneOps_calls (p : Profile) (ops : List ColOp) : ∀ (e : BinaryEnc.Encoder) (l : List (Nat × Bytes)),
    aloneOps p ops (.raw e, l) =
      ((BinaryEnc.calls p recorder (ops.map toCall) (e, l)).1,
        (.raw (BinaryEnc.calls p recorder (ops.map toCall) (e, l)).2.1, (BinaryEnc.calls p recorder (ops.map toCall) (e, l)).2.2)) := by
  induction ops with
  | nil => intro e l; rfl
  | cons op ops ih =>
    intro e l
    cases op with
    | write b =>
      simp only [aloneOps, ColOp.alone, List.map_cons, toCall, BinaryEnc.calls, Run.bind_apply, BinaryEncoder.encode, Run.get_apply,
        BinaryEncoder.onRaw]
      rcases BinaryEnc.encode p recorder b (e, l) with ⟨r | r, e1, l1⟩
      · rfl
      · exact ih e1 l1
    | close =>
      simp only [aloneOps, ColOp.alone, List.map_cons, toCall, BinaryEnc.calls, Run.bind_apply, BinaryEncoder.flush, Run.get_apply,
        BinaryEncoder.onRaw]
      rcases BinaryEnc.flush p recorder (e, l) with ⟨r | r, e1, l1⟩
      · rfl
      · exact ih e1 l1

/-- The snappy encoder writes a block for each buffer and nothing else. -/
theorem aloneOps_snappy (p : Profile) (ops : List ColOp) : ∀ (l : List (Nat × Bytes)),
    aloneOps p ops (.snappy, l) =
      (.ok (), (.snappy, l ++ (ops.filter fun op => match op with | .write _ => true | .close => false).map fun _ => (43243, SNAPPY_BLOCK))) := by
  induction ops with
  | nil => intro l; simp [aloneOps, Run.pure_apply]
  | cons op ops ih =>
    intro l
    cases op with
    | write b =>
      have h : ColOp.alone p (.write b) (.snappy, l) = (.ok (), (.snappy, l ++ [(43243, SNAPPY_BLOCK)])) := rfl
      simp only [aloneOps, Run.bind_apply, h, ih]
      simp
    | close =>
      have h : ColOp.alone p .close (.snappy, l) = (.ok (), (.snappy, l)) := rfl
      simp only [aloneOps, Run.bind_apply, h, ih]
      simp

end MoreRows

/-- C119 for a column of a segment, whatever its encoding. -/
theorem C119_column (p : Profile) (ci : ColumnInfo) (before after : List ColOp) (rows more : List (Option Bytes)) (b b' : BinaryBuffer)
    (hb : b.Shows ci.nullable rows) (hb' : b'.Shows ci.nullable (rows ++ more))
    (hok : ∀ e, newBinaryEncoder ci.encoding BLOCK_SIZE ci.nullable = .ok e →
      (aloneOps p (before ++ [.write b, .close]) (e, [])).1 = .ok ()) :
    (blocksAlone p ci (before ++ [.write b, .close])).dropLast <+: blocksAlone p ci (before ++ .write b' :: after) := by
  simp only [blocksAlone]
  rcases he : newBinaryEncoder ci.encoding BLOCK_SIZE ci.nullable with x | e
  · exact List.nil_prefix
  · have hok := hok e he
    cases e with
    | raw e =>
      have hnew : e = BinaryEnc.Encoder.new BLOCK_SIZE ci.nullable := by
        revert he
        cases ci.encoding <;> simp [newBinaryEncoder]
        exact fun h => h.symm
      subst hnew
      simp only [MoreRows.aloneOps_calls, List.map_append, List.map_cons, List.map_nil, MoreRows.toCall] at hok ⊢
      exact C119_binary p ci.nullable BLOCK_SIZE (by decide) _ _ rows more b b' hb hb'
        (BinaryEnc.calls p recorder (before.map MoreRows.toCall ++ [.encode b, .flush]) (BinaryEnc.Encoder.new BLOCK_SIZE ci.nullable, [])).2.1
        _ (Prod.ext hok rfl)
    | snappy =>
      simp only [MoreRows.aloneOps_snappy, List.nil_append, List.filter_append, List.map_append]
      refine (List.dropLast_prefix _).trans ?_
      simp only [List.filter_cons, List.filter_nil, if_true, Bool.false_eq_true, if_false, List.map_cons, List.map_nil]
      exact List.prefix_append_right_inj _ |>.mpr ⟨_, rfl⟩

/-- C119 in the data file: of a segment whose last column is closed after a buffer, all but the last block of that column is the
beginning of the data file of a segment in which that buffer has more rows at its end, and other calls and columns may follow. -/
theorem C119_data_file (p : Profile) (os os' : SegmentOs) (info : SegmentInfo) (s s' t t' : SegmentWriter)
    (hnew : SegmentWriter.new p os info = .ok s) (hnew' : SegmentWriter.new p os' info = .ok t) (pre rest : List SegOp)
    (ci : ColumnInfo) (before after : List ColOp) (rows more : List (Option Bytes)) (b b' : BinaryBuffer)
    (hb : b.Shows ci.nullable rows) (hb' : b'.Shows ci.nullable (rows ++ more)) (rs rs' : List SegResult)
    (hrun : runSeg p os (pre ++ [.column ci (before ++ [.write b, .close])]) s = (rs, s')) (hgood : ∀ x ∈ rs, x.Good)
    (hrun' : runSeg p os' (pre ++ .column ci (before ++ .write b' :: after) :: rest) t = (rs', t')) (hgood' : ∀ x ∈ rs', x.Good) :
    ∃ kept last, s'.dataWriter.file.content ++ s'.dataWriter.file.pending = kept ++ last ∧
      last = ((blocksAlone p ci (before ++ [.write b, .close])).getLast?.map Prod.snd).getD [] ∧
      kept <+: t'.dataWriter.file.content ++ t'.dataWriter.file.pending := by
  rw [C47_data_is_columns p os info s s' hnew _ rs hrun hgood, C47_data_is_columns p os' info t t' hnew' _ rs' hrun' hgood']
  have happ : ∀ a c : List SegOp, columnBytes p (a ++ c) = columnBytes p a ++ columnBytes p c := by
    intro a c
    induction a with
    | nil => rfl
    | cons op a ih => cases op <;> simp [columnBytes, ih]
  have hok : ∀ e, newBinaryEncoder ci.encoding BLOCK_SIZE ci.nullable = .ok e →
      (aloneOps p (before ++ [.write b, .close]) (e, [])).1 = .ok () := by
    intro e he
    obtain ⟨g1, g2, _⟩ := new_ok hnew
    rw [runSeg_append] at hrun
    cases hrun
    obtain ⟨k1, _⟩ := runSeg_data (p := p) (os := os) pre (s := s) (fun x hx => hgood x (by simp [hx])) g2 g1
    generalize (runSeg p os pre s).2 = u at *
    have hcol := hgood (.column ci (runColOps p os (before ++ [.write b, .close])
      (⟨ci, e⟩, { u with blockIndex := u.blockIndex.clear })).1) (by
        simp [runSeg, SegOp.run, SegmentWriter.newBinaryColumnWriter, he])
    simp only [SegResult.Good] at hcol
    obtain ⟨bs, e', h, _⟩ := colOps_ok (p := p) (os := os) (before ++ [.write b, .close]) (c := ⟨ci, e⟩)
      (s := { u with blockIndex := u.blockIndex.clear }) hcol k1
    rw [h []]
  have h := C119_column p ci before after rows more b b' hb hb' hok
  rw [happ, happ]
  simp only [columnBytes, List.append_nil]
  generalize blocksAlone p ci (before ++ [.write b, .close]) = blocks at h ⊢
  obtain ⟨tail, ht⟩ := h
  rw [← ht]
  refine ⟨DATA_FILE_SIGNATURE ++ (columnBytes p pre ++ concatBlocks blocks.dropLast), _, ?_, rfl, ?_⟩
  · rcases List.eq_nil_or_concat blocks with rfl | ⟨init, x, rfl⟩
    · simp [concatBlocks]
    · simp [concatBlocks]
  · exact ⟨concatBlocks tail ++ columnBytes p rest, by simp [concatBlocks]⟩

/-- A column `a` of two strings, and `b` with the same two or with three: the file is the same up to the only block of `b`. -/
example : ∃ s, SegmentWriter.new .debug .reliable exampleInfo = .ok s ∧
    let more : BinaryBuffer := { data := [120, 121, 122, 120], offsets := [0, 2, 3, 4], validity := none }
    let a := SegOp.column (exampleColumn "a") [.write exampleBuffer, .close]
    let run := runSeg .debug .reliable [a, .column (exampleColumn "b") [.write exampleBuffer, .close], .close .insertion] s
    let run' := runSeg .debug .reliable [a, .column (exampleColumn "b") [.write more, .close], .close .insertion] s
    (∀ x ∈ run.1 ++ run'.1, x.Good) ∧
    run.2.dataWriter.file.content = DATA_FILE_SIGNATURE ++ [3, 120, 121, 122, 2, 2] ++ [3, 120, 121, 122, 2, 2] ∧
    run'.2.dataWriter.file.content = DATA_FILE_SIGNATURE ++ [3, 120, 121, 122, 2, 2] ++ [4, 120, 121, 122, 120, 2, 2] :=
  exists_ok (by decide +kernel)

/-- A string of 128 bytes, which is a block, and two short ones: with another string at the end the last block is another one. -/
example : ∃ s, SegmentWriter.new .debug .reliable exampleInfo = .ok s ∧
    let long := List.replicate 128 (97 : UInt8)
    let two : BinaryBuffer := { data := long ++ [98], offsets := [0, 128, 129], validity := none }
    let three : BinaryBuffer := { data := long ++ [98, 99, 99], offsets := [0, 128, 129, 131], validity := none }
    let run := runSeg .debug .reliable [.column (exampleColumn "a") [.write two, .close], .close .insertion] s
    let run' := runSeg .debug .reliable [.column (exampleColumn "a") [.write three, .close], .close .insertion] s
    let kept := DATA_FILE_SIGNATURE ++ (128 :: 1 :: long) ++ [8, 128]
    (∀ x ∈ run.1 ++ run'.1, x.Good) ∧ run.2.dataWriter.file.content = kept ++ [1, 98, 1, 1] ∧
    run'.2.dataWriter.file.content = kept ++ [3, 98, 99, 99, 2, 1] :=
  exists_ok (by decide +kernel)

end Meerkat
