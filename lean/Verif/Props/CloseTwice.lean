import Verif.Props.Reflush
import Verif.Props.Torn

set_option autoImplicit false

/-!
# C110, C111: closing twice

Nothing in the types stops a caller from calling `close` again: it takes `&mut self`, both in a column writer
and in the segment writer.
-/

namespace Meerkat
open Spec

namespace CloseTwice

theorem rowsTold_append (cs : List Nat) : ∀ (n : Nat) (l bs : List (Nat × Bytes)), rowsTold (l.map Prod.fst) = n →
    bs.map (·.1) = countIds n cs → (∀ c ∈ cs, 1 ≤ c) → rowsTold ((l ++ bs).map Prod.fst) = n + cs.sum := by
  induction cs with
  | nil =>
    intro n l bs hl hb _
    simp only [countIds, List.map_eq_nil_iff] at hb
    subst hb
    simpa using hl
  | cons c cs ih =>
    intro n l bs hl hb hc
    cases bs with
    | nil => cases hb
    | cons b bs =>
      simp only [countIds, List.map_cons, List.cons.injEq] at hb
      have h1 := hc c (by simp)
      have := ih (n + c) (l ++ [b]) bs (by simp [rowsTold]; omega) hb.2 (fun x hx => hc x (by simp [hx]))
      rw [List.append_assoc] at this
      simp only [List.cons_append, List.nil_append] at this
      rw [this]
      simp [Nat.add_assoc]

theorem runColOps_append (p : Profile) (os : SegmentOs) (a b : List ColOp) (x : ColumnWriter × SegmentWriter) :
    runColOps p os (a ++ b) x =
      ((runColOps p os a x).1 ++ (runColOps p os b (runColOps p os a x).2).1,
        (runColOps p os b (runColOps p os a x).2).2) := by
  induction a generalizing x with
  | nil => rfl
  | cons op a ih => simp only [List.cons_append, runColOps, ih]

theorem aloneOps_append {p : Profile} {a b : List ColOp} {x y : BinaryEncoder × List (Nat × Bytes)}
    (h : aloneOps p a x = (.ok (), y)) : aloneOps p (a ++ b) x = aloneOps p b y := by
  induction a generalizing x with
  | nil => simp only [aloneOps, Run.pure_apply] at h; cases h; rfl
  | cons op a ih =>
    simp only [aloneOps] at h
    obtain ⟨_, z, h1, h2⟩ := bind_inv h
    simp only [List.cons_append, aloneOps, Run.bind_ok h1]
    exact ih h2

/-- The count of rows of a boxed encoder fits its `u32` and is that of the blocks written. -/
def RowsFit (l : List (Nat × Bytes)) : BinaryEncoder → Prop
  | .raw e => e.numRows < 2 ^ 32 ∧ rowsTold (l.map Prod.fst) = e.numRows
  | .snappy => True

theorem rowsFit_step {α : Type} {m : Run (BinaryEnc.Encoder × List (Nat × Bytes)) α} {e : BinaryEnc.Encoder}
    (h : CountsAt BinaryEnc.Encoder.numRows (fun _ => True) m e) {l : List (Nat × Bytes)}
    (he : RowsFit l (.raw e)) : RowsFit (m (e, l)).2.2 (.raw (m (e, l)).2.1) := by
  obtain ⟨cs, bs, h1, h2, h3, h4, h5, _⟩ := h l
  exact ⟨h5, by rw [h1, h4, rowsTold_append cs _ l bs he.2 h2 h3]⟩

theorem rowsFit_alone {p : Profile} {ops : List ColOp} {e : BinaryEncoder} {l : List (Nat × Bytes)}
    {y : BinaryEncoder × List (Nat × Bytes)} (he : RowsFit l e) (h : aloneOps p ops (e, l) = (.ok (), y)) :
    RowsFit y.2 y.1 := by
  induction ops generalizing e l with
  | nil => simp only [aloneOps, Run.pure_apply] at h; cases h; exact he
  | cons op ops ih =>
    simp only [aloneOps] at h
    obtain ⟨_, ⟨e1, l1⟩, h1, h2⟩ := bind_inv h
    refine ih ?_ h2
    cases e with
    | snappy =>
      cases op with
      | write b =>
        simp only [ColOp.alone, BinaryEncoder.encode, Run.bind_apply, Run.get_apply, Run.emit, recorder] at h1
        cases h1; trivial
      | close =>
        simp only [ColOp.alone, BinaryEncoder.flush, Run.bind_apply, Run.get_apply, Run.pure_apply] at h1
        cases h1; trivial
    | raw e =>
      cases op with
      | write b =>
        simp only [ColOp.alone, BinaryEncoder.encode, Run.bind_apply, Run.get_apply, BinaryEncoder.onRaw] at h1
        have hlt := rowsFit_step (BinaryEnc.encode_counts p b e he.1) he
        rcases hx : BinaryEnc.encode p recorder b (e, l) with ⟨r, e2, l2⟩
        rw [hx] at hlt h1
        cases h1; exact hlt
      | close =>
        simp only [ColOp.alone, BinaryEncoder.flush, Run.bind_apply, Run.get_apply, BinaryEncoder.onRaw] at h1
        have hlt := rowsFit_step (BinaryEnc.flush_counts p e he.1) he
        rcases hx : BinaryEnc.flush p recorder (e, l) with ⟨r | r, e2, l2⟩
        · rw [hx] at h1; cases h1
        · rw [hx] at hlt h1
          simp only [Run.pure_apply] at h1
          cases h1; exact hlt

theorem alone_closes (p : Profile) (j : Nat) (e : BinaryEnc.Encoder) (l : List (Nat × Bytes)) :
    aloneOps p (List.replicate j .close) (.raw e, l) =
      match Run.times (BinaryEnc.flush p recorder) j (e, l) with
      | (r, (e', l')) => (r, (.raw e', l')) := by
  induction j generalizing e l with
  | zero => simp only [List.replicate, aloneOps, Run.times, Run.pure_apply]
  | succ j ih =>
    simp only [List.replicate_succ, aloneOps, Run.times, ColOp.alone, BinaryEncoder.flush, BinaryEncoder.onRaw,
      Run.bind_apply, Run.get_apply]
    rcases BinaryEnc.flush p recorder (e, l) with ⟨r | r, e2, l2⟩
    · rfl
    · simp only [Run.pure_apply, ih]

theorem alone_closes_snappy (p : Profile) (j : Nat) (l : List (Nat × Bytes)) :
    aloneOps p (List.replicate j .close) (.snappy, l) = (.ok (), (.snappy, l)) := by
  induction j with
  | zero => simp only [List.replicate, aloneOps, Run.pure_apply]
  | succ j ih =>
    simp only [List.replicate_succ, aloneOps, ColOp.alone, BinaryEncoder.flush, Run.bind_apply, Run.get_apply,
      Run.pure_apply, ih]

theorem times_idle {p : Profile} (j : Nat) {e : BinaryEnc.Encoder} (l : List (Nat × Bytes))
    (h : e.remaining.len = 0) : Run.times (BinaryEnc.flush p recorder) j (e, l) = (.ok (), (e, l)) := by
  induction j with
  | zero => rfl
  | succ j ih => rw [Run.times, Run.bind_ok (C37_binary_flush_idle p recorder e l h), ih]

/-- What `1 + j` closes leave: the first writes what is held back, and each further one writes it again. -/
theorem alone_again {p : Profile} (j : Nat) {e e' : BinaryEncoder} {l l' : List (Nat × Bytes)} (he : RowsFit l e)
    (h : aloneOps p (List.replicate (1 + j) .close) (e, l) = (.ok (), (e', l'))) :
    (l' = l ∧ (aloneOps p [.close] (e, l)).2.2 = l) ∨
    ∃ id data n, 1 ≤ n ∧ id + 1 = rowsTold (l.map Prod.fst) + n ∧ (aloneOps p [.close] (e, l)).2.2 = l ++ [(id, data)] ∧
      l' = l ++ (List.range (1 + j)).map fun i => (id + i * n, data) := by
  cases e with
  | snappy =>
    rw [alone_closes_snappy] at h
    cases h
    exact .inl ⟨rfl, by rw [show [ColOp.close] = List.replicate 1 .close from rfl, alone_closes_snappy]⟩
  | raw e =>
    rw [alone_closes] at h
    rw [show [ColOp.close] = List.replicate 1 .close from rfl, alone_closes]
    by_cases hl : e.remaining.len > 0
    · right
      rw [Nat.add_comm 1 j] at h ⊢
      rcases h1 : BinaryEnc.flush p recorder (e, l) with ⟨r | r, e0, l0⟩
      · rw [Run.times, Run.bind_error h1] at h; cases h
      · obtain ⟨id, data, n, rfl, hn, hid, hj⟩ := C37_binary_flush_again_exact p e e0 he.1 hl l l0 h1
        obtain ⟨e1, hj⟩ := hj j
        rw [Run.times, Run.bind_ok h1, hj] at h
        refine ⟨id, data, n, hn, by rw [he.2]; exact hid, ?_, ?_⟩
        · rw [Run.times, Run.bind_ok h1]
          rfl
        · by_cases hlt : id + j * n + 1 < 2 ^ 32
          · have hmin : min j ((2 ^ 32 - 2 - id) / n) = j :=
              Nat.min_eq_left ((Nat.le_div_iff_mul_le (by omega)).2 (by omega))
            rw [if_pos hlt, hmin] at h
            obtain ⟨_, hl'⟩ := Prod.mk.inj (Prod.mk.inj h).2
            rw [← hl', List.range_succ_eq_map]
            simp [Function.comp_def]
          · rw [if_neg hlt] at h; cases (Prod.mk.inj h).1
    · left
      rw [times_idle _ _ (by omega)] at h ⊢
      cases h
      exact ⟨rfl, rfl⟩

/-- The layout a flush reports. -/
def layoutOf : BinaryEncoder → EncoderLayout
  | .raw _ => .plain
  | .snappy => .snappy

theorem flush_layout {S : Type} {p : Profile} {k : Sink S} {e e' : BinaryEncoder} {x x' : S} {l : EncoderLayout}
    (h : BinaryEncoder.flush p k (e, x) = (.ok l, (e', x'))) : l = layoutOf e ∧ layoutOf e' = layoutOf e := by
  cases e with
  | snappy =>
    simp only [BinaryEncoder.flush, Run.bind_apply, Run.get_apply, Run.pure_apply] at h
    cases h; exact ⟨rfl, rfl⟩
  | raw e =>
    simp only [BinaryEncoder.flush, Run.bind_apply, Run.get_apply, BinaryEncoder.onRaw] at h
    rcases hx : BinaryEnc.flush p k (e, x) with ⟨r | r, e2, l2⟩
    · rw [hx] at h; cases h
    · rw [hx] at h
      simp only [Run.pure_apply] at h
      cases h; exact ⟨rfl, rfl⟩

theorem insert_again {V : Type} (m : StringMap V) (k : String) (v : V) : (m.insert k v).insert k v = m.insert k v := by
  simp [StringMap.insert, List.filter_append, List.filter_filter]

/-- A column closed a second time leaves the metadata as they are. -/
theorem close_meta {p : Profile} {os : SegmentOs} {c0 c1 c2 : ColumnWriter} {s0 s1 s2 : SegmentWriter}
    (h1 : ColumnWriter.close p os (c0, s0) = (.ok (), (c1, s1)))
    (h2 : ColumnWriter.close p os (c1, s1) = (.ok (), (c2, s2))) : s2.segmentMeta = s1.segmentMeta := by
  obtain ⟨l1, f1, i1, _, m1⟩ := close_ok h1
  obtain ⟨l2, f2, i2, _, m2⟩ := close_ok h2
  obtain ⟨rfl, k1⟩ := flush_layout f1
  obtain ⟨rfl, k2⟩ := flush_layout f2
  rw [i1, k1] at m2
  simp only [ColumnWriter.insertColumn] at m1 m2
  split at m1
  · cases m1
  · rw [← Except.ok.inj m1] at m2 ⊢
    simp only [insert_again] at m2
    exact (Except.ok.inj m2).symm

theorem closes_meta {p : Profile} {os : SegmentOs} (j : Nat) {c0 c1 : ColumnWriter} {s0 s1 : SegmentWriter}
    (h1 : ColumnWriter.close p os (c0, s0) = (.ok (), (c1, s1)))
    (hok : ∀ x ∈ (runColOps p os (List.replicate j .close) (c1, s1)).1, x.2 = .ok ()) :
    (runColOps p os (List.replicate j .close) (c1, s1)).2.2.segmentMeta = s1.segmentMeta := by
  induction j generalizing c0 s0 c1 s1 with
  | zero => rfl
  | succ j ih =>
    simp only [List.replicate_succ, runColOps, ColOp.run] at hok ⊢
    rcases h2 : ColumnWriter.close p os (c1, s1) with ⟨r, c2, s2⟩
    simp only [h2] at hok ⊢
    obtain rfl : r = .ok () := hok (.close, r) (by simp)
    rw [ih h2 (fun x hx => hok x (by simp [hx])), close_meta h1 h2]

end CloseTwice

open CloseTwice

/-- C111, exactly: when a column is closed `j` more times without an error, the metadata stay as they
were; if the first close wrote nothing, nothing is added to the data file and the block index; if it wrote
a block, which holds `n` rows, each further close writes that block again, with the row id moved on by `n`. -/
theorem C111_column_close_again_exact (p : Profile) (os : SegmentOs) (info : SegmentInfo) (s s1 s2 : SegmentWriter)
    (hnew : SegmentWriter.new p os info = .ok s) (before : List SegOp) (ci : ColumnInfo) (cops : List ColOp) (j : Nat)
    (results1 results2 : List SegResult)
    (hrun1 : runSeg p os (before ++ [.column ci (cops ++ [.close])]) s = (results1, s1))
    (hrun2 : runSeg p os (before ++ [.column ci (cops ++ List.replicate (1 + j) .close)]) s = (results2, s2))
    (hgood : ∀ x ∈ results2, x.Good) :
    s2.segmentMeta = s1.segmentMeta ∧ s2.indexWriter = s1.indexWriter ∧ ∃ extra,
      s2.dataWriter.file.content ++ s2.dataWriter.file.pending =
        s1.dataWriter.file.content ++ s1.dataWriter.file.pending ++ concatBlocks extra ∧
      s2.blockIndex.blockRowId = s1.blockIndex.blockRowId ++ extra.map Prod.fst ∧
      ((blocksAlone p ci (cops ++ [.close]) = blocksAlone p ci cops ∧ extra = []) ∨
       ∃ id data n, 1 ≤ n ∧ id + 1 = rowsTold ((blocksAlone p ci cops).map Prod.fst) + n ∧
        blocksAlone p ci (cops ++ [.close]) = blocksAlone p ci cops ++ [(id, data)] ∧
        extra = (List.range j).map fun i => (id + (i + 1) * n, data)) := by
  rw [runSeg_append] at hrun1 hrun2
  rcases hb : runSeg p os before s with ⟨rs0, s0⟩
  rw [hb] at hrun1 hrun2
  simp only [runSeg, SegOp.run, SegmentWriter.newBinaryColumnWriter] at hrun1 hrun2
  rcases he : newBinaryEncoder ci.encoding BLOCK_SIZE ci.nullable with f | e
  · simp only [he] at hrun1 hrun2
    cases hrun1; cases hrun2
    exact ⟨rfl, rfl, [], by simp [concatBlocks], by simp, .inl ⟨by simp only [blocksAlone, he], rfl⟩⟩
  simp only [he] at hrun1 hrun2
  obtain ⟨g1, g2, _⟩ := new_ok hnew
  have hs0 : ∀ x ∈ rs0, x.Good := fun x hx => hgood x (by cases hrun2; simp [hx])
  have gd : ∃ data, GoodWriter s0.dataWriter data := by
    have := (runSeg_data (p := p) (os := os) before (s := s) (by rw [hb]; exact hs0) g2 g1).1
    rw [hb] at this
    exact ⟨_, this⟩
  obtain ⟨data, gd⟩ := gd
  have hfull : cops ++ List.replicate (1 + j) ColOp.close = (cops ++ [.close]) ++ List.replicate j .close := by
    rw [Nat.add_comm, List.replicate_succ, List.append_assoc]; rfl
  rcases h2 : runColOps p os (cops ++ List.replicate (1 + j) .close) ({ columnInfo := ci, encoder := e },
    { s0 with blockIndex := s0.blockIndex.clear }) with ⟨rs2, c2, t2⟩
  rcases h1 : runColOps p os (cops ++ [.close]) ({ columnInfo := ci, encoder := e },
    { s0 with blockIndex := s0.blockIndex.clear }) with ⟨rs1, c1, t1⟩
  rcases h0 : runColOps p os cops ({ columnInfo := ci, encoder := e },
    { s0 with blockIndex := s0.blockIndex.clear }) with ⟨rs, c0, t0⟩
  simp only [h1] at hrun1
  simp only [h2] at hrun2
  obtain ⟨rfl, rfl⟩ := Prod.mk.inj hrun1
  obtain ⟨rfl, rfl⟩ := Prod.mk.inj hrun2
  have hok2 : ∀ x ∈ rs2, x.2 = .ok () := hgood (.column ci rs2) (by simp)
  have h3 := h2
  rw [hfull, runColOps_append, h1] at h3
  have h4 := h1
  rw [runColOps_append, h0] at h4
  simp only [Prod.mk.injEq] at h3 h4
  obtain ⟨h3a, h3b⟩ := h3
  obtain ⟨h4a, h4b⟩ := h4
  have hok1 : ∀ x ∈ rs1, x.2 = .ok () := fun x hx => hok2 x (by rw [← h3a]; simp [hx])
  have hok0 : ∀ x ∈ rs, x.2 = .ok () := fun x hx => hok1 x (by rw [← h4a]; simp [hx])
  obtain ⟨bs0, e0, a0, _⟩ := colOps_ok (p := p) (os := os) cops
    (c := { columnInfo := ci, encoder := e }) (s := { s0 with blockIndex := s0.blockIndex.clear })
    (by rw [h0]; exact hok0) gd
  obtain ⟨bs1, e1, a1, w1, i1, _, x1⟩ := colOps_ok (p := p) (os := os) (cops ++ [.close])
    (c := { columnInfo := ci, encoder := e }) (s := { s0 with blockIndex := s0.blockIndex.clear })
    (by rw [h1]; exact hok1) gd
  obtain ⟨bs2, e2, a2, w2, i2, _, x2⟩ := colOps_ok (p := p) (os := os) (cops ++ List.replicate (1 + j) .close)
    (c := { columnInfo := ci, encoder := e }) (s := { s0 with blockIndex := s0.blockIndex.clear })
    (by rw [h2]; exact hok2) gd
  rw [h1] at w1 i1 x1
  rw [h2] at w2 i2 x2
  dsimp only at a0 a1 a2 w1 w2 i1 i2 x1 x2
  have hmeta : t2.segmentMeta = t1.segmentMeta := by
    simp only [runColOps, ColOp.run] at h4a h4b
    rcases h5 : ColumnWriter.close p os (c0, t0) with ⟨r, c3, t3⟩
    rw [h5] at h4a h4b
    obtain ⟨rfl, rfl⟩ := Prod.mk.inj h4b
    obtain rfl : r = .ok () := hok1 (.close, r) (by rw [← h4a]; simp)
    have := closes_meta j h5 (fun x hx => hok2 x (by rw [← h3a]; simp [hx]))
    rw [h3b] at this
    exact this
  refine ⟨hmeta, by rw [x2, x1], ?_⟩
  have hfit : RowsFit bs0 e0 := by
    refine rowsFit_alone (y := (e0, [] ++ bs0)) (l := []) (e := e) ?_ (a0 [])
    revert he
    cases ci.encoding <;> intro he <;> simp only [newBinaryEncoder] at he <;> cases he
    · exact ⟨Nat.two_pow_pos 32, rfl⟩
    · trivial
  have b0 : blocksAlone p ci cops = bs0 := by simp only [blocksAlone, he, a0, List.nil_append]
  have b1 : blocksAlone p ci (cops ++ [.close]) = bs1 := by simp only [blocksAlone, he, a1, List.nil_append]
  have k1 := a1 []
  rw [aloneOps_append (a0 [])] at k1
  have k2 := a2 []
  rw [aloneOps_append (a0 [])] at k2
  simp only [List.nil_append] at k1 k2
  have hx := alone_again j hfit k2
  rw [k1] at hx
  rcases hx with ⟨rfl, rfl⟩ | ⟨id, d, n, hn, hid, q1, rfl⟩
  · exact ⟨[], by rw [w2.content, w1.content]; simp [concatBlocks], by rw [i2, i1]; simp, .inl ⟨by rw [b0, b1], rfl⟩⟩
  · dsimp only at q1
    subst q1
    have hr : (List.range (1 + j)).map (fun i => (id + i * n, d)) =
        (id, d) :: (List.range j).map fun i => (id + (i + 1) * n, d) := by
      rw [Nat.add_comm 1 j, List.range_succ_eq_map]
      simp [Function.comp_def]
    refine ⟨_, ?_, ?_, .inr ⟨id, d, n, hn, by rw [b0]; exact hid, by rw [b0, b1], rfl⟩⟩
    · rw [w2.content, w1.content, hr]; simp [concatBlocks]
    · rw [i2, i1, hr]; simp

/-- The block index after a column of two strings closed once and closed twice, and the length of the data file. -/
theorem C111_column_close_again_violated : ∃ s, SegmentWriter.new .debug .reliable exampleInfo = .ok s ∧
    let once := runSeg .debug .reliable [.column (exampleColumn "a") [.write exampleBuffer, .close]] s
    let twice := runSeg .debug .reliable [.column (exampleColumn "a") [.write exampleBuffer, .close, .close]] s
    (∀ x ∈ once.1, x.Good) ∧ (∀ x ∈ twice.1, x.Good) ∧
    once.2.blockIndex.blockRowId = [1] ∧ twice.2.blockIndex.blockRowId = [1, 3] ∧
    (once.2.dataWriter.file.content ++ once.2.dataWriter.file.pending).length <
      (twice.2.dataWriter.file.content ++ twice.2.dataWriter.file.pending).length := by
  refine exists_ok ?_
  decide +kernel

/-- The theorem says something about that column: the first close writes a block of the two rows. -/
example : blocksAlone .debug (exampleColumn "a") [.write exampleBuffer] = [] ∧
    (blocksAlone .debug (exampleColumn "a") [.write exampleBuffer, .close]).map Prod.fst = [1] := by
  decide +kernel

/-! ## The segment -/

namespace CloseTwice

theorem segCloses {p : Profile} {os : SegmentOs} (orders : List HashOrder) {s : SegmentWriter} {idata data : Bytes}
    (hi : GoodWriter s.indexWriter idata) (hd : GoodWriter s.dataWriter data)
    (hc : s.dataWriter.file.content = data) (hx : s.indexWriter.file.content = idata)
    (hok : ∀ x ∈ (runSeg p os (orders.map .close) s).1, x.Good) :
    let s' := (runSeg p os (orders.map .close) s).2
    s'.dataWriter.file.content = s.dataWriter.file.content ∧ s'.segmentMeta = s.segmentMeta ∧
      s'.blockIndex = s.blockIndex ∧ s.indexWriter.file.content <+: s'.indexWriter.file.content := by
  induction orders generalizing s idata with
  | nil => exact ⟨rfl, rfl, rfl, List.prefix_refl _⟩
  | cons o orders ih =>
    rcases h1 : SegmentWriter.close p os o s with ⟨r, s1⟩
    simp only [List.map_cons, runSeg, SegOp.run, h1] at hok ⊢
    obtain rfl : r = .ok () := hok (.closed r) (by simp)
    obtain ⟨a1, a2, _, a3, a4, _, a5, a6⟩ := segClose_ok h1 hi hd
    obtain ⟨b1, b2, b3, b4⟩ := ih a1 a3 a4 a2 (fun x hx => hok x (by simp [hx]))
    refine ⟨by rw [b1, a4, hc], by rw [b2, a5], by rw [b3, a6], List.IsPrefix.trans ?_ b4⟩
    rw [a2, hx, List.append_assoc]
    exact List.prefix_append _ _

end CloseTwice

/-- C110: a segment that was closed without an error, after any history, may be closed again any number of times: as long
as no call fails the data file stays as it is, the index file only grows, and a reader of the index file finds
the same metadata as before. -/
theorem C110_segment_close_again (p : Profile) (os : SegmentOs) (info : SegmentInfo) (s s1 s2 : SegmentWriter)
    (hnew : SegmentWriter.new p os info = .ok s) (ops : List SegOp) (order : HashOrder) (orders : List HashOrder)
    (results1 results2 : List SegResult)
    (hrun1 : runSeg p os (ops ++ [.close order]) s = (results1, s1))
    (hrun2 : runSeg p os (ops ++ .close order :: orders.map .close) s = (results2, s2))
    (hgood : ∀ x ∈ results2, x.Good) (hlen : s2.indexWriter.file.content.length < 2 ^ 64) :
    s2.dataWriter.file.content = s1.dataWriter.file.content ∧ s2.dataWriter.file.pending = [] ∧
    s2.blockIndex = s1.blockIndex ∧ s2.segmentMeta = s1.segmentMeta ∧
    s1.indexWriter.file.content <+: s2.indexWriter.file.content ∧ s2.indexWriter.file.pending = [] ∧
    ∃ m1 m2, recoverIndex s1.indexWriter.file.content = some m1 ∧ recoverIndex s2.indexWriter.file.content = some m2 ∧
      Protobuf.SameMetadata m1 s1.segmentMeta ∧ Protobuf.SameMetadata m2 s1.segmentMeta := by
  have hcat : ops ++ SegOp.close order :: orders.map .close = (ops ++ [.close order]) ++ orders.map .close := by simp
  have h3 := hrun2
  rw [hcat, runSeg_append, hrun1] at h3
  obtain ⟨h3a, h3b⟩ := Prod.mk.inj h3
  dsimp only at h3a h3b
  have hgood1 : ∀ x ∈ results1, x.Good := fun x hx => hgood x (by rw [← h3a]; simp [hx])
  obtain ⟨g1, g2, _⟩ := new_ok hnew
  obtain ⟨g3, more, g4⟩ := runSeg_data (p := p) (os := os) _ (s := s) (by rw [hrun1]; exact hgood1) g2 g1
  rw [hrun1] at g3 g4
  have hpend : s1.dataWriter.file.pending = [] ∧ s1.indexWriter.file.pending = [] := by
    have h := hrun1
    rw [runSeg_append] at h
    rcases hs : runSeg p os ops s with ⟨rs1, t1⟩
    rcases hcl : SegmentWriter.close p os order t1 with ⟨r, t2⟩
    simp only [hs, runSeg, SegOp.run, hcl, Prod.mk.injEq] at h
    obtain ⟨rfl, rfl⟩ := h
    obtain rfl : r = .ok () := hgood1 (.closed r) (by simp)
    obtain ⟨k1, more1, k2⟩ := runSeg_data (p := p) (os := os) ops (s := s)
      (by rw [hs]; exact fun x hx => hgood1 x (by simp [hx])) g2 g1
    rw [hs] at k1 k2
    obtain ⟨_, _, q1, _, _, q2, _⟩ := segClose_ok hcl k2 k1
    exact ⟨q2, q1⟩
  have c3 := g3.content
  have c4 := g4.content
  dsimp only at c3 c4
  rw [hpend.1, List.append_nil] at c3
  rw [hpend.2, List.append_nil] at c4
  obtain ⟨k1, k2, k3, k4⟩ := segCloses (p := p) (os := os) orders g4 g3 c3 c4
    (fun x hx => hgood x (by rw [← h3a]; exact List.mem_append_right _ hx))
  rw [h3b] at k1 k2 k3 k4
  obtain ⟨m1, r1, e1⟩ := C81_whole_accepted p os info s s1 hnew ops order results1 hrun1 hgood1
    (Nat.lt_of_le_of_lt k4.length_le hlen)
  obtain ⟨front, last, hlast⟩ : ∃ front last, ops ++ SegOp.close order :: orders.map .close = front ++ [.close last] := by
    rcases List.eq_nil_or_concat orders with rfl | ⟨init, o, rfl⟩
    · exact ⟨ops, order, rfl⟩
    · exact ⟨ops ++ .close order :: init.map .close, o, by simp⟩
  rw [hlast] at hrun2
  obtain ⟨m2, r2, e2⟩ := C81_whole_accepted p os info s s2 hnew front last results2 hrun2 hgood hlen
  obtain ⟨p1, p2, _⟩ := C46_files_framed p os info s s2 hnew front last results2 hrun2 hgood hlen
  exact ⟨k1, p2, k3, k2, k4, p1, m1, m2, r1, r2, e1, by rw [← k2]; exact e2⟩

/-- Closing twice works, and the index file does grow. -/
example : ∃ s, SegmentWriter.new .debug .reliable exampleInfo = .ok s ∧
    let once := runSeg .debug .reliable (exampleOps ++ [.close .insertion]) s
    let twice := runSeg .debug .reliable (exampleOps ++ .close .insertion :: [.insertion].map .close) s
    (∀ x ∈ twice.1, x.Good) ∧
    once.2.indexWriter.file.content.length < twice.2.indexWriter.file.content.length ∧
    once.2.dataWriter.file.content = twice.2.dataWriter.file.content := by
  refine exists_ok ?_
  decide +kernel

end Meerkat
