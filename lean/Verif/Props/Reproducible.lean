import Verif.Props.Profiles
import Verif.Props.Listed

set_option autoImplicit false

/-! # C90: the same calls leave the same files -/

namespace Meerkat

namespace Reproducible

/-- The columns of a segment, and then `close()`. -/
def history (cols : List (ColumnInfo × List ColOp)) (order : HashOrder) : List SegOp :=
  cols.map (fun c => .column c.1 c.2) ++ [.close order]

theorem good_not_overflowed {x : SegResult} (h : x.Good) : ¬ x.Overflowed := by
  cases x with
  | rejected => simp [SegResult.Overflowed]
  | column i rs =>
    rintro ⟨y, hy, h1⟩
    rw [h y hy] at h1
    cases h1
  | closed r => simp only [SegResult.Overflowed]; rw [show r = .ok () from h]; simp

/-- A run without errors is also one of a release build. -/
theorem to_release {p : Profile} {os : SegmentOs} {info : SegmentInfo} {s s' : SegmentWriter} {ops : List SegOp}
    {rs : List SegResult} (hnew : SegmentWriter.new p os info = .ok s) (hrun : runSeg p os ops s = (rs, s'))
    (hgood : ∀ x ∈ rs, x.Good) :
    SegmentWriter.new .release os info = .ok s ∧ runSeg .release os ops s = (rs, s') := by
  cases p with
  | release => exact ⟨hnew, hrun⟩
  | debug =>
    obtain ⟨h1, h2⟩ := C72_segment os info ops
    exact ⟨by rw [h1, hnew], by rw [h2 s (by rw [hrun]; exact fun x hx => good_not_overflowed (hgood x hx)), hrun]⟩

theorem flush_layout {p1 p2 : Profile} {k1 k2 : Sink (Writer × BlockIndex)} {e1 e2 e1' e2' : BinaryEncoder}
    {x1 x2 x1' x2' : Writer × BlockIndex} {l1 l2 : EncoderLayout} (hk : e1 = .snappy ↔ e2 = .snappy)
    (h1 : BinaryEncoder.flush p1 k1 (e1, x1) = (.ok l1, (e1', x1')))
    (h2 : BinaryEncoder.flush p2 k2 (e2, x2) = (.ok l2, (e2', x2'))) : l1 = l2 := by
  rcases (BinaryEncoder.flush_kind h1).2 l1 rfl with ⟨a, b⟩ | ⟨a, b⟩ <;>
    rcases (BinaryEncoder.flush_kind h2).2 l2 rfl with ⟨c, d⟩ | ⟨c, d⟩
  · rw [b, d]
  · exact absurd (hk.1 a) c
  · exact absurd (hk.2 c) a
  · rw [b, d]

/-- Calls on a column that succeed do the same to the metadata on any two operating systems. -/
theorem colOps_same {p1 p2 : Profile} {os1 os2 : SegmentOs} (ops : List ColOp) {c1 c2 : ColumnWriter} {s1 s2 : SegmentWriter}
    (hc : c1.columnInfo = c2.columnInfo) (hk : c1.encoder = .snappy ↔ c2.encoder = .snappy)
    (hm : s1.segmentMeta = s2.segmentMeta) (hg1 : ∀ x ∈ (runColOps p1 os1 ops (c1, s1)).1, x.2 = .ok ())
    (hg2 : ∀ x ∈ (runColOps p2 os2 ops (c2, s2)).1, x.2 = .ok ()) :
    (runColOps p1 os1 ops (c1, s1)).2.2.segmentMeta = (runColOps p2 os2 ops (c2, s2)).2.2.segmentMeta := by
  induction ops generalizing c1 c2 s1 s2 with
  | nil => exact hm
  | cons op ops ih =>
    rcases h1 : op.run p1 os1 (c1, s1) with ⟨r1, c1', s1'⟩
    rcases h2 : op.run p2 os2 (c2, s2) with ⟨r2, c2', s2'⟩
    simp only [runColOps, h1, h2] at hg1 hg2 ⊢
    have hr1 : r1 = .ok () := hg1 _ (List.mem_cons_self ..)
    have hr2 : r2 = .ok () := hg2 _ (List.mem_cons_self ..)
    subst hr1 hr2
    have hg1' := fun x hx => hg1 x (List.mem_cons_of_mem _ hx)
    have hg2' := fun x hx => hg2 x (List.mem_cons_of_mem _ hx)
    cases op with
    | write b =>
      obtain ⟨a1, a2, _, a4⟩ := onSink_eq (show ColumnWriter.onSink _ (c1, s1) = _ from h1)
      obtain ⟨b1, b2, _, b4⟩ := onSink_eq (show ColumnWriter.onSink _ (c2, s2) = _ from h2)
      exact ih (by rw [a2, b2, hc]) (by rw [BinaryEncoder.encode_kind a1, BinaryEncoder.encode_kind b1]; exact hk)
        (by rw [a4, b4, hm]) hg1' hg2'
    | close =>
      obtain ⟨l1, a1, a2, _, a4⟩ := close_ok h1
      obtain ⟨l2, b1, b2, _, b4⟩ := close_ok h2
      have hl := flush_layout hk a1 b1
      subst hl
      refine ih (by rw [a2, b2, hc])
        (by rw [(BinaryEncoder.flush_kind a1).1, (BinaryEncoder.flush_kind b1).1]; exact hk) ?_ hg1' hg2'
      rw [hm, hc, b4] at a4
      exact (Except.ok.inj a4).symm

theorem columns_same {p1 p2 : Profile} {os1 os2 : SegmentOs} (cols : List (ColumnInfo × List ColOp)) {s1 s2 : SegmentWriter}
    (hm : s1.segmentMeta = s2.segmentMeta)
    (hg1 : ∀ x ∈ (runSeg p1 os1 (cols.map fun c => .column c.1 c.2) s1).1, x.Good)
    (hg2 : ∀ x ∈ (runSeg p2 os2 (cols.map fun c => .column c.1 c.2) s2).1, x.Good) :
    (runSeg p1 os1 (cols.map fun c => .column c.1 c.2) s1).2.segmentMeta =
      (runSeg p2 os2 (cols.map fun c => .column c.1 c.2) s2).2.segmentMeta := by
  induction cols generalizing s1 s2 with
  | nil => exact hm
  | cons c cols ih =>
    simp only [List.map_cons, runSeg] at hg1 hg2 ⊢
    refine ih ?_ (fun x hx => hg1 x (List.mem_cons_of_mem _ hx)) (fun x hx => hg2 x (List.mem_cons_of_mem _ hx))
    have g1 := hg1 _ (List.mem_cons_self ..)
    have g2 := hg2 _ (List.mem_cons_self ..)
    simp only [SegOp.run, SegmentWriter.newBinaryColumnWriter] at g1 g2 ⊢
    rcases he : newBinaryEncoder c.1.encoding BLOCK_SIZE c.1.nullable with f | e
    · exact hm
    · simp only [he] at g1 g2
      exact colOps_same c.2 rfl Iff.rfl hm g1 g2

/-- Iterating the maps in another order does not change the length of the encoded metadata. -/
theorem encode_length (m : Metadata) (o1 o2 : HashOrder) :
    (Prost.encodeMetadata (o1.apply m)).length = (Prost.encodeMetadata (o2.apply m)).length := by
  have hmap : ∀ {V : Type} [DecidableEq V] (tag : Nat) (dflt : V) (enc : V → Bytes) (m1 m2 : StringMap V), m1.Perm m2 →
      (Prost.mapField tag dflt enc m1).length = (Prost.mapField tag dflt enc m2).length := by
    intro V _ tag dflt enc m1 m2 h
    exact (h.flatMap_right _).length_eq
  have h1 : ∀ s : SegmentMeta,
      (Prost.encodeSegmentMeta { s with columnsMeta := o1.columnsMeta s.columnsMeta }).length =
      (Prost.encodeSegmentMeta { s with columnsMeta := o2.columnsMeta s.columnsMeta }).length := by
    intro s
    simp only [Prost.encodeSegmentMeta, List.length_append]
    rw [hmap 8 _ _ _ _ ((o1.columnsMeta_perm s.columnsMeta).trans (o2.columnsMeta_perm s.columnsMeta).symm)]
  simp only [Prost.encodeMetadata, HashOrder.apply, List.length_append]
  rw [hmap 2 _ _ _ _ ((o1.columnsLayout_perm m.columnsLayout).trans (o2.columnsLayout_perm m.columnsLayout).symm)]
  cases m.segmentMeta with
  | none => rfl
  | some s => simp only [Option.map_some, Prost.optField, Prost.lenField, List.length_append, h1 s]

theorem apply_nodup {m : Metadata} (o : HashOrder) (hm : ∀ s, m.segmentMeta = some s → (s.columnsMeta.map Prod.fst).Nodup)
    (hl : (m.columnsLayout.map Prod.fst).Nodup) :
    (∀ s, (o.apply m).segmentMeta = some s → (s.columnsMeta.map Prod.fst).Nodup) ∧
    ((o.apply m).columnsLayout.map Prod.fst).Nodup := by
  refine ⟨?_, (((o.columnsLayout_perm _).map Prod.fst).nodup_iff).2 hl⟩
  intro s hs
  rcases h : m.segmentMeta with _ | s0
  · simp [HashOrder.apply, h] at hs
  · simp only [HashOrder.apply, h, Option.map_some, Option.some.injEq] at hs
    subst hs
    exact (((o.columnsMeta_perm _).map Prod.fst).nodup_iff).2 (hm _ h)

/-- What the index file is in the end. -/
theorem index_file {p : Profile} {os : SegmentOs} {info : SegmentInfo} {s s' : SegmentWriter}
    {cols : List (ColumnInfo × List ColOp)} {order : HashOrder} {rs : List SegResult}
    (hnew : SegmentWriter.new p os info = .ok s) (hrun : runSeg p os (history cols order) s = (rs, s'))
    (hgood : ∀ x ∈ rs, x.Good) :
    s'.indexWriter.file.content =
      INDEX_FILE_SIGNATURE ++ Prost.encodeMetadata (order.apply s'.segmentMeta) ++ SegmentWriter.leBytes64 12 ∧
    s'.dataWriter.file.content = DATA_FILE_SIGNATURE ++ columnBytes p (cols.map fun c => .column c.1 c.2) ∧
    s'.segmentMeta = (runSeg p os (cols.map fun c => .column c.1 c.2) s).2.segmentMeta ∧
    ∀ x ∈ (runSeg p os (cols.map fun c => .column c.1 c.2) s).1, x.Good := by
  obtain ⟨g1, g2, _⟩ := new_ok hnew
  rw [history, runSeg_append] at hrun
  have hgood1 : ∀ x ∈ (runSeg p os (cols.map fun c => .column c.1 c.2) s).1, x.Good := by
    intro x hx
    refine hgood x ?_
    have := congrArg Prod.fst hrun
    dsimp only at this
    rw [← this]
    exact List.mem_append_left _ hx
  have hi : GoodWriter (runSeg p os (cols.map fun c => .column c.1 c.2) s).2.indexWriter INDEX_FILE_SIGNATURE := by
    rw [Listed.columns_index]; exact g1
  have hd := (runSeg_data (p := p) (os := os) _ (s := s) hgood1 g2 g1).1
  rcases hc : SegmentWriter.close p os order (runSeg p os (cols.map fun c => .column c.1 c.2) s).2 with ⟨r, s2⟩
  simp only [runSeg, SegOp.run, hc, Prod.mk.injEq] at hrun
  obtain ⟨hrs, rfl⟩ := hrun
  have hr : r = .ok () := hgood (.closed r) (by rw [← hrs]; simp)
  subst hr
  obtain ⟨_, h1, _, _, h2, _, h3, _⟩ := segClose_ok hc hi hd
  refine ⟨?_, h2, h3, hgood1⟩
  rw [h1, h3, hi.pos]
  rfl

end Reproducible

open Reproducible

/-- C90 is false of the code: the same two columns are written twice, and the index files differ, because `HashMap`
iterates in an order of its own. -/
theorem C90_same_files_violated :
    let cols := [(exampleColumn "a", [ColOp.write exampleBuffer, .close]), (exampleColumn "b", [.write exampleBuffer, .close])]
    ∃ s, SegmentWriter.new .debug .reliable exampleInfo = .ok s ∧
      (∀ x ∈ (runSeg .debug .reliable (history cols .insertion) s).1, x.Good) ∧
      (∀ x ∈ (runSeg .debug .reliable (history cols .backwards) s).1, x.Good) ∧
      (runSeg .debug .reliable (history cols .insertion) s).2.indexWriter.file.content ≠
        (runSeg .debug .reliable (history cols .backwards) s).2.indexWriter.file.content :=
  exists_ok (by decide +kernel)

/-- C90 exactly: whatever the columns, when the same calls are made on two segments with the same description, on any operating
systems and by any builds, and none of them fails, the data files are the same, the index files are of the same length, and
these are the same if and only if the maps of the metadata were iterated in the same order. -/
theorem C90_same_files_exact (p1 p2 : Profile) (os1 os2 : SegmentOs) (info : SegmentInfo)
    (cols : List (ColumnInfo × List ColOp)) (order1 order2 : HashOrder) (s1 s2 s1' s2' : SegmentWriter) (rs1 rs2 : List SegResult)
    (hnew1 : SegmentWriter.new p1 os1 info = .ok s1) (hnew2 : SegmentWriter.new p2 os2 info = .ok s2)
    (hrun1 : runSeg p1 os1 (history cols order1) s1 = (rs1, s1')) (hrun2 : runSeg p2 os2 (history cols order2) s2 = (rs2, s2'))
    (hgood1 : ∀ x ∈ rs1, x.Good) (hgood2 : ∀ x ∈ rs2, x.Good) (hlen : s1'.indexWriter.file.content.length < 2 ^ 64) :
    s1'.dataWriter.file.content = s2'.dataWriter.file.content ∧
    s1'.indexWriter.file.content.length = s2'.indexWriter.file.content.length ∧
    s1'.segmentMeta = s2'.segmentMeta ∧
    (s1'.indexWriter.file.content = s2'.indexWriter.file.content ↔
      order1.apply s1'.segmentMeta = order2.apply s1'.segmentMeta) := by
  obtain ⟨hnew1, hrun1⟩ := to_release hnew1 hrun1 hgood1
  obtain ⟨hnew2, hrun2⟩ := to_release hnew2 hrun2 hgood2
  obtain ⟨a1, a2, a3, a4⟩ := index_file hnew1 hrun1 hgood1
  obtain ⟨b1, b2, b3, b4⟩ := index_file hnew2 hrun2 hgood2
  obtain ⟨_, _, _, _, c1, _⟩ := new_ok hnew1
  obtain ⟨_, _, _, _, c2, _⟩ := new_ok hnew2
  have hm : s1'.segmentMeta = s2'.segmentMeta := by
    rw [a3, b3]
    exact columns_same cols (by rw [c1, c2]; rfl) a4 b4
  have he := encode_length s1'.segmentMeta order1 order2
  rw [← hm] at b1
  have hl : s1'.indexWriter.file.content.length = s2'.indexWriter.file.content.length := by
    rw [a1, b1]; simp only [List.length_append, he]
  refine ⟨by rw [a2, b2], hl, hm, ?_, fun h => by rw [a1, b1, h]⟩
  intro h
  obtain ⟨m, d1, _, _, _, _, _, d2, d3, _⟩ := C48_metadata_lists_closed .release os1 info s1 s1' hnew1 _ rs1 hrun1
  have hn : ∀ s, s1'.segmentMeta.segmentMeta = some s → (s.columnsMeta.map Prod.fst).Nodup := by
    intro s hs; rw [d1] at hs; cases hs; exact d2
  rw [a1, b1] at h
  have h' := List.append_cancel_left (List.append_cancel_right h)
  rw [a1] at hlen
  simp only [List.length_append] at hlen
  have r1 := Protobuf.read_metadata _ (by omega) (apply_nodup order1 hn d3).1 (apply_nodup order1 hn d3).2
  have r2 := Protobuf.read_metadata _ (by omega) (apply_nodup order2 hn d3).1 (apply_nodup order2 hn d3).2
  rw [h', r2] at r1
  exact (Option.some.inj r1).symm

/-- C90 as far as it holds: when at most one name of a column is closed, the files are the same. -/
theorem C90_same_files_partial (p1 p2 : Profile) (os1 os2 : SegmentOs) (info : SegmentInfo)
    (cols : List (ColumnInfo × List ColOp)) (order1 order2 : HashOrder) (s1 s2 s1' s2' : SegmentWriter) (rs1 rs2 : List SegResult)
    (hnew1 : SegmentWriter.new p1 os1 info = .ok s1) (hnew2 : SegmentWriter.new p2 os2 info = .ok s2)
    (hrun1 : runSeg p1 os1 (history cols order1) s1 = (rs1, s1')) (hrun2 : runSeg p2 os2 (history cols order2) s2 = (rs2, s2'))
    (hgood1 : ∀ x ∈ rs1, x.Good) (hgood2 : ∀ x ∈ rs2, x.Good) (hlen : s1'.indexWriter.file.content.length < 2 ^ 64)
    (name : String) (hone : ∀ ci ∈ closedColumns rs1, ci.name = name) :
    s1'.dataWriter.file.content = s2'.dataWriter.file.content ∧
    s1'.indexWriter.file.content = s2'.indexWriter.file.content := by
  obtain ⟨h1, _, _, h2⟩ := C90_same_files_exact p1 p2 os1 os2 info cols order1 order2 s1 s2 s1' s2' rs1 rs2 hnew1 hnew2 hrun1
    hrun2 hgood1 hgood2 hlen
  refine ⟨h1, h2.2 ?_⟩
  obtain ⟨m, d1, _, _, _, _, _, d2, d3, d4⟩ := C48_metadata_lists_closed p1 os1 info s1 s1' hnew1 _ rs1 hrun1
  have none_get : ∀ other, other ≠ name → m.columnsMeta.get other = none ∧ s1'.segmentMeta.columnsLayout.get other = none := by
    intro other ho
    have h := d4 other
    have hl : lastClosed rs1 other = none := by
      rw [lastClosed, List.find?_eq_none]
      intro x hx
      have := hone x (by simpa using hx)
      simpa [this] using fun e => ho e.symm
    rw [hl] at h
    exact h
  have short : ∀ {V : Type} (mp : StringMap V), (mp.map Prod.fst).Nodup → (∀ other, other ≠ name → mp.get other = none) →
      mp.length ≤ 1 := by
    intro V mp hn hg
    have keys : ∀ e ∈ mp, e.1 = name := by
      intro e he
      refine Decidable.byContradiction fun hne => ?_
      have := hg e.1 hne
      simp only [StringMap.get, Option.map_eq_none_iff, List.find?_eq_none] at this
      exact this e he (by simp)
    match mp, hn, keys with
    | [], _, _ => simp
    | [_], _, _ => simp
    | a :: b :: rest, hn, keys =>
      have ha := keys a (by simp)
      have hb := keys b (by simp)
      simp [ha, hb] at hn
  have perm_short : ∀ {V : Type} {a b c : StringMap V}, a.Perm c → b.Perm c → c.length ≤ 1 → a = b := by
    intro V a b c ha hb hc
    have l1 := ha.length_eq
    have l2 := hb.length_eq
    match c, hc with
    | [], _ => rw [List.perm_nil.1 ha, List.perm_nil.1 hb]
    | [x], _ => rw [List.perm_singleton.1 ha, List.perm_singleton.1 hb]
  have e1 := perm_short (order1.columnsMeta_perm m.columnsMeta) (order2.columnsMeta_perm m.columnsMeta)
    (short _ d2 fun o ho => (none_get o ho).1)
  have e2 := perm_short (order1.columnsLayout_perm s1'.segmentMeta.columnsLayout)
    (order2.columnsLayout_perm s1'.segmentMeta.columnsLayout) (short _ d3 fun o ho => (none_get o ho).2)
  simp only [HashOrder.apply, d1, Option.map_some, e1, e2]

end Meerkat
