import Verif.Proofs.Protobuf
import Verif.Props.SegmentMeta

set_option autoImplicit false

/-! # The metadata read back: C49 -/

namespace Meerkat

open Protobuf

theorem SameMap.of_perm {V : Type} {m m' : StringMap V} (h : m.Perm m') (hn : (m'.map Prod.fst).Nodup) :
    SameMap m m' :=
  ⟨((h.map Prod.fst).nodup_iff).2 hn, hn, fun _ _ => h.mem_iff⟩

/-- C49: for every metadata value (a `HashMap` has every key once) and every order in which the maps are iterated, the
bytes that `encode_to_vec` gives are read back as that value. -/
theorem C49_metadata_roundtrip (m : Metadata) (order : HashOrder)
    (hm : ∀ s, m.segmentMeta = some s → (s.columnsMeta.map Prod.fst).Nodup)
    (hl : (m.columnsLayout.map Prod.fst).Nodup)
    (hlen : (Prost.encodeMetadata (order.apply m)).length < 2 ^ 64) :
    ∃ m', readMetadata (Prost.encodeMetadata (order.apply m)) = some m' ∧ SameMetadata m' m := by
  have hl' : ((order.apply m).columnsLayout.map Prod.fst).Nodup :=
    (((order.columnsLayout_perm _).map Prod.fst).nodup_iff).2 hl
  refine ⟨order.apply m, read_metadata _ hlen ?_ hl', ?_, SameMap.of_perm (order.columnsLayout_perm _) hl⟩
  · intro s hs
    rcases h : m.segmentMeta with _ | s0
    · simp [HashOrder.apply, h] at hs
    · simp only [HashOrder.apply, h, Option.map_some, Option.some.injEq] at hs
      subst hs
      exact (((order.columnsMeta_perm _).map Prod.fst).nodup_iff).2 (hm _ h)
  · rcases h : m.segmentMeta with _ | s0
    · simp [HashOrder.apply, h]
    · simp only [HashOrder.apply, h, Option.map_some]
      exact ⟨rfl, SameMap.of_perm (order.columnsMeta_perm _) (hm _ h)⟩

/-- How a reader finds the metadata in an index file: the last 8 bytes are its position. -/
def indexFileMetadata (file : Bytes) : Option Metadata :=
  let n := file.length - 8
  readMetadata ((file.take n).drop (leNumber (file.drop n)))

/-- C49 for a whole segment: after any history without a failing call that ends with a close of the segment, the
metadata can be read from the index file, and it is the one described by C48. -/
theorem C49_index_file_metadata (p : Profile) (os : SegmentOs) (info : SegmentInfo) (s s' : SegmentWriter)
    (hnew : SegmentWriter.new p os info = .ok s) (ops : List SegOp) (order : HashOrder) (results : List SegResult)
    (hrun : runSeg p os (ops ++ [.close order]) s = (results, s')) (hgood : ∀ x ∈ results, x.Good)
    (hlen : s'.indexWriter.file.content.length < 2 ^ 64) :
    ∃ m, indexFileMetadata s'.indexWriter.file.content = some m ∧ SameMetadata m s'.segmentMeta := by
  obtain ⟨_, _, _, body, tail, h1, h2, h3, _⟩ := C46_files_framed p os info s s' hnew ops order results hrun hgood hlen
  obtain ⟨m, hm, _, _, _, _, _, hn1, hn2, _⟩ := C48_metadata_lists_closed p os info s s' hnew _ results hrun
  obtain ⟨m', h4, h5⟩ := C49_metadata_roundtrip s'.segmentMeta order
    (fun x hx => by rw [hm] at hx; cases hx; exact hn1) hn2
    (by rw [h1] at hlen; simp only [List.length_append] at hlen; omega)
  refine ⟨m', ?_, h5⟩
  have hc : s'.indexWriter.file.content.length - 8 =
      (body ++ Prost.encodeMetadata (order.apply s'.segmentMeta)).length := by
    rw [h1]; simp only [List.length_append]; omega
  simp only [indexFileMetadata, hc]
  rw [h1, List.take_left, List.drop_left, h3, List.drop_left, h4]

/-- Metadata with most kinds of fields. -/
def exampleMetadata : Metadata where
  segmentMeta := some {
    segmentId := [1, 2, 3], databaseName := "db", shardId := 300,
    columnsMeta := [("a", { name := "a", columnType := 8, encoding := -1, nullable := true }), ("é", {}), ("", {})] }
  columnsLayout := [("a", ⟨some ⟨some ⟨0, 1099511627776⟩⟩, some (.stringIndexV1 ⟨none⟩), some (.binaryDict ⟨some ⟨7, 0⟩⟩)⟩),
    ("b", ⟨none, some .noIndex, some .snappy⟩)]

/-- Two orders of the maps give different bytes that are read as the same metadata. -/
example : Prost.encodeMetadata (HashOrder.insertion.apply exampleMetadata) ≠
      Prost.encodeMetadata (HashOrder.backwards.apply exampleMetadata) ∧
    readMetadata (Prost.encodeMetadata (HashOrder.insertion.apply exampleMetadata)) = some exampleMetadata ∧
    readMetadata (Prost.encodeMetadata (HashOrder.backwards.apply exampleMetadata)) =
      some (HashOrder.backwards.apply exampleMetadata) := by
  decide +kernel

end Meerkat
