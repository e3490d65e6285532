import Verif.Spec.Torn
import Verif.Props.Crash
import Verif.Props.Metadata

set_option autoImplicit false

/-! # Index files that were not completed: C81 -/

namespace Meerkat

namespace Torn

/-- A number below `256 ^ k` has zeros from byte `k` on. -/
theorem zeros_of_lt : ∀ (bs : Bytes) (k : Nat), leNumber bs < 256 ^ k → ∀ i, k ≤ i → i < bs.length →
    bs[i]? = some 0
  | [], _, _, _, _, h => absurd h (by simp)
  | b :: bs, 0, h, i, _, hi => by
    have h0 : b.toNat = 0 ∧ leNumber bs < 1 := by simp only [leNumber, Nat.pow_zero] at h; omega
    rcases i with _ | i
    · simp [show b = 0 from UInt8.toNat_inj.1 (by simpa using h0.1)]
    · rw [List.getElem?_cons_succ]
      exact zeros_of_lt bs 0 (by simpa using h0.2) i (Nat.zero_le _) (by simpa using hi)
  | b :: bs, k + 1, h, i, hk, hi => by
    obtain ⟨i, rfl⟩ : ∃ j, i = j + 1 := ⟨i - 1, by omega⟩
    rw [List.getElem?_cons_succ]
    refine zeros_of_lt bs k ?_ i (by omega) (by simpa using hi)
    simp only [leNumber, Nat.pow_succ] at h
    omega

theorem recover_framed {body md tail : Bytes} (hb : ascii "MEERKAT_IDX1" <+: body) (ht : tail.length = 8)
    (hn : leNumber tail = body.length) {m : Metadata} (hm : Protobuf.readMetadata md = some m)
    (hs : m.segmentMeta.isSome) : recoverIndex (body ++ md ++ tail) = some m := by
  have hc : (body ++ md ++ tail).length - 8 = (body ++ md).length := by
    simp only [List.length_append]; omega
  have h12 : 12 ≤ body.length := by have := hb.length_le; simpa [ascii] using this
  have hp : ascii "MEERKAT_IDX1" <+: body ++ md ++ tail := by
    rw [List.append_assoc]; exact hb.trans (List.prefix_append _ _)
  simp only [recoverIndex, hc, List.drop_left, List.take_left, hn]
  rw [if_pos ⟨hp, by simp only [List.length_append]; omega, h12, by simp only [List.length_append]; omega⟩, hm]
  simp [Option.filter, hs]

theorem same_isSome {m m' : Metadata} (h : Protobuf.SameMetadata m m') (h' : m'.segmentMeta.isSome) :
    m.segmentMeta.isSome := by
  have := h.segmentMeta
  rcases h1 : m.segmentMeta with _ | s
  · rcases h2 : m'.segmentMeta with _ | s'
    · rw [h2] at h'; cases h'
    · rw [h1, h2] at this; exact this.elim
  · rfl

/-- Where the id is in the metadata. -/
theorem encode_id (order : HashOrder) (m : Metadata) (sm : SegmentMeta) (hne : sm.segmentId ≠ []) :
    ∃ p q, ∀ id : Bytes, id.length = sm.segmentId.length →
      Prost.encodeMetadata (order.apply { m with segmentMeta := some { sm with segmentId := id } }) = p ++ id ++ q := by
  have hl : sm.segmentId.length ≠ 0 := by simpa using hne
  let rest : Bytes := Prost.stringField 2 sm.databaseName ++ Prost.stringField 3 sm.tableName ++
    Prost.varintField 4 sm.shardId.toNat ++ Prost.varintField 5 sm.compressedSize.toNat ++
    Prost.varintField 6 sm.uncompressedSize.toNat ++ Prost.varintField 7 sm.numRows.toNat ++
    Prost.mapField 8 {} Prost.encodeColumnMeta (order.columnsMeta sm.columnsMeta)
  let inner : Bytes := Prost.key 1 2 ++ Prost.varint sm.segmentId.length
  refine ⟨Prost.key 1 2 ++ Prost.varint (inner.length + sm.segmentId.length + rest.length) ++ inner,
    rest ++ Prost.mapField 2 {} Prost.encodeColumnLayout (order.columnsLayout m.columnsLayout), fun id hid => ?_⟩
  have hid0 : id ≠ [] := by rintro rfl; exact hl hid.symm
  have e1 : Prost.encodeSegmentMeta
      { sm with segmentId := id, columnsMeta := order.columnsMeta sm.columnsMeta } = inner ++ id ++ rest := by
    simp only [Prost.encodeSegmentMeta, Prost.bytesField, hid0, if_false, Prost.lenField, hid, inner, rest,
      List.append_assoc]
  have e2 : (inner ++ id ++ rest).length = inner.length + sm.segmentId.length + rest.length := by
    simp only [List.length_append, hid]
  show Prost.lenField 1 (Prost.encodeSegmentMeta
      { sm with segmentId := id, columnsMeta := order.columnsMeta sm.columnsMeta }) ++ _ = _
  rw [e1, Prost.lenField, e2]
  simp only [List.append_assoc]
  rfl

/-- No proper prefix of a short file without long runs of zeros looks complete. -/
theorem recover_prefix {pre tail disk : Bytes} {n : Nat} (ht : tail.length = 8) (hn : leNumber tail = n)
    (h12 : 12 ≤ n) (hpre : n ≤ pre.length) (hshort : (pre ++ tail).length < 3080) (hz : ¬ HasZeros 5 pre)
    (hd : disk <+: pre ++ tail) (hne : disk ≠ pre ++ tail) : recoverIndex disk = none := by
  rw [recoverIndex, if_neg]
  rintro ⟨_, h20, _, hpos⟩
  have hlen : disk.length < (pre ++ tail).length := by
    rcases Nat.lt_or_ge disk.length (pre ++ tail).length with h | h
    · exact h
    · exact absurd (hd.eq_of_length_le h) hne
  have hL : (pre ++ tail).length = pre.length + 8 := by rw [List.length_append, ht]
  have hat : ∀ j, j < disk.length → disk[j]? = (pre ++ tail)[j]? := fun j hj => by
    obtain ⟨t, ht⟩ := hd
    rw [← ht, List.getElem?_append_left hj]
  have hzero : ∀ j, disk.length - 6 ≤ j → j < disk.length → (pre ++ tail)[j]? = some 0 := fun j h1 h2 => by
    have := zeros_of_lt (disk.drop (disk.length - 8)) 2 (by omega) (j - (disk.length - 8)) (by omega)
      (by rw [List.length_drop]; omega)
    rw [List.getElem?_drop] at this
    rw [← hat j h2, ← this]
    congr 1
    omega
  match tail, ht with
  | [b0, b1, b2, b3, b4, b5, b6, b7], _ =>
  simp only [leNumber] at hn
  by_cases hk : disk.length ≤ pre.length + 1
  · refine hz ⟨disk.length - 6, by omega, fun j h1 h2 => ?_⟩
    have := hzero j h1 (by omega)
    rwa [List.getElem?_append_left (by omega)] at this
  by_cases hk : disk.length ≤ pre.length + 6
  · have z0 := hzero pre.length (by omega) (by omega)
    have z1 := hzero (pre.length + 1) (by omega) (by omega)
    rw [List.getElem?_append_right (by omega)] at z0 z1
    simp only [Nat.sub_self, List.getElem?_cons_zero, Option.some.injEq] at z0
    rw [show pre.length + 1 - pre.length = 1 by omega] at z1
    simp only [List.getElem?_cons_succ, List.getElem?_cons_zero, Option.some.injEq] at z1
    subst z0 z1
    have e0 : (0 : UInt8).toNat = 0 := rfl
    omega
  · have hdisk : disk = pre ++ [b0, b1, b2, b3, b4, b5, b6] := by
      have h7 : disk.length = pre.length + 7 := by omega
      rw [List.prefix_iff_eq_take.1 hd, h7, List.take_append, List.take_of_length_le (Nat.le_add_right _ _),
        show pre.length + 7 - pre.length = 7 by omega]
      rfl
    have hp0 : pre ≠ [] := by rintro rfl; simp at hpre; omega
    have hdrop : disk.drop (disk.length - 8) = pre.getLast hp0 :: [b0, b1, b2, b3, b4, b5, b6] := by
      have hs : disk = pre.dropLast ++ (pre.getLast hp0 :: [b0, b1, b2, b3, b4, b5, b6]) := by
        rw [List.append_cons, List.dropLast_concat_getLast]; exact hdisk
      have hl : disk.length - 8 = pre.dropLast.length := by
        rw [List.length_dropLast, hdisk, List.length_append]; exact Nat.add_sub_add_right _ 7 1
      rw [hl]
      conv => lhs; rw [hs]
      exact List.drop_left
    rw [hdrop] at hpos
    simp only [leNumber] at hpos
    omega

/-- A file of less than 16 MiB without long runs of zeros, if the position in its footer is not a multiple of 256: a proper prefix
that looks complete lacks the last byte only, and the position is early in the file. -/
theorem recover_prefix_long {pre tail disk : Bytes} {n : Nat} (ht : tail.length = 8) (hn : leNumber tail = n)
    (h256 : n % 256 ≠ 0) (hpre : n ≤ pre.length) (hshort : (pre ++ tail).length < 2 ^ 24) (hn64 : (pre ++ tail).length < 65536 * n)
    (hz : ¬ HasZeros 5 pre) (hd : disk <+: pre ++ tail) (hne : disk ≠ pre ++ tail) :
    recoverIndex disk = none ∨ disk.length + 1 = (pre ++ tail).length ∧ 256 * n + 8 < (pre ++ tail).length := by
  rw [recoverIndex]
  by_cases hcond : ascii "MEERKAT_IDX1" <+: disk ∧ 20 ≤ disk.length ∧ 12 ≤ leNumber (disk.drop (disk.length - 8)) ∧
    leNumber (disk.drop (disk.length - 8)) ≤ disk.length - 8
  rotate_left
  · left; exact if_neg hcond
  obtain ⟨_, h20, _, hpos⟩ := hcond
  right
  have hlen : disk.length < (pre ++ tail).length := by
    rcases Nat.lt_or_ge disk.length (pre ++ tail).length with h | h
    · exact h
    · exact absurd (hd.eq_of_length_le h) hne
  have hL : (pre ++ tail).length = pre.length + 8 := by rw [List.length_append, ht]
  have hat : ∀ j, j < disk.length → disk[j]? = (pre ++ tail)[j]? := fun j hj => by
    obtain ⟨t, ht⟩ := hd
    rw [← ht, List.getElem?_append_left hj]
  have hzero : ∀ j, disk.length - 5 ≤ j → j < disk.length → (pre ++ tail)[j]? = some 0 := fun j h1 h2 => by
    have := zeros_of_lt (disk.drop (disk.length - 8)) 3 (by omega) (j - (disk.length - 8)) (by omega)
      (by rw [List.length_drop]; omega)
    rw [List.getElem?_drop] at this
    rw [← hat j h2, ← this]
    congr 1
    omega
  have hdrop : ∀ k, k ≤ 8 → disk.length = pre.length + k →
      disk.drop (disk.length - 8) = pre.drop (pre.length + k - 8) ++ tail.take k := fun k hk h => by
    rw [List.prefix_iff_eq_take.1 hd, h, List.take_append, List.take_of_length_le (Nat.le_add_right _ _),
      show pre.length + k - pre.length = k by omega, List.length_append, List.length_take, ht,
      show min k 8 = k by omega, List.drop_append_of_le_length (by omega)]
  match tail, ht with
  | [b0, b1, b2, b3, b4, b5, b6, b7], _ =>
  simp only [leNumber] at hn
  have hlow : b0.toNat ≠ 0 := by omega
  by_cases hk : disk.length ≤ pre.length
  · refine absurd ⟨disk.length - 5, by omega, fun j h1 h2 => ?_⟩ hz
    have := hzero j h1 (by omega)
    rwa [List.getElem?_append_left (by omega)] at this
  by_cases hk5 : disk.length ≤ pre.length + 5
  · have z0 := hzero pre.length (by omega) (by omega)
    rw [List.getElem?_append_right (by omega)] at z0
    simp only [Nat.sub_self, List.getElem?_cons_zero, Option.some.injEq] at z0
    subst z0
    exact absurd rfl hlow
  by_cases hk6 : disk.length = pre.length + 6
  · rw [hdrop 6 (by omega) hk6] at hpos
    have hp2 : ∃ x y, pre.drop (pre.length + 6 - 8) = [x, y] := by
      have hl : (pre.drop (pre.length + 6 - 8)).length = 2 := by rw [List.length_drop]; omega
      match h : pre.drop (pre.length + 6 - 8), hl with
      | [x, y], _ => exact ⟨x, y, rfl⟩
    obtain ⟨x, y, hxy⟩ := hp2
    rw [hxy] at hpos
    simp only [List.take_succ_cons, List.take_zero, List.cons_append, List.nil_append, leNumber] at hpos
    omega
  · have hk7 : disk.length = pre.length + 7 := by omega
    refine ⟨by omega, ?_⟩
    rw [hdrop 7 (by omega) hk7] at hpos
    have hp1 : ∃ x, pre.drop (pre.length + 7 - 8) = [x] := by
      have hl : (pre.drop (pre.length + 7 - 8)).length = 1 := by rw [List.length_drop]; omega
      match h : pre.drop (pre.length + 7 - 8), hl with
      | [x], _ => exact ⟨x, rfl⟩
    obtain ⟨x, hx⟩ := hp1
    rw [hx] at hpos
    simp only [List.take_succ_cons, List.take_zero, List.cons_append, List.nil_append, leNumber] at hpos
    omega

end Torn

/-- C81: when the close of a segment has succeeded, after any history without a failing call, the index file looks
complete, and the metadata found in it are the segment's. -/
theorem C81_whole_accepted (p : Profile) (os : SegmentOs) (info : SegmentInfo) (s s' : SegmentWriter)
    (hnew : SegmentWriter.new p os info = .ok s) (ops : List SegOp) (order : HashOrder) (results : List SegResult)
    (hrun : runSeg p os (ops ++ [.close order]) s = (results, s')) (hgood : ∀ x ∈ results, x.Good)
    (hlen : s'.indexWriter.file.content.length < 2 ^ 64) :
    ∃ m, recoverIndex s'.indexWriter.file.content = some m ∧ Protobuf.SameMetadata m s'.segmentMeta := by
  obtain ⟨_, _, _, body, tail, h1, h2, h3, h4⟩ := C46_files_framed p os info s s' hnew ops order results hrun hgood hlen
  obtain ⟨m, hm, _, _, _, _, _, hn1, hn2, _⟩ := C48_metadata_lists_closed p os info s s' hnew _ results hrun
  obtain ⟨m', h5, h6⟩ := C49_metadata_roundtrip s'.segmentMeta order
    (fun x hx => by rw [hm] at hx; cases hx; exact hn1) hn2
    (by rw [h1] at hlen; simp only [List.length_append] at hlen; omega)
  refine ⟨m', ?_, h6⟩
  rw [h1]
  exact Torn.recover_framed h4 h2 h3 h5 (Torn.same_isSome h6 (by rw [hm]; rfl))

/-- C81, what is missing: after any such history, for every segment whose id is not all zeros, a crash before the sync
can leave an index file that looks complete although its id never reached the disk. -/
theorem C81_unsynced_recognised_violated (p : Profile) (os : SegmentOs) (info : SegmentInfo) (s s' : SegmentWriter)
    (hnew : SegmentWriter.new p os info = .ok s) (ops : List SegOp) (order : HashOrder) (results : List SegResult)
    (hrun : runSeg p os (ops ++ [.close order]) s = (results, s')) (hgood : ∀ x ∈ results, x.Good)
    (hlen : s'.indexWriter.file.content.length < 2 ^ 64) (hid : ∃ b ∈ info.segmentId, b ≠ 0) :
    ∃ disk m, AfterCrash s'.indexWriter.file disk ∧ disk ≠ s'.indexWriter.file.content ∧
      recoverIndex disk = some m ∧ Protobuf.SameMetadata m (withoutId s'.segmentMeta) := by
  obtain ⟨c1, _, _, body, tail, h1, h2, h3, h4⟩ :=
    C46_files_framed p os info s s' hnew ops order results hrun hgood hlen
  obtain ⟨m, hm, hmid, _, _, _, _, hn1, hn2, _⟩ := C48_metadata_lists_closed p os info s s' hnew _ results hrun
  obtain ⟨idata, data, g1, _, _, _, _⟩ := closed_state hnew hrun hgood
  obtain ⟨b, hb, hb0⟩ := hid
  rw [← hmid] at hb
  have hne : m.segmentId ≠ [] := by rintro h; rw [h] at hb; cases hb
  obtain ⟨pp, q, hpq⟩ := Torn.encode_id order s'.segmentMeta m hne
  let zeros : Bytes := List.replicate m.segmentId.length 0
  have hz : zeros.length = m.segmentId.length := List.length_replicate
  have e1 : s'.segmentMeta = { s'.segmentMeta with segmentMeta := some { m with segmentId := m.segmentId } } := by
    rw [← hm]
  have e2 : withoutId s'.segmentMeta = { s'.segmentMeta with segmentMeta := some { m with segmentId := zeros } } := by
    rw [withoutId, hm]; rfl
  have k1 : Prost.encodeMetadata (order.apply s'.segmentMeta) = pp ++ m.segmentId ++ q := by
    rw [← hpq m.segmentId rfl, ← e1]
  have k2 : Prost.encodeMetadata (order.apply (withoutId s'.segmentMeta)) = pp ++ zeros ++ q := by
    rw [← hpq zeros hz, ← e2]
  have hcl : s'.indexWriter.file.content = (body ++ pp) ++ (m.segmentId ++ (q ++ tail)) := by
    rw [h1, k1]; simp only [List.append_assoc]
  obtain ⟨m', h5, h6⟩ := C49_metadata_roundtrip (withoutId s'.segmentMeta) order
    (fun x hx => by rw [e2] at hx; cases hx; exact hn1) (by rw [e2]; exact hn2)
    (by rw [k2]; rw [hcl] at hlen; simp only [List.length_append, hz] at hlen ⊢; omega)
  have hdisk : body ++ Prost.encodeMetadata (order.apply (withoutId s'.segmentMeta)) ++ tail =
      (body ++ pp) ++ (zeros ++ (q ++ tail)) := by
    rw [k2]; simp only [List.append_assoc]
  refine ⟨body ++ Prost.encodeMetadata (order.apply (withoutId s'.segmentMeta)) ++ tail, m', ?_, ?_, ?_, h6⟩
  · refine ⟨by rw [show _ = ([] : Bytes) from g1.synced]; exact List.nil_prefix, ?_, fun i hi => ?_⟩
    · rw [c1, List.append_nil, hdisk, hcl]; simp only [List.length_append, hz]; omega
    · rw [c1, List.append_nil, hdisk, hcl]
      rw [hdisk] at hi
      by_cases a1 : i < (body ++ pp).length
      · rw [List.getElem?_append_left a1, List.getElem?_append_left a1]; exact .inl rfl
      · have a1 : (body ++ pp).length ≤ i := Nat.not_lt.1 a1
        rw [List.getElem?_append_right a1, List.getElem?_append_right a1]
        by_cases a2 : i - (body ++ pp).length < zeros.length
        · right
          rw [List.getElem?_append_left a2]
          simp only [zeros, List.getElem?_replicate]
          rw [if_pos (by rw [← hz]; exact a2)]
        · left
          have a2 : zeros.length ≤ i - (body ++ pp).length := Nat.not_lt.1 a2
          rw [List.getElem?_append_right a2, List.getElem?_append_right (l₁ := m.segmentId) (by rw [← hz]; exact a2), hz]
  · rw [hdisk, hcl]
    intro h
    have := List.append_cancel_right (List.append_cancel_left h)
    rw [← this] at hb
    exact hb0 (List.eq_of_mem_replicate hb)
  · exact Torn.recover_framed h4 h2 h3 h5 (Torn.same_isSome h6 (by rw [e2]; rfl))

/-- C81, what holds: if a crash can only cut the file, and the file is short and free of long runs of zeros before its
last 8 bytes, an index file that is cut anywhere does not look complete. -/
theorem C81_cut_recognised_partial (p : Profile) (os : SegmentOs) (info : SegmentInfo) (s s' : SegmentWriter)
    (hnew : SegmentWriter.new p os info = .ok s) (ops : List SegOp) (order : HashOrder) (results : List SegResult)
    (hrun : runSeg p os (ops ++ [.close order]) s = (results, s')) (hgood : ∀ x ∈ results, x.Good)
    (hshort : s'.indexWriter.file.content.length < 3080)
    (hzeros : ¬ HasZeros 5 (s'.indexWriter.file.content.take (s'.indexWriter.file.content.length - 8)))
    (disk : Bytes) (hcut : disk <+: s'.indexWriter.file.content) (hne : disk ≠ s'.indexWriter.file.content) :
    recoverIndex disk = none := by
  obtain ⟨c1, _, _, body, tail, h1, h2, h3, h4⟩ :=
    C46_files_framed p os info s s' hnew ops order results hrun hgood (by omega)
  have h12 : 12 ≤ body.length := by have := h4.length_le; simpa [ascii] using this
  rw [h1] at hshort hzeros hcut hne
  have hc : (body ++ Prost.encodeMetadata (order.apply s'.segmentMeta) ++ tail).length - 8 =
      (body ++ Prost.encodeMetadata (order.apply s'.segmentMeta)).length := by
    simp only [List.length_append]; omega
  rw [hc, List.take_left] at hzeros
  exact Torn.recover_prefix h2 h3 h12 (by simp only [List.length_append]; omega) hshort hzeros hcut hne

/-- C81, what holds of longer files, up to 16 MiB: if a crash can only cut the file, it is free of long runs of zeros before its last
8 bytes, and the position in these is not a multiple of 256 nor very early in the file (after one `close` it is 12, and the file
must be shorter than 768 KiB), then an index file that is cut does not look complete, unless it is from 3081 bytes on and
cut by one byte. -/
theorem C81_long_cut_recognised_partial (p : Profile) (os : SegmentOs) (info : SegmentInfo) (s s' : SegmentWriter)
    (hnew : SegmentWriter.new p os info = .ok s) (ops : List SegOp) (order : HashOrder) (results : List SegResult)
    (hrun : runSeg p os (ops ++ [.close order]) s = (results, s')) (hgood : ∀ x ∈ results, x.Good)
    (file : Bytes) (hfile : file = s'.indexWriter.file.content) (n : Nat) (hn : n = leNumber (file.drop (file.length - 8)))
    (hshort : file.length < 2 ^ 24) (h256 : n % 256 ≠ 0) (hpos : file.length < 65536 * n)
    (hzeros : ¬ HasZeros 5 (file.take (file.length - 8)))
    (disk : Bytes) (hcut : disk <+: file) (hne : disk ≠ file) :
    12 ≤ n ∧ (recoverIndex disk = none ∨ disk.length + 1 = file.length ∧ 256 * n + 8 < file.length) := by
  obtain ⟨c1, _, _, body, tail, h1, h2, h3, h4⟩ :=
    C46_files_framed p os info s s' hnew ops order results hrun hgood (by rw [← hfile]; omega)
  have h12 : 12 ≤ body.length := by have := h4.length_le; simpa [ascii] using this
  rw [← hfile] at h1
  have hc : file.length - 8 = (body ++ Prost.encodeMetadata (order.apply s'.segmentMeta)).length := by
    rw [h1]; simp only [List.length_append]; omega
  have hn' : n = body.length := by rw [hn, hc, h1, List.drop_left, h3]
  rw [hc] at hzeros
  rw [h1] at hzeros hcut hne hshort hpos ⊢
  rw [List.take_left] at hzeros
  refine ⟨by omega, Torn.recover_prefix_long h2 (by rw [h3, hn']) h256 ?_ hshort hpos hzeros hcut hne⟩
  simp only [List.length_append]; omega

/-- A segment whose table name looks like metadata with a footer. -/
def lookalikeInfo : SegmentInfo :=
  { exampleInfo with tableName := String.ofList ([10, 0, 38, 0, 0, 0, 0, 0, 0, 0].map Char.ofNat) }

/-- C81, what is missing: even if a crash can only cut the file, there are segments whose index file looks complete when
it is cut behind the table name. -/
theorem C81_cut_recognised_violated : ∃ s, SegmentWriter.new .debug .reliable lookalikeInfo = .ok s ∧
    let run := runSeg .debug .reliable [.close .insertion] s
    let file := run.2.indexWriter.file.content
    (∀ x ∈ run.1, x.Good) ∧ 48 < file.length ∧ file.length < 3080 ∧
    recoverIndex (file.take 48) = some { segmentMeta := some {} } := by
  refine exists_ok ?_
  decide +kernel

/-- The index file of the example segment, which can be cut nowhere. -/
example : ∃ s, SegmentWriter.new .debug .reliable exampleInfo = .ok s ∧
    let run := runSeg .debug .reliable (exampleOps ++ [.close .insertion]) s
    let file := run.2.indexWriter.file.content
    (∀ x ∈ run.1, x.Good) ∧ file.length = 103 ∧ (recoverIndex file).isSome ∧
    (∀ n < 103, recoverIndex (file.take n) = none) ∧
    (∀ i < 91, ¬ ∀ j < 5, (file.take 95)[i + j]? = some 0) := by
  refine exists_ok ?_
  decide +kernel

end Meerkat
