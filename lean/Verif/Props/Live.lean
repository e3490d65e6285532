import Verif.Proofs.Live
import Verif.Props.BlockReader
import Verif.Props.Segment
import Verif.Props.SegmentFailures

set_option autoImplicit false

/-! # Reading files that are still being written: C83, C84 -/

namespace Meerkat

open TokioFile

/-! ## C83 -/

/-- Nothing is pending when a close has succeeded. -/
theorem close_settled {p : Profile} {os : SegmentOs} {order : HashOrder} {s s' : SegmentWriter}
    (h : SegmentWriter.close p os order s = (.ok (), s')) :
    syncedBytes os.data s'.dataWriter.file = s'.dataWriter.file.content ∧
    syncedBytes os.index s'.indexWriter.file = s'.indexWriter.file.content := by
  have key : ∀ {o : Os} {w w' : Writer}, Writer.flush o w = (.ok (), w') → syncedBytes o w'.file = w'.file.content := by
    intro o w w' h
    simp only [Writer.flush, Writer.onFile] at h
    rcases h2 : TokioFile.flush o w.file with ⟨r, f⟩
    simp only [h2] at h
    cases h
    obtain ⟨_, _, hi, _⟩ := flush_ok h2
    simp [syncedBytes, hi]
  simp only [SegmentWriter.close] at h
  obtain ⟨_, s1, h1, h⟩ := bind_inv h
  obtain ⟨_, s2, h2, h⟩ := bind_inv h
  obtain ⟨_, s3, h3, h4⟩ := bind_inv h
  obtain ⟨a3, b3⟩ := onIndex_ok h3
  obtain ⟨a4, b4⟩ := onData_ok h4
  refine ⟨key a4, ?_⟩
  have : s'.indexWriter = s3.indexWriter := by rw [b4]
  rw [this]
  exact key a3

/-- C83: what `read_block` returns for a file while the segment is being written, from any moment on up to a close() that
succeeds, are the bytes the closed file has in that range, whatever has failed in between; each `pread` may find
another content. -/
theorem C83_live_reads (p q : Profile) (os : SegmentOs) (s s1 s2 : SegmentWriter) (ops : List SegOp) (order : HashOrder)
    (results : List SegResult) (hrun : runSeg p os ops s = (results, s1))
    (hclose : SegmentWriter.close p os order s1 = (.ok (), s2)) (faulty : Bool) (range : BlockRange)
    (hs : range.start < 2 ^ 64) (bs : Bytes) :
    (s2.dataWriter.file.content.length < 2 ^ 63 →
      ReadBlockLive q faulty (SeenData p os (ops ++ [.close order]) s) range (.ok bs) →
      InFile s2.dataWriter.file.content range ∧ bs = bytesOf s2.dataWriter.file.content range) ∧
    (s2.indexWriter.file.content.length < 2 ^ 63 →
      ReadBlockLive q faulty (SeenIndex p os (ops ++ [.close order]) s) range (.ok bs) →
      InFile s2.indexWriter.file.content range ∧ bs = bytesOf s2.indexWriter.file.content range) := by
  have hfin : (runSeg p os (ops ++ [.close order]) s).2 = s2 := by
    rw [runSeg_append, hrun]
    simp only [runSeg, SegOp.run, hclose]
  obtain ⟨hd, hi⟩ := close_settled hclose
  refine ⟨fun hlen h => h.ok_spec hlen (fun x hx => ?_) hs, fun hlen h => h.ok_spec hlen (fun x hx => ?_) hs⟩
  · have := hx.kept
    rwa [hfin, hd] at this
  · have := hx.kept
    rwa [hfin, hi] at this

/-- C83, for segments that are not closed, or not yet: the bytes read are those the file has at any later moment, once the
write pending then is over. -/
theorem C83_reads_are_kept (p q : Profile) (os : SegmentOs) (s : SegmentWriter) (ops : List SegOp) (faulty : Bool)
    (range : BlockRange) (hs : range.start < 2 ^ 64) (bs : Bytes) :
    let s' := (runSeg p os ops s).2
    let data := syncedBytes os.data s'.dataWriter.file
    let index := syncedBytes os.index s'.indexWriter.file
    (data.length < 2 ^ 63 → ReadBlockLive q faulty (SeenData p os ops s) range (.ok bs) →
      InFile data range ∧ bs = bytesOf data range) ∧
    (index.length < 2 ^ 63 → ReadBlockLive q faulty (SeenIndex p os ops s) range (.ok bs) →
      InFile index range ∧ bs = bytesOf index range) :=
  ⟨fun hlen h => h.ok_spec hlen (fun _ hx => SeenData.kept hx) hs,
   fun hlen h => h.ok_spec hlen (fun _ hx => SeenIndex.kept hx) hs⟩

/-- A file that continues what it was when the reader was opened. -/
theorem within_len (q : Profile) (opens stats : Bool) (file : Bytes) (hlen : file.length < 2 ^ 63) (rd : Reader)
    (hrd : Reader.new opens stats file = .ok rd) (sees : Bytes → Prop) (later : ∀ x, sees x → file <+: x)
    (range : BlockRange) (hr : range.start ≤ range.end) (hin : range.end ≤ rd.len) (r : Except ReadError Bytes)
    (h : ReadBlockLive q false sees range r) : r = .ok (bytesOf file range) := by
  simp only [Reader.new] at hrd
  split at hrd
  · cases hrd
    dsimp only at hin
    rcases r with e | bs
    · exact absurd ⟨hr, Or.inr hin⟩ (h.error_spec hlen fun x hx => (later x hx).length_le)
    · cases h with
      | read n h hn r hr' =>
        rw [q.sub_ok hr] at h
        cases h
        have key : ∀ off n (r : Except ReadError Bytes), ReadExactLive false sees off n r → ∀ bs, r = .ok bs →
            off + n ≤ file.length → bs = (file.drop off).take n := by
          intro off n r h
          induction h with
          | full off => rintro _ h -; cases h; simp
          | eof => rintro _ h; cases h
          | read off n k hk hn x hx hlen' r _ ih =>
            rintro bs h hle
            rcases r with e | bs'
            · cases h
            · cases h
              rw [ih bs' rfl (by omega), ← prefix_range (later x hx) (show off + k ≤ file.length by omega)]
              have : n = k + (n - k) := by omega
              rw [this, List.take_add, List.drop_drop]
              simp
          | interrupted off n hn r _ ih => exact ih
          | offset => rintro _ h; cases h
          | failed => rintro _ h; cases h
        rw [key _ _ _ hr' bs rfl (by omega), bytesOf]
  · cases hrd

/-- C83: a range within the `len()` of a reader can be read from then on (`file.length ≤ x.length`: the file does not become
shorter), and gives the bytes the file had when the reader was opened, while the segment is being written. -/
theorem C83_within_len (p q : Profile) (os : SegmentOs) (s : SegmentWriter) (ops : List SegOp) (opens stats : Bool)
    (file : Bytes) (hlen : file.length < 2 ^ 63) (rd : Reader) (hrd : Reader.new opens stats file = .ok rd)
    (range : BlockRange) (hr : range.start ≤ range.end) (hin : range.end ≤ rd.len) (r : Except ReadError Bytes) :
    (SeenData p os ops s file →
      ReadBlockLive q false (fun x => SeenData p os ops s x ∧ file.length ≤ x.length) range r →
      r = .ok (bytesOf file range)) ∧
    (SeenIndex p os ops s file →
      ReadBlockLive q false (fun x => SeenIndex p os ops s x ∧ file.length ≤ x.length) range r →
      r = .ok (bytesOf file range)) :=
  ⟨fun hf h => within_len q opens stats file hlen rd hrd _
      (fun _ hx => List.prefix_of_prefix_length_le hf.kept hx.1.kept hx.2) range hr hin r h,
   fun hf h => within_len q opens stats file hlen rd hrd _
      (fun _ hx => List.prefix_of_prefix_length_le hf.kept hx.1.kept hx.2) range hr hin r h⟩

open ReadStream in
/-- C83, for `read_blocks`: whatever the order in which the reads complete, what the stream has yielded at any moment are
results for the first ops, in order, and each is an error or the bytes the closed file has in the range of its op. -/
theorem C83_live_stream (p q : Profile) (os : SegmentOs) (s s1 s2 : SegmentWriter) (ops : List SegOp) (order : HashOrder)
    (results : List SegResult) (hrun : runSeg p os ops s = (results, s1))
    (hclose : SegmentWriter.close p os order s1 = (.ok (), s2)) (faulty : Bool) (wanted : List ReadOp)
    (hs : ∀ op ∈ wanted, op.blockRange.start < 2 ^ 64) (n : Nat) (st : ReadStream) :
    (s2.dataWriter.file.content.length < 2 ^ 63 →
      Steps (ReadBlockLive q faulty (SeenData p os (ops ++ [.close order]) s)) n (start wanted) st →
      st.out.length ≤ wanted.length ∧ (st.Ended → st.out.length = wanted.length) ∧
      ∀ i op, i < st.out.length → wanted[i]? = some op → ∃ y, st.out[i]? = some y ∧ y.opInfo = op.opInfo ∧
        ((∃ e, y.result = .error e) ∨ InFile s2.dataWriter.file.content op.blockRange ∧
          y.result = .ok (bytesOf s2.dataWriter.file.content op.blockRange))) ∧
    (s2.indexWriter.file.content.length < 2 ^ 63 →
      Steps (ReadBlockLive q faulty (SeenIndex p os (ops ++ [.close order]) s)) n (start wanted) st →
      st.out.length ≤ wanted.length ∧ (st.Ended → st.out.length = wanted.length) ∧
      ∀ i op, i < st.out.length → wanted[i]? = some op → ∃ y, st.out[i]? = some y ∧ y.opInfo = op.opInfo ∧
        ((∃ e, y.result = .error e) ∨ InFile s2.indexWriter.file.content op.blockRange ∧
          y.result = .ok (bytesOf s2.indexWriter.file.content op.blockRange))) := by
  have key : ∀ (sees : Bytes → Prop) (final : Bytes),
      (∀ range, range.start < 2 ^ 64 → ∀ bs, ReadBlockLive q faulty sees range (.ok bs) →
        InFile final range ∧ bs = bytesOf final range) →
      Steps (ReadBlockLive q faulty sees) n (start wanted) st →
      st.out.length ≤ wanted.length ∧ (st.Ended → st.out.length = wanted.length) ∧
      ∀ i op, i < st.out.length → wanted[i]? = some op → ∃ y, st.out[i]? = some y ∧ y.opInfo = op.opInfo ∧
        ((∃ e, y.result = .error e) ∨ InFile final op.blockRange ∧ y.result = .ok (bytesOf final op.blockRange)) := by
    intro sees final hgood h
    have hi := (Inv.start wanted).steps h
    have h1 := hi.outgoing
    have h2 := hi.incoming
    have h3 := hi.outLength
    refine ⟨by omega, fun he => by rw [h3, hi.ended he], fun i op hlt hget => ?_⟩
    obtain ⟨r, h4, h5⟩ := hi.outResults i op (by omega) hget
    refine ⟨_, h4, rfl, ?_⟩
    rcases r with e | bs
    · exact .inl ⟨e, rfl⟩
    · obtain ⟨h6, h7⟩ := hgood op.blockRange (hs op (List.mem_of_getElem? hget)) bs h5
      exact .inr ⟨h6, by rw [← h7]; rfl⟩
  refine ⟨fun hlen => key _ _ fun range hr bs => ?_, fun hlen => key _ _ fun range hr bs => ?_⟩
  · exact (C83_live_reads p q os s s1 s2 ops order results hrun hclose faulty range hr bs).1 hlen
  · exact (C83_live_reads p q os s s1 s2 ops order results hrun hclose faulty range hr bs).2 hlen

open ReadStream in
/-- C83: a stream of ranges within the `len()` of a reader that ends has yielded, for each of them, the bytes the file had
when the reader was opened, while the segment is being written. -/
theorem C83_stream_within_len (p q : Profile) (os : SegmentOs) (s : SegmentWriter) (ops : List SegOp) (opens stats : Bool)
    (file : Bytes) (hlen : file.length < 2 ^ 63) (rd : Reader) (hrd : Reader.new opens stats file = .ok rd)
    (wanted : List ReadOp)
    (hin : ∀ op ∈ wanted, op.blockRange.start ≤ op.blockRange.end ∧ op.blockRange.end ≤ rd.len)
    (n : Nat) (st : ReadStream) (hend : st.Ended) :
    (SeenData p os ops s file →
      Steps (ReadBlockLive q false (fun x => SeenData p os ops s x ∧ file.length ≤ x.length)) n (start wanted) st →
      st.out = wanted.map fun op => { opInfo := op.opInfo, result := .ok (bytesOf file op.blockRange) }) ∧
    (SeenIndex p os ops s file →
      Steps (ReadBlockLive q false (fun x => SeenIndex p os ops s x ∧ file.length ≤ x.length)) n (start wanted) st →
      st.out = wanted.map fun op => { opInfo := op.opInfo, result := .ok (bytesOf file op.blockRange) }) := by
  have key : ∀ (sees : Bytes → Prop),
      (∀ range, range.start ≤ range.end → range.end ≤ rd.len → ∀ r, ReadBlockLive q false sees range r →
        r = .ok (bytesOf file range)) →
      Steps (ReadBlockLive q false sees) n (start wanted) st →
      st.out = wanted.map fun op => { opInfo := op.opInfo, result := .ok (bytesOf file op.blockRange) } := by
    intro sees hgood h
    have hi := (Inv.start wanted).steps h
    have h3 := hi.outLength
    have h4 := hi.ended hend
    apply List.ext_getElem?
    intro i
    by_cases hlt : i < wanted.length
    · have hget := List.getElem?_eq_getElem hlt
      obtain ⟨r, h5, h6⟩ := hi.outResults i _ (by omega) hget
      obtain ⟨h7, h8⟩ := hin _ (List.mem_of_getElem? hget)
      rw [h5, List.getElem?_map, hget, hgood _ h7 h8 r h6]
      rfl
    · rw [List.getElem?_eq_none (by omega), List.getElem?_eq_none (by simpa using hlt)]
  refine ⟨fun hf => key _ fun range h1 h2 r => ?_, fun hf => key _ fun range h1 h2 r => ?_⟩
  · exact (C83_within_len p q os s ops opens stats file hlen rd hrd range h1 h2 r).1 hf
  · exact (C83_within_len p q os s ops opens stats file hlen rd hrd range h1 h2 r).2 hf

open ReadStream in
/-- A stream over a file that grows: the first op is past the end when it is read, the second, begun later, is not. -/
example : ∃ n s, Steps (ReadBlockLive .debug false (fun x => x = [1, 2] ∨ x = [1, 2, 3, 4])) n
    (start [⟨⟨2, 4⟩, .dataBlock 0⟩, ⟨⟨1, 4⟩, .dataBlock 1⟩]) s ∧ s.Ended ∧
    s.out = [{ opInfo := .dataBlock 0, result := .error .eof },
      { opInfo := .dataBlock 1, result := .ok [2, 3, 4] }] := by
  refine ⟨4, _, .step (.step (.step (.step (.refl _) (.fill _ _ _ rfl (by decide)))
    (.fill _ _ _ rfl (by decide))) (.finishNext _ [] [_] _ (.error .eof) rfl ?_))
    (.finishNext _ [] [] _ (.ok [2, 3, 4]) rfl ?_), ⟨rfl, rfl, rfl⟩, rfl⟩
  · exact .read 2 rfl (by decide) _ (.eof 2 2 (by decide) [1, 2] (.inl rfl) (by decide))
  · exact .read 3 rfl (by decide) _ (.read 1 3 3 (by decide) (by decide) [1, 2, 3, 4] (.inr rfl) (by decide) (.ok []) (.full _))

/-- Two `pread`s see two different contents. -/
example : ReadBlockLive .debug false (fun x => x = [1, 2] ∨ x = [1, 2, 3, 4]) ⟨1, 4⟩ (.ok [2, 3, 4]) ∧
    ReadBlockLive .debug false (fun x => x = [1, 2] ∨ x = [1, 2, 3, 4]) ⟨1, 4⟩ (.error .eof) :=
  ⟨.read 3 rfl (by decide) _ (.read 1 3 1 (by decide) (by decide) [1, 2] (.inl rfl) (by decide) (.ok [3, 4])
      (.read 2 2 2 (by decide) (by decide) [1, 2, 3, 4] (.inr rfl) (by decide) (.ok []) (.full _))),
    .read 3 rfl (by decide) _ (.read 1 3 1 (by decide) (by decide) [1, 2] (.inl rfl) (by decide) (.error .eof)
      (.eof 2 2 (by decide) [1, 2] (.inl rfl) (by decide)))⟩

/-- A segment just created: the last byte of the signature of the data file may be there or not. -/
example : ∃ s, SegmentWriter.new .debug { data := .reliable, index := .reliable } exampleInfo = .ok s ∧
    Visible .reliable s.dataWriter.file (ascii "MEERKAT_DATA") ∧
    Visible .reliable s.dataWriter.file (ascii "MEERKAT_DATA1") ∧
    ¬ Visible .reliable s.dataWriter.file (ascii "MEERKAT_DAT") := by
  refine exists_ok ?_
  decide +kernel

/-! ## C84 -/

/-- After successful writes that are not all empty, what was given before them is in the file. -/
theorem writes_before {p : Profile} {os : Os} (bs : List Bytes) {w : Writer}
    (hok : ∀ x ∈ (runOps p os (bs.map .write) w).1, x.2 = .ok ()) (hne : bs.flatten ≠ []) :
    w.file.content ++ w.file.pending <+: (runOps p os (bs.map .write) w).2.file.content := by
  have grows : ∀ (bs : List Bytes) (w : Writer), w.file.content <+: (runOps p os (bs.map .write) w).2.file.content := by
    intro bs
    induction bs with
    | nil => exact fun w => List.prefix_refl _
    | cons b bs ih => exact fun w => List.IsPrefix.trans (Writer.writeBlock_continues p os b w) (ih _)
  induction bs generalizing w with
  | nil => exact absurd rfl hne
  | cons b bs ih =>
    simp only [List.map_cons, runOps, List.mem_cons, forall_eq_or_imp] at hok ⊢
    obtain ⟨h1, h2⟩ := hok
    simp only [WriterOp.run] at h1 h2 ⊢
    rcases h : Writer.writeBlock p os b w with ⟨r, w1⟩
    rw [h] at h1 h2
    simp only at h1 h2 ⊢
    subst h1
    simp only [Writer.writeBlock] at h
    split at h
    · cases h
    · rename_i pos _
      simp only [Writer.onFile] at h
      rcases h3 : writeAll os b w.file with ⟨r, f⟩
      simp only [h3] at h
      cases h
      by_cases hb : b = []
      · subst hb
        simp only [writeAll, List.length_nil, writeAllFuel, if_true, Run.pure_apply] at h3
        cases h3
        exact ih (w := { w with pos := pos }) h2 (by simpa using hne)
      · exact (writeAllFuel_before h3 hb).trans (grows bs { file := f, pos := pos })

/-- The write pending after successful writes is of one buffer at most. -/
theorem writes_pending {p : Profile} {os : Os} (bs : List Bytes) {w : Writer}
    (hok : ∀ x ∈ (runOps p os (bs.map .write) w).1, x.2 = .ok ()) (hw : w.file.pending.length ≤ os.maxBuf) :
    (runOps p os (bs.map .write) w).2.file.pending.length ≤ os.maxBuf := by
  induction bs generalizing w with
  | nil => exact hw
  | cons b bs ih =>
    simp only [List.map_cons, runOps, List.mem_cons, forall_eq_or_imp] at hok ⊢
    obtain ⟨h1, h2⟩ := hok
    simp only [WriterOp.run] at h1 h2 ⊢
    refine ih h2 ?_
    rcases h : Writer.writeBlock p os b w with ⟨r, w1⟩
    rw [h] at h1
    simp only at h1
    subst h1
    simp only [Writer.writeBlock] at h
    split at h
    · cases h
    · simp only [Writer.onFile] at h
      rcases h3 : writeAll os b w.file with ⟨r, f⟩
      simp only [h3] at h
      cases h
      rcases hi : f.inflight with _ | c
      · simp [pending, hi]
      · simp only [pending, hi, Option.getD_some]
        exact writeAllFuel_small h3 (fun c hc => by simpa [pending, hc] using hw) c hi

/-- C84, exactly. After writes that all succeeded, a block is certain to be read, by a reader that does not fail, if and
only if it ends before the write that is still in the background, which is of one write buffer at most. -/
theorem C84_readable_exact (p q : Profile) (os : Os) (w : Writer) (hw : Writer.new os = .ok w)
    (before : List Bytes) (block : Bytes) (after : List Bytes) (hne : block ≠ [])
    (hlen : (before ++ block :: after).flatten.length < 2 ^ 63)
    (hok : ∀ x ∈ (runOps p os ((before ++ block :: after).map .write) w).1, x.2 = .ok ()) :
    let start := (runOps p os (before.map .write) w).2.pos
    let stop := (runOps p os ((before ++ [block]).map .write) w).2.pos
    let w' := (runOps p os ((before ++ block :: after).map .write) w).2
    ((∀ seen, Visible os w'.file seen → ∀ r, ReadBlock q false seen ⟨start, stop⟩ r → r = .ok block) ↔
      stop + w'.file.pending.length ≤ w'.pos) ∧
    w'.file.pending.length ≤ os.maxBuf := by
  intro start stop w'
  obtain ⟨h1, h2, h3⟩ := C40_block_range p os w hw before block after (by omega) hok
  obtain ⟨hp, hc, _⟩ := C40_position_is_length p os w hw _ (by omega) hok
  change start ≤ stop at h1
  change stop ≤ w'.pos at h2
  change ((w'.file.content ++ w'.file.pending).drop start).take (stop - start) = block at h3
  change w'.pos = _ at hp
  change w'.file.content ++ w'.file.pending = _ at hc
  have hpos : w'.file.content.length + w'.file.pending.length = w'.pos := by rw [hp, ← hc, List.length_append]
  have hlt : start < stop := by
    rcases Nat.lt_or_ge start stop with h | h
    · exact h
    · rw [Nat.sub_eq_zero_of_le h, List.take_zero] at h3
      exact absurd h3.symm hne
  refine ⟨⟨fun h => ?_, fun h seen hseen r hr => ?_⟩, writes_pending _ hok ?_⟩
  · obtain ⟨r, hr⟩ := ReadBlock.exists q false w'.file.content ⟨start, stop⟩
    obtain rfl := h _ ⟨List.prefix_refl _, content_prefix os _⟩ r hr
    obtain ⟨⟨_, h5⟩, _⟩ := hr.ok_spec (by omega) (show start < 2 ^ 64 by omega)
    dsimp only at h5
    omega
  · have hle : stop ≤ w'.file.content.length := by omega
    have hseen' : seen.length < 2 ^ 63 := by
      have h4 := hseen.2.length_le
      have h5 : (syncedBytes os w'.file).length ≤ w'.pos := by
        rw [← hpos]
        simp only [syncedBytes, pending]
        split
        · omega
        · rename_i hi _; rw [hi]; simp
        · rename_i hi _; rw [hi]; simp; omega
      omega
    have := hseen.1.length_le
    have hb : bytesOf seen ⟨start, stop⟩ = block := by
      rw [← h3]
      simp only [bytesOf]
      rw [← prefix_range hseen.1 (by omega), prefix_range (List.prefix_append _ w'.file.pending) (by omega)]
    obtain ⟨h4, _⟩ := C43_read_block q seen hseen' ⟨start, stop⟩ (show start < 2 ^ 64 by omega) r hr
    rw [h4 ⟨h1, Or.inr (show stop ≤ seen.length by omega)⟩, hb]
  · rw [new_file hw]; exact Nat.zero_le _

/-- C84, what holds: a block can be read once a later block that is not empty, or a flush, has succeeded. -/
theorem C84_readable_later_partial (p q : Profile) (os : Os) (w : Writer) (hw : Writer.new os = .ok w)
    (before : List Bytes) (block : Bytes) (after : List Bytes) (hne : block ≠ [])
    (hlen : (before ++ block :: after).flatten.length < 2 ^ 63)
    (hok : ∀ x ∈ (runOps p os ((before ++ block :: after).map .write) w).1, x.2 = .ok ()) :
    let start := (runOps p os (before.map .write) w).2.pos
    let stop := (runOps p os ((before ++ [block]).map .write) w).2.pos
    let w' := (runOps p os ((before ++ block :: after).map .write) w).2
    (after.flatten ≠ [] →
      ∀ seen, Visible os w'.file seen → ∀ r, ReadBlock q false seen ⟨start, stop⟩ r → r = .ok block) ∧
    (∀ w'', Writer.flush os w' = (.ok (), w'') →
      ∀ seen, Visible os w''.file seen → ∀ r, ReadBlock q false seen ⟨start, stop⟩ r → r = .ok block) := by
  intro start stop w'
  obtain ⟨h1, h2, h3⟩ := C40_block_range p os w hw before block after (by omega) hok
  obtain ⟨hp, hc, hfl⟩ := C40_position_is_length p os w hw _ (by omega) hok
  change start ≤ stop at h1
  change stop ≤ w'.pos at h2
  change ((w'.file.content ++ w'.file.pending).drop start).take (stop - start) = block at h3
  change w'.pos = _ at hp
  change w'.file.content ++ w'.file.pending = _ at hc
  have hpos : w'.file.content.length + w'.file.pending.length = w'.pos := by rw [hp, ← hc, List.length_append]
  refine ⟨fun ha => (C84_readable_exact p q os w hw before block after hne hlen hok).1.2 ?_, fun w'' hw'' seen hseen r hr => ?_⟩
  · change stop + w'.file.pending.length ≤ w'.pos
    have hsplit : (before ++ block :: after).map WriterOp.write = (before ++ [block]).map .write ++ after.map .write := by simp
    have e1 := runOps_append p os ((before ++ [block]).map .write) (after.map .write) w
    rw [← hsplit] at e1
    have hok1 : ∀ x ∈ (runOps p os ((before ++ [block]).map .write) w).1, x.2 = .ok () := fun x hx =>
      hok x (by rw [e1]; exact List.mem_append_left _ hx)
    have hok2 : ∀ x ∈ (runOps p os (after.map .write) (runOps p os ((before ++ [block]).map .write) w).2).1, x.2 = .ok () :=
      fun x hx => hok x (by rw [e1]; exact List.mem_append_right _ hx)
    have hle : (before ++ [block]).flatten.length < 2 ^ 64 := by simp at hlen ⊢; omega
    obtain ⟨hp1, hc1, _⟩ := C40_position_is_length p os w hw (before ++ [block]) hle hok1
    have h4 := (writes_before after hok2 ha).length_le
    rw [show (runOps p os (after.map .write) (runOps p os ((before ++ [block]).map .write) w).2).2 = w' by
      simp only [w', e1]] at h4
    rw [hc1, ← hp1] at h4
    change stop ≤ _ at h4
    omega
  · obtain ⟨h4, h5, _⟩ := hfl w'' hw''
    have h6 : syncedBytes os w''.file = w''.file.content := by
      simp only [Writer.flush, Writer.onFile] at hw''
      rcases h2 : TokioFile.flush os w'.file with ⟨r, f⟩
      simp only [h2] at hw''
      cases hw''
      obtain ⟨_, _, hi, _⟩ := flush_ok h2
      simp [syncedBytes, hi]
    have h7 : seen = w''.file.content := by
      have := hseen.2
      rw [h6] at this
      exact this.eq_of_length_le hseen.1.length_le
    rw [h7, h4, ← hc] at hr
    have h8 : (w'.file.content ++ w'.file.pending).length = w'.pos := by rw [List.length_append]; exact hpos
    obtain ⟨h9, _⟩ := C43_read_block q _ (by rw [h8]; omega) ⟨start, stop⟩ (show start < 2 ^ 64 by omega) r hr
    rw [h9 ⟨h1, Or.inr (show stop ≤ _ by rw [h8]; exact h2)⟩]
    exact congrArg _ h3

/-- C84 is false of the code: nothing fails, but the block just written is not in the file yet. -/
theorem C84_readable_at_once_violated :
    ¬ ∀ (p q : Profile) (os : Os) (w w' : Writer) (block : Bytes), 0 < os.maxBuf → Writer.new os = .ok w →
      Writer.writeBlock p os block w = (.ok (), w') →
      ∀ seen, Visible os w'.file seen → ∀ r, ReadBlock q false seen ⟨w.pos, w'.pos⟩ r → r = .ok block := by
  intro h
  have := h .debug .debug .reliable { file := .empty, pos := 0 }
    { file := { TokioFile.empty with inflight := some [5] }, pos := 1 } [5] (by decide) rfl rfl [] (by decide)
    (.error .eof) (.read 1 rfl (by decide) _ (.eof 0 1 (by decide) (by decide)))
  cases this

end Meerkat
