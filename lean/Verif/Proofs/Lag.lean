import Verif.Proofs.Grows

set_option autoImplicit false

/-! # Writers after failed writes -/

namespace Meerkat

open TokioFile

/-! ## Calls that fail -/

theorem complete_error {os : Os} {f f' : TokioFile} {e : Fault} (h : complete os f = (.error e, f')) :
    e = .io ∧ f'.inflight = none ∧ f'.lastErr = f.lastErr ∧ f'.content <+: f.content ++ f.pending ∧
    (f.pending ≠ [] → f'.content.length < (f.content ++ f.pending).length) := by
  simp only [complete] at h
  split at h
  · cases h
  · rename_i c hc
    split at h
    · cases h
    · rename_i k _
      cases h
      have hp : c.dropLast.take k <+: c := (List.take_prefix _ _).trans (List.dropLast_prefix _)
      simp only [pending, hc, Option.getD_some, List.prefix_append_right_inj, List.length_append, hp, true_and]
      intro hne
      have h1 := List.length_pos_iff.2 hne
      rw [List.length_take, List.length_dropLast]
      omega

theorem flush_error {os : Os} {f f' : TokioFile} {e : Fault} (hl : f.lastErr = false)
    (h : flush os f = (.error e, f')) :
    e = .io ∧ f'.inflight = none ∧ f'.lastErr = false ∧ f'.content <+: f.content ++ f.pending ∧
    (f.pending ≠ [] → f'.content.length < (f.content ++ f.pending).length) := by
  have h1 : takeErr f = (.ok (), f) := by simp [takeErr, hl]
  rw [flush, Run.bind_ok h1] at h
  rw [← hl]
  exact complete_error h

theorem write_error {os : Os} {src : Bytes} {f f' : TokioFile} {e : Fault} (hl : f.lastErr = false)
    (h : write os src f = (.error e, f')) :
    e = .io ∧ f'.inflight = none ∧ f'.lastErr = false ∧ f'.content <+: f.content ++ f.pending := by
  have h1 : takeErr f = (.ok (), f) := by simp [takeErr, hl]
  rw [write, Run.bind_ok h1] at h
  rcases h2 : complete os f with ⟨x | x, f1⟩
  · rw [Run.bind_error h2] at h
    cases h
    obtain ⟨a, b, c, d, _⟩ := complete_error h2
    exact ⟨a, b, by rw [c, hl], d⟩
  · rw [Run.bind_ok h2] at h
    cases h

/-- A `write_all` that fails leaves a part of what the file should have, and not all of it. -/
theorem writeAllFuel_error {os : Os} (hb : 0 < os.maxBuf) {fuel : Nat} {src : Bytes} {f f' : TokioFile} {e : Fault}
    (hf : src.length ≤ fuel) (hl : f.lastErr = false) (h : writeAllFuel os fuel src f = (.error e, f')) :
    e = .io ∧ f'.inflight = none ∧ f'.lastErr = false ∧ f'.content <+: f.content ++ f.pending ++ src ∧
    f'.content.length < (f.content ++ f.pending ++ src).length := by
  induction fuel generalizing src f with
  | zero =>
    obtain rfl : src = [] := List.length_eq_zero_iff.1 (by omega)
    simp only [writeAllFuel, Run.pure_apply, if_true] at h
    cases h
  | succ fuel ih =>
    simp only [writeAllFuel] at h
    split at h
    · rw [Run.pure_apply] at h; cases h
    · rename_i hne
      have hpos : 0 < src.length := List.length_pos_iff.2 hne
      rcases h1 : write os src f with ⟨x | n, f1⟩
      · rw [Run.bind_error h1] at h
        cases h
        obtain ⟨a, b, c, d⟩ := write_error hl h1
        refine ⟨a, b, c, d.trans (List.prefix_append ..), ?_⟩
        have := d.length_le
        rw [List.length_append (bs := src)]
        omega
      · rw [Run.bind_ok h1] at h
        obtain ⟨_, hl', hn, hc, hi, _⟩ := write_ok h1
        have hn0 : n ≠ 0 := by rw [hn, List.length_take]; omega
        rw [if_neg hn0] at h
        obtain ⟨a, b, c, d, g⟩ := ih (by rw [List.length_drop]; omega) hl' h
        have heq : f1.content ++ f1.pending ++ src.drop n = f.content ++ f.pending ++ src := by
          rw [hc]
          simp only [pending, hi, Option.getD_some, List.append_assoc, hn, List.length_take]
          congr 2
          rcases Nat.le_total os.maxBuf src.length with hle | hle
          · rw [Nat.min_eq_left hle, List.take_append_drop]
          · rw [Nat.min_eq_right hle, List.take_of_length_le hle]; simp
        rw [heq] at d g
        exact ⟨a, b, c, d, g⟩

theorem writeAllFuel_chunk {os : Os} (hb : 0 < os.maxBuf) {fuel : Nat} {src : Bytes} {f f' : TokioFile}
    (hc : ∀ c, f.inflight = some c → c ≠ []) (h : writeAllFuel os fuel src f = (.ok (), f')) :
    ∀ c, f'.inflight = some c → c ≠ [] := by
  induction fuel generalizing src f with
  | zero =>
    simp only [writeAllFuel] at h
    split at h
    · rw [Run.pure_apply] at h; cases h; exact hc
    · rw [Run.lift_error] at h; cases h
  | succ fuel ih =>
    simp only [writeAllFuel] at h
    split at h
    · rw [Run.pure_apply] at h; cases h; exact hc
    · rename_i hne
      rcases h1 : write os src f with ⟨x | n, f1⟩
      · rw [Run.bind_error h1] at h; cases h
      · rw [Run.bind_ok h1] at h
        obtain ⟨_, _, hn, _, hi, _⟩ := write_ok h1
        split at h
        · cases h
        · refine ih (fun c hc => ?_) h
          rw [hi] at hc
          cases hc
          rw [← List.length_pos_iff, List.length_take]
          have := List.length_pos_iff.2 hne
          omega

/-! ## Writers -/

/-- No error is kept, `n` bytes were given to the writer, which is what the position says, and the file with its pending
write has fewer if and only if a background write failed or `c`: a write was dropped. -/
structure Lag (p : Profile) (os : Os) (c : Prop) (w : Writer) (n : Nat) : Prop where
  err : w.file.lastErr = false
  pos : w.pos = n % 2 ^ 64
  fits : p = .debug → n < 2 ^ 64
  le : (w.file.content ++ w.file.pending).length ≤ n
  iff : (w.file.content ++ w.file.pending).length < n ↔ 0 < failedBetween os 0 w.file.numWrites ∨ c
  chunk : ∀ c, w.file.inflight = some c → c ≠ []

theorem Lag.new {p : Profile} {os : Os} {w : Writer} (h : Writer.new os = .ok w) : Lag p os False w 0 := by
  simp only [Writer.new, TokioFile.create] at h
  split at h
  · rename_i heq
    split at heq <;> cases heq
    cases h
    exact ⟨rfl, rfl, fun _ => by decide, by simp [empty, pending], by simp [empty, pending, failedBetween], by simp [empty]⟩
  · cases h

theorem errs_ok {os : Os} {m : Run TokioFile Unit} (hm : Accounts os m) {f f' : TokioFile} (h : m f = (.ok (), f'))
    (hl : f.lastErr = false) (hl' : f'.lastErr = false) :
    failedBetween os 0 f'.numWrites = failedBetween os 0 f.numWrites := by
  obtain ⟨h1, h2⟩ := hm _ _ _ h
  rw [failedBetween_add os (Nat.zero_le _) h1]
  simp only [errs, hl, hl', Bool.toNat_false] at h2
  omega

theorem errs_error {os : Os} {m : Run TokioFile Unit} (hm : Accounts os m) {f f' : TokioFile}
    (h : m f = (.error .io, f')) (hl : f.lastErr = false) (hl' : f'.lastErr = false) :
    0 < failedBetween os 0 f'.numWrites := by
  obtain ⟨h1, h2⟩ := hm _ _ _ h
  rw [failedBetween_add os (Nat.zero_le _) h1]
  simp only [errs, hl, hl', Bool.toNat_false] at h2
  omega

theorem Lag.write {p : Profile} {os : Os} {c : Prop} (hb : 0 < os.maxBuf) {b : Bytes} {w w' : Writer} {n : Nat}
    {r : Except Fault Unit} (hg : Lag p os c w n) (h : Writer.writeBlock p os b w = (r, w')) :
    ∃ n', Lag p os c w' n' ∧ (r = .ok () ∨ n + b.length < 2 ^ 64 → n' = n + b.length) := by
  simp only [Writer.writeBlock] at h
  rcases hp : p.add 64 w.pos b.length with e | m
  · rw [hp] at h
    cases h
    refine ⟨n, hg, fun h => ?_⟩
    rcases h with h | h
    · cases h
    · have := hg.pos
      rw [Nat.mod_eq_of_lt (by omega)] at this
      rw [p.add_ok (show w.pos + b.length < 2 ^ 64 by omega)] at hp
      cases hp
  · rw [hp] at h
    have hm : m = (n + b.length) % 2 ^ 64 ∧ (p = .debug → n + b.length < 2 ^ 64) := by
      have h1 := hg.pos
      simp only [Profile.add] at hp
      split at hp
      · cases hp
        refine ⟨by omega, fun hd => ?_⟩
        have := hg.fits hd
        omega
      · cases p
        · cases hp
        · cases hp
          exact ⟨by omega, fun hd => by cases hd⟩
    simp only [Writer.onFile] at h
    rcases h2 : writeAll os b w.file with ⟨x | x, f⟩
    · simp only [h2] at h
      cases h
      obtain ⟨rfl, h3, h4, h5, h6⟩ := writeAllFuel_error hb (Nat.le_refl _) hg.err h2
      have h7 := errs_error (Accounts.writeAll os hb b) h2 hg.err h4
      have h8 := hg.le
      rw [List.length_append (bs := b)] at h6
      refine ⟨n + b.length, ⟨h4, hm.1, hm.2, ?_, ?_, ?_⟩, fun _ => rfl⟩
      · simp only [pending, h3, Option.getD_none, List.append_nil]; omega
      · simp only [pending, h3, Option.getD_none, List.append_nil, h7, true_or, iff_true]; omega
      · simp [h3]
    · simp only [h2] at h
      cases h
      obtain ⟨h3, _, h5, _⟩ := writeAll_ok h2
      have h7 := errs_ok (Accounts.writeAll os hb b) h2 hg.err (h3 hg.err)
      have h8 := hg.le
      have h9 := hg.iff
      refine ⟨n + b.length, ⟨h3 hg.err, hm.1, hm.2, ?_, ?_, writeAllFuel_chunk hb hg.chunk h2⟩, fun _ => rfl⟩
      · rw [h5, List.length_append (bs := b)]; omega
      · rw [h5, List.length_append (bs := b), h7, ← h9]; omega

theorem Lag.flush {p : Profile} {os : Os} {c : Prop} {w w' : Writer} {n : Nat}
    {r : Except Fault Unit} (hg : Lag p os c w n) (h : Writer.flush os w = (r, w')) : Lag p os c w' n := by
  simp only [Writer.flush, Writer.onFile] at h
  rcases h2 : TokioFile.flush os w.file with ⟨x | x, f⟩
  · simp only [h2] at h
    cases h
    obtain ⟨rfl, h3, h4, h5, h6⟩ := flush_error hg.err h2
    have h7 := errs_error (Accounts.flush os) h2 hg.err h4
    have hne : w.file.pending ≠ [] := by
      rcases hi : w.file.inflight with _ | c
      · exfalso
        simp only [TokioFile.flush, Run.bind_apply, TokioFile.takeErr, hg.err, TokioFile.complete,
          Bool.false_eq_true, if_false, hi] at h2
        cases h2
      · simpa [pending, hi] using hg.chunk c hi
    have h8 := hg.le
    have h9 := h6 hne
    refine ⟨h4, hg.pos, hg.fits, ?_, ?_, ?_⟩
    · simp only [pending, h3, Option.getD_none, List.append_nil]; omega
    · simp only [pending, h3, Option.getD_none, List.append_nil, h7, true_or, iff_true]; omega
    · simp [h3]
  · simp only [h2] at h
    cases h
    obtain ⟨_, h4, h5, h6, _⟩ := flush_ok h2
    have h7 := errs_ok (Accounts.flush os) h2 hg.err h6
    refine ⟨h6, hg.pos, hg.fits, ?_, ?_, ?_⟩
    · simp only [pending, h5, Option.getD_none, List.append_nil, h4]; exact hg.le
    · simp only [pending, h5, Option.getD_none, List.append_nil, h4, h7]; exact hg.iff
    · simp [h5]

/-- There is such a number of bytes. -/
def Lags (p : Profile) (os : Os) (c : Prop) (w : Writer) : Prop := ∃ n, Lag p os c w n

theorem Lags.feed {p : Profile} {os : Os} {c : Prop} (hb : 0 < os.maxBuf) (bs : List (Nat × Bytes)) (s : Writer × BlockIndex)
    (h : Lags p os c s.1) : Lags p os c (feed (blockSink p os) s bs).2.1 := by
  induction bs generalizing s with
  | nil => exact h
  | cons b bs ih =>
    simp only [Meerkat.feed, blockSink]
    rcases h1 : Writer.writeBlock p os b.2 s.1 with ⟨x | x, w1⟩
    · obtain ⟨n, hn⟩ := h
      obtain ⟨n', h', _⟩ := hn.write hb h1
      exact ⟨n', h'⟩
    · obtain ⟨n, hn⟩ := h
      obtain ⟨n', h', _⟩ := hn.write hb h1
      exact ih _ ⟨n', h'⟩

/-- Both writers of a segment. -/
def SegLags (p : Profile) (os : SegmentOs) (cd ci : Prop) (s : SegmentWriter) : Prop :=
  Lags p os.data cd s.dataWriter ∧ Lags p os.index ci s.indexWriter

theorem SegLags.onSink {α : Type} {p : Profile} {os : SegmentOs} {cd ci : Prop} (hb : 0 < os.data.maxBuf)
    {m : Run (BinaryEncoder × (Writer × BlockIndex)) α} {mr : Run (BinaryEncoder × List (Nat × Bytes)) α}
    (h : Follows (blockSink p os.data) m mr) (c : ColumnWriter) {s : SegmentWriter} (hs : SegLags p os cd ci s) :
    SegLags p os cd ci (ColumnWriter.onSink m (c, s)).2.2 := by
  obtain ⟨bs, hb'⟩ := h.fed c.encoder (s.dataWriter, s.blockIndex)
  have h1 := Lags.feed hb bs (s.dataWriter, s.blockIndex) hs.1
  rw [← hb'] at h1
  exact ⟨h1, hs.2⟩

theorem SegLags.colOp {p : Profile} {os : SegmentOs} {cd ci : Prop} (hb : 0 < os.data.maxBuf) (op : ColOp) (c : ColumnWriter)
    {s : SegmentWriter} (hs : SegLags p os cd ci s) : SegLags p os cd ci (op.run p os (c, s)).2.2 := by
  cases op with
  | write b => exact hs.onSink hb (BinaryEncoder.encode_follows p (blockSink p os.data) b) c
  | close =>
    have h1 := hs.onSink hb (BinaryEncoder.flush_follows p (blockSink p os.data)) c
    simp only [ColOp.run, ColumnWriter.close, Run.bind_apply]
    rcases h2 : ColumnWriter.onSink (BinaryEncoder.flush p (blockSink p os.data)) (c, s) with ⟨x | layout, c1, s1⟩
    · rw [h2] at h1; exact h1
    · rw [h2] at h1
      simp only [ColumnWriter.flushBlockIndex, BlockIndex.flush, Run.pure_apply, ColumnWriter.recordColumn]
      split
      · exact h1
      · exact h1

theorem SegLags.colOps {p : Profile} {os : SegmentOs} {cd ci : Prop} (hb : 0 < os.data.maxBuf) (ops : List ColOp) (c : ColumnWriter)
    {s : SegmentWriter} (hs : SegLags p os cd ci s) : SegLags p os cd ci (runColOps p os ops (c, s)).2.2 := by
  induction ops generalizing c s with
  | nil => exact hs
  | cons op ops ih =>
    have h1 := hs.colOp hb op c
    rcases h2 : op.run p os (c, s) with ⟨r, c1, s1⟩
    rw [h2] at h1
    simp only [runColOps, h2]
    exact ih c1 h1

theorem SegLags.onIndex {p : Profile} {os : SegmentOs} {cd ci : Prop} {m : Run Writer Unit}
    (hm : ∀ w, Lags p os.index ci w → Lags p os.index ci (m w).2) {s : SegmentWriter} (hs : SegLags p os cd ci s) :
    SegLags p os cd ci (SegmentWriter.onIndex m s).2 := by
  have := hm _ hs.2
  rcases h : m s.indexWriter with ⟨r, w⟩
  rw [h] at this
  simp only [SegmentWriter.onIndex, h]
  exact ⟨hs.1, this⟩

theorem SegLags.onData {p : Profile} {os : SegmentOs} {cd ci : Prop} {m : Run Writer Unit}
    (hm : ∀ w, Lags p os.data cd w → Lags p os.data cd (m w).2) {s : SegmentWriter} (hs : SegLags p os cd ci s) :
    SegLags p os cd ci (SegmentWriter.onData m s).2 := by
  have := hm _ hs.1
  rcases h : m s.dataWriter with ⟨r, w⟩
  rw [h] at this
  simp only [SegmentWriter.onData, h]
  exact ⟨this, hs.2⟩

theorem Lags.writeBlock {p : Profile} {os : Os} {c : Prop} (hb : 0 < os.maxBuf) (b : Bytes) (w : Writer) (h : Lags p os c w) :
    Lags p os c (Writer.writeBlock p os b w).2 := by
  obtain ⟨n, hn⟩ := h
  obtain ⟨n', h', _⟩ := hn.write hb rfl
  exact ⟨n', h'⟩

theorem Lags.flush {p : Profile} {os : Os} {c : Prop} (w : Writer) (h : Lags p os c w) : Lags p os c (Writer.flush os w).2 := by
  obtain ⟨n, hn⟩ := h
  exact ⟨n, hn.flush rfl⟩

theorem SegLags.bind {p : Profile} {os : SegmentOs} {cd ci : Prop} {m : Run SegmentWriter Unit} {g : Unit → Run SegmentWriter Unit}
    (hm : ∀ s, SegLags p os cd ci s → SegLags p os cd ci (m s).2) (hg : ∀ s, SegLags p os cd ci s → SegLags p os cd ci (g () s).2)
    {s : SegmentWriter} (hs : SegLags p os cd ci s) : SegLags p os cd ci ((m >>= g) s).2 := by
  have h1 := hm s hs
  rcases h : m s with ⟨x | a, s1⟩
  · rw [h] at h1; rw [Run.bind_error h]; exact h1
  · rw [h] at h1; rw [Run.bind_ok h]; exact hg s1 h1

theorem SegLags.close {p : Profile} {os : SegmentOs} {cd ci : Prop} (hb' : 0 < os.index.maxBuf) (order : HashOrder)
    {s : SegmentWriter} (hs : SegLags p os cd ci s) : SegLags p os cd ci (SegmentWriter.close p os order s).2 := by
  refine SegLags.bind (fun s h => h.onIndex (Lags.writeBlock hb' _)) (fun s h => ?_) hs
  refine SegLags.bind (fun s h => h.onIndex (Lags.writeBlock hb' _)) (fun s h => ?_) h
  refine SegLags.bind (fun s h => h.onIndex Lags.flush) (fun s h => ?_) h
  exact h.onData Lags.flush

theorem SegLags.run {p : Profile} {os : SegmentOs} {cd ci : Prop} (hb : 0 < os.data.maxBuf) (hb' : 0 < os.index.maxBuf)
    (ops : List SegOp) {s : SegmentWriter} (hs : SegLags p os cd ci s) : SegLags p os cd ci (runSeg p os ops s).2 := by
  induction ops generalizing s with
  | nil => exact hs
  | cons op ops ih =>
    have h1 : SegLags p os cd ci (op.run p os s).2 := by
      cases op with
      | close order => exact hs.close hb' order
      | column info cops =>
        simp only [SegOp.run, SegmentWriter.newBinaryColumnWriter]
        rcases he : newBinaryEncoder info.encoding BLOCK_SIZE info.nullable with f | e
        · exact hs
        · have h2 : SegLags p os cd ci { s with blockIndex := s.blockIndex.clear } := hs
          exact h2.colOps hb cops { columnInfo := info, encoder := e }
    rcases h2 : op.run p os s with ⟨r, s1⟩
    rw [h2] at h1
    simp only [runSeg, h2]
    exact ih h1

theorem SegLags.new {p : Profile} {os : SegmentOs} (hb : 0 < os.data.maxBuf) (hb' : 0 < os.index.maxBuf)
    {info : SegmentInfo} {s : SegmentWriter} (h : SegmentWriter.new p os info = .ok s) : SegLags p os False False s := by
  simp only [SegmentWriter.new] at h
  rcases h1 : Writer.new os.index with x | iw
  · rw [h1] at h; cases h
  rcases h2 : Writer.new os.data with x | dw
  · rw [h1, h2] at h; cases h
  rw [h1, h2] at h
  simp only [ok_bind] at h
  have h0 : SegLags p os False False (SegmentWriter.initial info dw iw) := ⟨⟨0, Lag.new h2⟩, ⟨0, Lag.new h1⟩⟩
  have h4 : SegLags p os False False (SegmentWriter.writeHeaders p os (SegmentWriter.initial info dw iw)).2 :=
    SegLags.bind (fun s h => h.onIndex (Lags.writeBlock hb' _)) (fun s h => h.onData (Lags.writeBlock hb _)) h0
  rcases h3 : SegmentWriter.writeHeaders p os (SegmentWriter.initial info dw iw) with ⟨x | x, s1⟩
  · rw [h3] at h; cases h
  · rw [h3] at h h4
    cases h
    exact h4

end Meerkat
