import Verif.Spec.Live
import Verif.Proofs.BlockReader
import Verif.Proofs.Grows

set_option autoImplicit false

/-! # What others see of a file while it is being written -/

namespace Meerkat

open TokioFile

/-! ## Reading -/

theorem prefix_range {a b : Bytes} {off n : Nat} (h : a <+: b) (hl : off + n ≤ a.length) :
    (a.drop off).take n = (b.drop off).take n := by
  obtain ⟨t, rfl⟩ := h
  rw [List.drop_append_of_le_length (by omega), List.take_append_of_le_length (by rw [List.length_drop]; omega)]

theorem ReadExactLive.ok_spec {faulty : Bool} {sees : Bytes → Prop} {final : Bytes} (hsees : ∀ x, sees x → x <+: final)
    {off n : Nat} {r : Except ReadError Bytes} (h : ReadExactLive faulty sees off n r) {bs : Bytes} (hr : r = .ok bs) :
    (n = 0 ∨ off + n ≤ final.length) ∧ bs = (final.drop off).take n := by
  induction h generalizing bs with
  | full off => cases hr; simp
  | eof => cases hr
  | read off n k hk hn file hf hlen r _ ih =>
    rcases r with e | bs'
    · cases hr
    · obtain ⟨h1, h2⟩ := ih rfl
      have hp := hsees file hf
      have := hp.length_le
      cases hr
      refine ⟨Or.inr (by omega), ?_⟩
      rw [h2, prefix_range hp hlen]
      have : n = k + (n - k) := by omega
      rw [this, List.take_add, List.drop_drop]
      simp
  | interrupted off n hn r _ ih => exact ih hr
  | offset => cases hr
  | failed => cases hr

/-- Without faults only a read past the end of what can be seen fails. -/
theorem ReadExactLive.error_spec {sees : Bytes → Prop} {len : Nat} (hlen : len < 2 ^ 63) (hsees : ∀ x, sees x → len ≤ x.length)
    {off n : Nat} {r : Except ReadError Bytes} (h : ReadExactLive false sees off n r) {e : ReadError} (hr : r = .error e) :
    0 < n ∧ len < off + n := by
  induction h generalizing e with
  | full off => cases hr
  | eof off n hn file hf h => have := hsees file hf; exact ⟨hn, by omega⟩
  | read off n k hk hn file hf hlen r _ ih =>
    rcases r with e' | bs'
    · have := ih rfl; exact ⟨by omega, by omega⟩
    · cases hr
  | interrupted off n hn r _ ih => exact ih hr
  | offset off n hn h => exact ⟨hn, by omega⟩
  | failed _ _ _ hf => cases hf

theorem ReadBlockLive.ok_spec {p : Profile} {faulty : Bool} {sees : Bytes → Prop} {final : Bytes}
    (hlen : final.length < 2 ^ 63) (hsees : ∀ x, sees x → x <+: final)
    {range : BlockRange} (hs : range.start < 2 ^ 64) {bs : Bytes}
    (h : ReadBlockLive p faulty sees range (.ok bs)) : InFile final range ∧ bs = bytesOf final range := by
  cases h with
  | read n h hn r hr =>
    obtain ⟨h1, h2⟩ := hr.ok_spec hsees rfl
    by_cases hle : range.start ≤ range.end
    · rw [p.sub_ok hle] at h; cases h
      exact ⟨⟨hle, by omega⟩, h2⟩
    · exfalso
      simp only [Profile.sub, if_neg hle] at h
      cases p
      · cases h
      · cases h
        rw [Nat.mod_eq_of_lt (by omega)] at h1 hn
        omega

theorem ReadBlockLive.error_spec {p : Profile} {sees : Bytes → Prop} {len : Nat} (hlen : len < 2 ^ 63)
    (hsees : ∀ x, sees x → len ≤ x.length) {range : BlockRange} {e : ReadError}
    (h : ReadBlockLive p false sees range (.error e)) :
    ¬ (range.start ≤ range.end ∧ (range.start = range.end ∨ range.end ≤ len)) := by
  rintro ⟨hle, hin⟩
  have hsub := p.sub_ok (w := 64) hle
  cases h with
  | overflow e h => rw [hsub] at h; cases h
  | capacity n h hn => rw [hsub] at h; cases h; omega
  | read n h hn r hr =>
    rw [hsub] at h; cases h
    have := hr.error_spec hlen hsees rfl
    omega
  | cancelled hf => cases hf

/-- A file nobody writes to is a file that looks the same all the time. -/
theorem ReadExactAt.live {faulty : Bool} {file : Bytes} {off n : Nat} {r : Except ReadError Bytes}
    {sees : Bytes → Prop} (hs : sees file) (h : ReadExactAt faulty file off n r) : ReadExactLive faulty sees off n r := by
  induction h with
  | full off => exact .full off
  | eof off n hn h => exact .eof off n hn file hs h
  | read off n k hk hn h r _ ih => exact .read off n k hk hn file hs h r ih
  | interrupted off n hn r _ ih => exact .interrupted off n hn r ih
  | offset off n hn h => exact .offset off n hn h
  | failed off n hn hf => exact .failed off n hn hf

theorem ReadBlock.live {p : Profile} {faulty : Bool} {file : Bytes} {range : BlockRange} {r : Except ReadError Bytes}
    {sees : Bytes → Prop} (hs : sees file) (h : ReadBlock p faulty file range r) : ReadBlockLive p faulty sees range r := by
  cases h with
  | overflow e h => exact .overflow e h
  | capacity n h hn => exact .capacity n h hn
  | read n h hn r hr => exact .read n h hn r (hr.live hs)
  | cancelled hf => exact .cancelled hf

/-! ## Writing -/

namespace TokioFile

/-- What the file will hold once the pending write is over stays. -/
def Settles {α : Type} (os : Os) (m : Run TokioFile α) : Prop :=
  ∀ f r f', m f = (r, f') → syncedBytes os f <+: syncedBytes os f'

theorem content_prefix (os : Os) (f : TokioFile) : f.content <+: syncedBytes os f := by
  simp only [syncedBytes]
  split
  · exact List.prefix_refl _
  · exact List.prefix_append ..
  · exact List.prefix_append ..

theorem complete_settled {os : Os} {f f' : TokioFile} {r : Except Fault Unit} (h : complete os f = (r, f')) :
    f'.content = syncedBytes os f ∧ f'.inflight = none := by
  simp only [complete] at h
  split at h
  · rename_i hi; cases h; exact ⟨by simp [syncedBytes, hi], hi⟩
  · rename_i c hi
    split at h
    · rename_i ho; cases h; exact ⟨by simp [syncedBytes, hi, ho], rfl⟩
    · rename_i k ho; cases h; exact ⟨by simp [syncedBytes, hi, ho], rfl⟩

theorem Settles.pure {α : Type} (os : Os) (a : α) : Settles os (pure a) := by
  intro f r f' h; cases h; exact List.prefix_refl _

theorem Settles.bind {α β : Type} {os : Os} {m : Run TokioFile α} {g : α → Run TokioFile β} (hm : Settles os m)
    (hg : ∀ a, Settles os (g a)) : Settles os (m >>= g) := by
  intro f r f' h
  rcases h1 : m f with ⟨x | a, f1⟩
  · rw [Run.bind_error h1] at h; cases h; exact hm _ _ _ h1
  · rw [Run.bind_ok h1] at h; exact (hm _ _ _ h1).trans (hg a _ _ _ h)

theorem Settles.takeErr (os : Os) : Settles os takeErr := by
  intro f r f' h
  simp only [TokioFile.takeErr] at h
  split at h <;> cases h <;> exact List.prefix_refl _

theorem Settles.complete (os : Os) : Settles os (complete os) := by
  intro f r f' h
  have := complete_settled h
  rw [← this.1]
  exact content_prefix os f'

theorem Settles.write (os : Os) (src : Bytes) : Settles os (write os src) := by
  refine .bind (.takeErr os) fun _ => ?_
  intro f r f' h
  rcases h1 : TokioFile.complete os f with ⟨x | a, f1⟩
  · rw [Run.bind_error h1] at h; cases h; exact Settles.complete os _ _ _ h1
  · rw [Run.bind_ok h1] at h
    have := complete_settled h1
    simp only [spawn] at h
    cases h
    rw [← this.1]
    exact content_prefix os { f1 with inflight := some (src.take os.maxBuf) }

theorem Settles.flush (os : Os) : Settles os (flush os) := .bind (.takeErr os) fun _ => .complete os

theorem Settles.writeAllFuel (os : Os) (fuel : Nat) (src : Bytes) : Settles os (writeAllFuel os fuel src) := by
  induction fuel generalizing src with
  | zero =>
    intro f r f' h
    simp only [TokioFile.writeAllFuel] at h
    split at h
    · cases h; exact List.prefix_refl _
    · simp only [Run.lift] at h; cases h; exact List.prefix_refl _
  | succ fuel ih =>
    rw [TokioFile.writeAllFuel]
    split
    · exact .pure os ()
    · refine .bind (.write os src) fun n => ?_
      split
      · intro f r f' h; simp only [fail] at h; cases h; exact List.prefix_refl _
      · exact ih _

/-- After a non-empty write that succeeded, all that was given before is in the file. -/
theorem writeAllFuel_before {os : Os} {fuel : Nat} {src : Bytes} {f f' : TokioFile}
    (h : TokioFile.writeAllFuel os fuel src f = (.ok (), f')) (hne : src ≠ []) : f.content ++ f.pending <+: f'.content := by
  cases fuel with
  | zero => simp only [TokioFile.writeAllFuel, if_neg hne, Run.lift] at h; cases h
  | succ fuel =>
    simp only [TokioFile.writeAllFuel, if_neg hne] at h
    rcases h1 : TokioFile.write os src f with ⟨x | n, f1⟩
    · rw [Run.bind_error h1] at h; cases h
    · rw [Run.bind_ok h1] at h
      obtain ⟨_, _, _, hc, _⟩ := write_ok h1
      rw [← hc]
      split at h
      · cases h
      · exact Grows.writeAllFuel os _ _ _ _ _ h

end TokioFile

theorem Writer.writeBlock_settles (p : Profile) (os : Os) (b : Bytes) (w : Writer) :
    syncedBytes os w.file <+: syncedBytes os (Writer.writeBlock p os b w).2.file := by
  simp only [Writer.writeBlock]
  split
  · exact List.prefix_refl _
  · simp only [Writer.onFile]
    exact Settles.writeAllFuel os _ _ _ _ _ rfl

theorem Writer.flush_settles (os : Os) (w : Writer) :
    syncedBytes os w.file <+: syncedBytes os (Writer.flush os w).2.file := by
  simp only [Writer.flush, Writer.onFile]
  exact Settles.flush os _ _ _ rfl

/-! ## What every call on a writer preserves, every call on a segment preserves -/

/-- Preserved by the calls a segment makes on a writer. -/
structure Preserved (p : Profile) (os : Os) (P : Writer → Prop) : Prop where
  write : ∀ b w, P w → P (Writer.writeBlock p os b w).2
  flush : ∀ w, P w → P (Writer.flush os w).2

namespace Preserved

theorem feed {p : Profile} {os : Os} {P : Writer → Prop} (h : Preserved p os P) (bs : List (Nat × Bytes))
    (s : Writer × BlockIndex) (hs : P s.1) : P (feed (blockSink p os) s bs).2.1 := by
  induction bs generalizing s with
  | nil => exact hs
  | cons b bs ih =>
    have h1 := h.write b.2 s.1 hs
    rcases h2 : Writer.writeBlock p os b.2 s.1 with ⟨x | x, w⟩
    · rw [h2] at h1
      simpa only [Meerkat.feed, blockSink, h2] using h1
    · rw [h2] at h1
      simp only [Meerkat.feed, blockSink, h2]
      exact ih (w, s.2.indexBlock b.1 w.pos) h1

variable {p : Profile} {os : SegmentOs} {P Q : Writer → Prop}

theorem onSink (h : Preserved p os.data P) {α : Type}
    {m : Run (BinaryEncoder × (Writer × BlockIndex)) α} {mr : Run (BinaryEncoder × List (Nat × Bytes)) α}
    (hf : Follows (blockSink p os.data) m mr) (c : ColumnWriter) (s : SegmentWriter)
    (hs : P s.dataWriter ∧ Q s.indexWriter) :
    P (ColumnWriter.onSink m (c, s)).2.2.dataWriter ∧ Q (ColumnWriter.onSink m (c, s)).2.2.indexWriter := by
  obtain ⟨bs, hb⟩ := hf.fed c.encoder (s.dataWriter, s.blockIndex)
  have h1 := h.feed bs (s.dataWriter, s.blockIndex) hs.1
  rw [← hb] at h1
  rcases hm : m (c.encoder, (s.dataWriter, s.blockIndex)) with ⟨r, e, w, b⟩
  rw [hm] at h1
  simp only [ColumnWriter.onSink, hm]
  exact ⟨h1, hs.2⟩

theorem colOp (h : Preserved p os.data P) (op : ColOp) (c : ColumnWriter) (s : SegmentWriter)
    (hs : P s.dataWriter ∧ Q s.indexWriter) :
    P (op.run p os (c, s)).2.2.dataWriter ∧ Q (op.run p os (c, s)).2.2.indexWriter := by
  cases op with
  | write b => exact h.onSink (BinaryEncoder.encode_follows p (blockSink p os.data) b) c s hs
  | close =>
    have h1 := h.onSink (BinaryEncoder.flush_follows p (blockSink p os.data)) c s hs
    simp only [ColOp.run, ColumnWriter.close, Run.bind_apply]
    rcases h2 : ColumnWriter.onSink (BinaryEncoder.flush p (blockSink p os.data)) (c, s) with ⟨x | layout, c1, s1⟩
    · rw [h2] at h1; exact h1
    · rw [h2] at h1
      simp only [ColumnWriter.flushBlockIndex, BlockIndex.flush, Run.pure_apply, ColumnWriter.recordColumn]
      split
      · exact h1
      · exact h1

theorem colOps (h : Preserved p os.data P) (ops : List ColOp) (c : ColumnWriter) (s : SegmentWriter)
    (hs : P s.dataWriter ∧ Q s.indexWriter) :
    P (runColOps p os ops (c, s)).2.2.dataWriter ∧ Q (runColOps p os ops (c, s)).2.2.indexWriter := by
  induction ops generalizing c s with
  | nil => exact hs
  | cons op ops ih =>
    have h1 := h.colOp op c s hs
    rcases h2 : op.run p os (c, s) with ⟨r, c1, s1⟩
    rw [h2] at h1
    simp only [runColOps, h2]
    exact ih c1 s1 h1

theorem bind {α β : Type} {R : SegmentWriter → Prop} {m : Run SegmentWriter α} {f : α → Run SegmentWriter β}
    (hm : ∀ s, R s → R (m s).2) (hf : ∀ a s, R s → R (f a s).2) (s : SegmentWriter) (hs : R s) : R ((m >>= f) s).2 := by
  have h1 := hm s hs
  rcases h : m s with ⟨x | a, s1⟩
  · rw [h] at h1; rw [Run.bind_error h]; exact h1
  · rw [h] at h1; rw [Run.bind_ok h]; exact hf a s1 h1

theorem onIndex {m : Run Writer Unit} (hm : ∀ w, Q w → Q (m w).2) (s : SegmentWriter)
    (hs : P s.dataWriter ∧ Q s.indexWriter) :
    P (SegmentWriter.onIndex m s).2.dataWriter ∧ Q (SegmentWriter.onIndex m s).2.indexWriter := by
  have := hm s.indexWriter hs.2
  rcases h : m s.indexWriter with ⟨r, w⟩
  rw [h] at this
  simp only [SegmentWriter.onIndex, h]
  exact ⟨hs.1, this⟩

theorem onData {m : Run Writer Unit} (hm : ∀ w, P w → P (m w).2) (s : SegmentWriter)
    (hs : P s.dataWriter ∧ Q s.indexWriter) :
    P (SegmentWriter.onData m s).2.dataWriter ∧ Q (SegmentWriter.onData m s).2.indexWriter := by
  have := hm s.dataWriter hs.1
  rcases h : m s.dataWriter with ⟨r, w⟩
  rw [h] at this
  simp only [SegmentWriter.onData, h]
  exact ⟨this, hs.2⟩

theorem close (h : Preserved p os.data P) (h' : Preserved p os.index Q) (order : HashOrder) (s : SegmentWriter)
    (hs : P s.dataWriter ∧ Q s.indexWriter) :
    P (SegmentWriter.close p os order s).2.dataWriter ∧ Q (SegmentWriter.close p os order s).2.indexWriter :=
  bind (R := fun s => P s.dataWriter ∧ Q s.indexWriter) (fun s hs => onIndex (h'.write _) s hs)
    (fun _ => bind (R := fun s => P s.dataWriter ∧ Q s.indexWriter) (fun s hs => onIndex (h'.write _) s hs)
      (fun _ => bind (R := fun s => P s.dataWriter ∧ Q s.indexWriter) (fun s hs => onIndex h'.flush s hs)
        (fun _ s hs => onData h.flush s hs))) s hs

theorem run (h : Preserved p os.data P) (h' : Preserved p os.index Q) (ops : List SegOp) (s : SegmentWriter)
    (hs : P s.dataWriter ∧ Q s.indexWriter) :
    P (runSeg p os ops s).2.dataWriter ∧ Q (runSeg p os ops s).2.indexWriter := by
  induction ops generalizing s with
  | nil => exact hs
  | cons op ops ih =>
    have h1 : P (op.run p os s).2.dataWriter ∧ Q (op.run p os s).2.indexWriter := by
      cases op with
      | close order => exact h.close h' order s hs
      | column info cops =>
        simp only [SegOp.run, SegmentWriter.newBinaryColumnWriter]
        rcases he : newBinaryEncoder info.encoding BLOCK_SIZE info.nullable with f | e
        · exact hs
        · exact h.colOps cops { columnInfo := info, encoder := e } { s with blockIndex := s.blockIndex.clear } hs
    rcases h2 : op.run p os s with ⟨r, s1⟩
    rw [h2] at h1
    simp only [runSeg, h2]
    exact ih s1 h1

end Preserved

/-- What can be seen at some moment is kept. -/
theorem Preserved.seen (p : Profile) (os : Os) (seen : Bytes) :
    Preserved p os (fun w => seen <+: syncedBytes os w.file) where
  write b w h := h.trans (Writer.writeBlock_settles p os b w)
  flush w h := h.trans (Writer.flush_settles os w)

theorem SeenData.kept {p : Profile} {os : SegmentOs} {ops : List SegOp} {s : SegmentWriter} {seen : Bytes}
    (h : SeenData p os ops s seen) : seen <+: syncedBytes os.data (runSeg p os ops s).2.dataWriter.file := by
  obtain ⟨a, b, rfl, _, h⟩ := h
  rw [runSeg_append]
  exact (Preserved.run (Q := fun _ => True) (Preserved.seen p os.data seen) ⟨fun _ _ _ => trivial, fun _ _ => trivial⟩ b _
    ⟨h, trivial⟩).1

theorem SeenIndex.kept {p : Profile} {os : SegmentOs} {ops : List SegOp} {s : SegmentWriter} {seen : Bytes}
    (h : SeenIndex p os ops s seen) : seen <+: syncedBytes os.index (runSeg p os ops s).2.indexWriter.file := by
  obtain ⟨a, b, rfl, _, h⟩ := h
  rw [runSeg_append]
  exact (Preserved.run (P := fun _ => True) ⟨fun _ _ _ => trivial, fun _ _ => trivial⟩ (Preserved.seen p os.index seen) b _
    ⟨trivial, h⟩).2

end Meerkat
