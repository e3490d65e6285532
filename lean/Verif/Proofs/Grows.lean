import Verif.Proofs.Segment

set_option autoImplicit false

/-! # Files only grow, whatever the calls return -/

namespace Meerkat

namespace TokioFile

/-- What was written stays. -/
def Grows {α : Type} (m : Run TokioFile α) : Prop := ∀ f r f', m f = (r, f') → f.content <+: f'.content

theorem Grows.pure {α : Type} (a : α) : Grows (pure a) := by
  intro f r f' h; cases h; exact List.prefix_refl _

theorem Grows.bind {α β : Type} {m : Run TokioFile α} {g : α → Run TokioFile β} (hm : Grows m) (hg : ∀ a, Grows (g a)) :
    Grows (m >>= g) := by
  intro f r f' h
  rcases h1 : m f with ⟨x | a, f1⟩
  · rw [Run.bind_error h1] at h; cases h; exact hm _ _ _ h1
  · rw [Run.bind_ok h1] at h; exact (hm _ _ _ h1).trans (hg a _ _ _ h)

theorem Grows.complete (os : Os) : Grows (complete os) := by
  intro f r f' h
  simp only [TokioFile.complete] at h
  split at h
  · cases h; exact List.prefix_refl _
  · split at h <;> cases h <;> exact List.prefix_append ..

theorem Grows.takeErr : Grows takeErr := by
  intro f r f' h
  simp only [TokioFile.takeErr] at h
  split at h <;> cases h <;> exact List.prefix_refl _

theorem Grows.write (os : Os) (src : Bytes) : Grows (write os src) := by
  refine .bind .takeErr fun _ => .bind (.complete os) fun _ => ?_
  intro f r f' h
  simp only [spawn] at h
  cases h; exact List.prefix_refl _

theorem Grows.flush (os : Os) : Grows (flush os) := .bind .takeErr fun _ => .complete os

theorem Grows.writeAllFuel (os : Os) (fuel : Nat) (src : Bytes) : Grows (writeAllFuel os fuel src) := by
  induction fuel generalizing src with
  | zero =>
    intro f r f' h
    simp only [TokioFile.writeAllFuel] at h
    split at h
    · cases h; exact List.prefix_refl _
    · simp only [Run.lift] at h; cases h; exact List.prefix_refl _
  | succ fuel ih =>
    rw [TokioFile.writeAllFuel]
    split
    · exact .pure ()
    · refine .bind (.write os src) fun n => ?_
      split
      · intro f r f' h; simp only [fail] at h; cases h; exact List.prefix_refl _
      · exact ih _

theorem Grows.writeAll (os : Os) (src : Bytes) : Grows (writeAll os src) := .writeAllFuel os _ src

theorem Grows.syncAll (os : Os) : Grows (syncAll os) := by
  intro f r f' h
  simp only [TokioFile.syncAll] at h
  rcases h1 : TokioFile.flush os f with ⟨x | x, f1⟩
  · have := Grows.flush os _ _ _ h1
    simp only [h1] at h
    split at h <;> cases h <;> exact this
  · have := Grows.flush os _ _ _ h1
    simp only [h1] at h
    split at h <;> cases h <;> exact this

end TokioFile

open TokioFile

/-- The file of the second writer continues that of the first. -/
def Writer.Continues (w w' : Writer) : Prop := w.file.content <+: w'.file.content

/-- So do both files of a segment. -/
def SegmentWriter.Continues (s s' : SegmentWriter) : Prop :=
  s.dataWriter.Continues s'.dataWriter ∧ s.indexWriter.Continues s'.indexWriter

theorem Writer.Continues.refl (w : Writer) : w.Continues w := List.prefix_refl _

theorem SegmentWriter.Continues.refl (s : SegmentWriter) : s.Continues s := ⟨.refl _, .refl _⟩

theorem SegmentWriter.Continues.trans {a b c : SegmentWriter} (h1 : a.Continues b) (h2 : b.Continues c) : a.Continues c :=
  ⟨h1.1.trans h2.1, h1.2.trans h2.2⟩

theorem Writer.onFile_continues {m : Run TokioFile Unit} (hm : Grows m) (w : Writer) :
    w.Continues (Writer.onFile m w).2 := by
  rcases h : m w.file with ⟨r, f⟩
  simp only [Writer.onFile, h, Writer.Continues]
  exact hm _ _ _ h

theorem Writer.writeBlock_continues (p : Profile) (os : Os) (b : Bytes) (w : Writer) :
    w.Continues (Writer.writeBlock p os b w).2 := by
  simp only [Writer.writeBlock]
  split
  · exact .refl w
  · rename_i pos _
    exact Writer.onFile_continues (.writeAll os b) { w with pos := pos }

theorem feed_continues (p : Profile) (os : Os) (bs : List (Nat × Bytes)) (s : Writer × BlockIndex) :
    s.1.Continues (feed (blockSink p os) s bs).2.1 := by
  induction bs generalizing s with
  | nil => exact .refl _
  | cons b bs ih =>
    have h1 := Writer.writeBlock_continues p os b.2 s.1
    rcases h : Writer.writeBlock p os b.2 s.1 with ⟨x | x, w⟩
    · rw [h] at h1
      simpa only [feed, blockSink, h] using h1
    · rw [h] at h1
      simp only [feed, blockSink, h]
      exact List.IsPrefix.trans h1 (ih (w, s.2.indexBlock b.1 w.pos))

/-- Whatever a call that follows its recorded run returns, the sink was offered blocks. -/
theorem Follows.fed {E S α : Type} {k : Sink S} {m : Run (E × S) α} {mr : Run (E × List (Nat × Bytes)) α}
    (h : Follows k m mr) (e : E) (s : S) : ∃ bs, (m (e, s)).2.2 = (feed k s bs).2 := by
  obtain ⟨bs, r, e1, _, h2⟩ := h e
  have := h2 s
  refine ⟨bs, ?_⟩
  rcases hf : feed k s bs with ⟨x | x, s1⟩
  · rw [hf] at this
    obtain ⟨e'', he⟩ := this
    rw [he]
  · rw [hf] at this
    rw [show m (e, s) = _ from this]

theorem onSink_continues {α : Type} {p : Profile} {os : SegmentOs}
    {m : Run (BinaryEncoder × (Writer × BlockIndex)) α} {mr : Run (BinaryEncoder × List (Nat × Bytes)) α}
    (h : Follows (blockSink p os.data) m mr) (c : ColumnWriter) (s : SegmentWriter) :
    s.Continues (ColumnWriter.onSink m (c, s)).2.2 := by
  obtain ⟨bs, hb⟩ := h.fed c.encoder (s.dataWriter, s.blockIndex)
  have h1 := feed_continues p os.data bs (s.dataWriter, s.blockIndex)
  rw [← hb] at h1
  rcases hm : m (c.encoder, (s.dataWriter, s.blockIndex)) with ⟨r, e, w, b⟩
  rw [hm] at h1
  simp only [ColumnWriter.onSink, hm]
  exact ⟨h1, .refl _⟩

theorem colOp_continues (p : Profile) (os : SegmentOs) (op : ColOp) (c : ColumnWriter) (s : SegmentWriter) :
    s.Continues (op.run p os (c, s)).2.2 := by
  cases op with
  | write b => exact onSink_continues (BinaryEncoder.encode_follows p (blockSink p os.data) b) c s
  | close =>
    have h1 := onSink_continues (os := os) (BinaryEncoder.flush_follows p (blockSink p os.data)) c s
    simp only [ColOp.run, ColumnWriter.close, Run.bind_apply]
    rcases h2 : ColumnWriter.onSink (BinaryEncoder.flush p (blockSink p os.data)) (c, s) with ⟨x | layout, c1, s1⟩
    · rw [h2] at h1; exact h1
    · rw [h2] at h1
      simp only [ColumnWriter.flushBlockIndex, BlockIndex.flush, Run.pure_apply, ColumnWriter.recordColumn]
      split
      · exact h1
      · exact h1

theorem runColOps_continues (p : Profile) (os : SegmentOs) (ops : List ColOp) (c : ColumnWriter) (s : SegmentWriter) :
    s.Continues (runColOps p os ops (c, s)).2.2 := by
  induction ops generalizing c s with
  | nil => exact .refl _
  | cons op ops ih =>
    have h1 := colOp_continues p os op c s
    rcases h2 : op.run p os (c, s) with ⟨r, c1, s1⟩
    rw [h2] at h1
    simp only [runColOps, h2]
    exact h1.trans (ih c1 s1)

/-- A call on one of the writers. -/
theorem onIndex_continues {m : Run Writer Unit} (hm : ∀ w : Writer, w.Continues (m w).2) (s : SegmentWriter) :
    s.Continues (SegmentWriter.onIndex m s).2 := by
  have := hm s.indexWriter
  rcases h : m s.indexWriter with ⟨r, w⟩
  rw [h] at this
  simp only [SegmentWriter.onIndex, h]
  exact ⟨.refl _, this⟩

theorem onData_continues {m : Run Writer Unit} (hm : ∀ w : Writer, w.Continues (m w).2) (s : SegmentWriter) :
    s.Continues (SegmentWriter.onData m s).2 := by
  have := hm s.dataWriter
  rcases h : m s.dataWriter with ⟨r, w⟩
  rw [h] at this
  simp only [SegmentWriter.onData, h]
  exact ⟨this, .refl _⟩

theorem bind_continues {α β : Type} {m : Run SegmentWriter α} {f : α → Run SegmentWriter β}
    (hm : ∀ s : SegmentWriter, s.Continues (m s).2) (hf : ∀ a, ∀ s : SegmentWriter, s.Continues (f a s).2) (s : SegmentWriter) :
    s.Continues ((m >>= f) s).2 := by
  have h1 := hm s
  rcases h : m s with ⟨x | a, s1⟩
  · rw [h] at h1; rw [Run.bind_error h]; exact h1
  · rw [h] at h1; rw [Run.bind_ok h]; exact h1.trans (hf a s1)

theorem writeHeaders_continues (p : Profile) (os : SegmentOs) (s : SegmentWriter) :
    s.Continues (SegmentWriter.writeHeaders p os s).2 :=
  bind_continues (onIndex_continues (Writer.writeBlock_continues p os.index _))
    (fun _ => onData_continues (Writer.writeBlock_continues p os.data _)) s

theorem sync_continues (os : SegmentOs) (s : SegmentWriter) : s.Continues (SegmentWriter.sync os s).2 :=
  bind_continues (onIndex_continues (Writer.onFile_continues (.syncAll os.index)))
    (fun _ => onData_continues (Writer.onFile_continues (.syncAll os.data))) s

theorem close_continues (p : Profile) (os : SegmentOs) (order : HashOrder) (s : SegmentWriter) :
    s.Continues (SegmentWriter.close p os order s).2 :=
  bind_continues (onIndex_continues (Writer.writeBlock_continues p os.index _))
    (fun _ => bind_continues (onIndex_continues (Writer.writeBlock_continues p os.index _))
      (fun _ => bind_continues (onIndex_continues (Writer.onFile_continues (.flush os.index)))
        (fun _ => onData_continues (Writer.onFile_continues (.flush os.data))))) s

/-- Whatever is done with a segment, its files only grow. -/
theorem segOp_continues (p : Profile) (os : SegmentOs) (op : SegOp) (s : SegmentWriter) :
    s.Continues (op.run p os s).2 := by
  cases op with
  | close order => exact close_continues p os order s
  | column info ops =>
    simp only [SegOp.run, SegmentWriter.newBinaryColumnWriter]
    rcases he : newBinaryEncoder info.encoding BLOCK_SIZE info.nullable with f | e
    · exact .refl _
    · have := runColOps_continues p os ops { columnInfo := info, encoder := e }
        { s with blockIndex := s.blockIndex.clear }
      exact this

end Meerkat
