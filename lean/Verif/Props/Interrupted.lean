import Verif.Model.Interrupted
import Verif.Spec.Torn
import Verif.Spec.Crash
import Verif.Proofs.Live
import Verif.Props.Cancel
import Verif.Props.Crash
import Verif.Props.Store

set_option autoImplicit false

/-! # Creations and syncs that stop before their end: C92, C93 -/

namespace Meerkat

open TokioFile Store

namespace Interrupted

/-! ## Files never hold more than they were given -/

theorem takeErr_same {f f' : TokioFile} {r : Except Fault Unit} (h : takeErr f = (r, f')) :
    f'.content = f.content ∧ f'.inflight = f.inflight ∧ f'.numWrites = f.numWrites ∧ f'.synced = f.synced := by
  simp only [takeErr] at h
  split at h <;> cases h <;> exact ⟨rfl, rfl, rfl, rfl⟩

theorem settled_prefix (os : Os) (f : TokioFile) : syncedBytes os f <+: f.content ++ f.pending := by
  simp only [syncedBytes, pending]
  split
  · rename_i h; rw [h]; exact List.prefix_append ..
  · rename_i h _; rw [h]; exact List.prefix_refl _
  · rename_i h _; rw [h, Option.getD_some, List.prefix_append_right_inj]
    exact (List.take_prefix _ _).trans (List.dropLast_prefix _)

theorem complete_given {os : Os} {f f' : TokioFile} {r : Except Fault Unit} (h : complete os f = (r, f')) :
    f'.content ++ f'.pending <+: f.content ++ f.pending := by
  obtain ⟨h1, h2⟩ := complete_settled h
  rw [h1, pending, h2, Option.getD_none, List.append_nil]
  exact settled_prefix os f

theorem write_given {os : Os} {src : Bytes} {f f' : TokioFile} {e : Fault} (h : write os src f = (.error e, f')) :
    f'.content ++ f'.pending <+: f.content ++ f.pending := by
  rcases h1 : takeErr f with ⟨x | a, f1⟩
  · rw [write, Run.bind_error h1] at h; cases h
    obtain ⟨a1, a2, _⟩ := takeErr_same h1
    rw [a1, pending, a2]; exact List.prefix_refl _
  · rw [write, Run.bind_ok h1] at h
    obtain ⟨_, rfl⟩ := takeErr_ok h1
    rcases h2 : complete os f1 with ⟨x | b, f2⟩
    · rw [Run.bind_error h2] at h; cases h; exact complete_given h2
    · rw [Run.bind_ok h2] at h; cases h

theorem writeAllFuel_given {os : Os} {fuel : Nat} {src : Bytes} {f f' : TokioFile} {r : Except Fault Unit}
    (h : writeAllFuel os fuel src f = (r, f')) : f'.content ++ f'.pending <+: f.content ++ f.pending ++ src := by
  induction fuel generalizing src f with
  | zero =>
    simp only [writeAllFuel] at h
    split at h
    · cases h; exact List.prefix_append ..
    · simp only [Run.lift] at h; cases h; exact List.prefix_append ..
  | succ fuel ih =>
    rw [writeAllFuel] at h
    split at h
    · cases h; exact List.prefix_append ..
    · rcases h1 : write os src f with ⟨x | n, f1⟩
      · rw [Run.bind_error h1] at h; cases h
        exact (write_given h1).trans (List.prefix_append ..)
      · rw [Run.bind_ok h1] at h
        obtain ⟨_, _, hn, hc, hi, _⟩ := write_ok h1
        have hp : f1.content ++ f1.pending = f.content ++ f.pending ++ src.take n := by
          rw [hc, show f1.pending = src.take os.maxBuf by rw [pending, hi]; rfl, hn, List.length_take]
          congr 1
          rcases Nat.le_total os.maxBuf src.length with hle | hle
          · rw [Nat.min_eq_left hle]
          · rw [Nat.min_eq_right hle, List.take_of_length_le hle, List.take_of_length_le (Nat.le_refl _)]
        split at h
        · simp only [fail] at h; cases h
          rw [hp, List.prefix_append_right_inj]; exact List.take_prefix ..
        · have := ih h
          rwa [hp, List.append_assoc, List.take_append_drop] at this

theorem writeBlock_given {p : Profile} {os : Os} {b : Bytes} {w w' : Writer} {r : Except Fault Unit}
    (h : Writer.writeBlock p os b w = (r, w')) :
    w'.file.content ++ w'.file.pending <+: w.file.content ++ w.file.pending ++ b := by
  simp only [Writer.writeBlock] at h
  split at h
  · cases h; exact List.prefix_append ..
  · simp only [Writer.onFile] at h
    rcases h1 : writeAll os b w.file with ⟨r1, f1⟩
    simp only [h1] at h
    cases h
    exact writeAllFuel_given h1

theorem writeBlockCut_given {p : Profile} {os : Os} {b : Bytes} {j : Nat} {w w' : Writer}
    (h : Writer.writeBlockCut p os b j w = some w') :
    w'.file.content ++ w'.file.pending <+: w.file.content ++ w.file.pending ++ b := by
  simp only [Writer.writeBlockCut] at h
  split at h
  · cases h
  · simp only [Option.map_eq_some_iff] at h
    obtain ⟨f, hf, rfl⟩ := h
    obtain ⟨_, _, _, _, h5, _⟩ := writeAllCut_some hf
    rw [h5, List.prefix_append_right_inj]
    exact List.take_prefix ..

theorem settle_content (os : Os) (f : TokioFile) : (settle os f).content = syncedBytes os f :=
  (complete_settled (os := os) (f := f) rfl).1

theorem settle_given {os : Os} {f : TokioFile} {b : Bytes} (h : f.content ++ f.pending <+: b) :
    (settle os f).content <+: b := by
  rw [settle_content]; exact (settled_prefix os f).trans h

theorem new_empty {os : Os} {w : Writer} (h : Writer.new os = .ok w) : os.creates = true ∧ w.file = TokioFile.empty := by
  simp only [Writer.new, TokioFile.create] at h
  split at h
  · rename_i heq
    split at heq
    · rename_i hc; cases heq; cases h; exact ⟨hc, rfl⟩
    · cases heq
  · cases h

theorem new_error {os : Os} {e : Fault} (h : Writer.new os = .error e) : os.creates = false := by
  simp only [Writer.new, TokioFile.create] at h
  by_cases hc : os.creates = true
  · simp [hc] at h
  · simpa using hc

/-- Both files after a creation that stopped while it wrote the signatures. -/
theorem tracked {os : SegmentOs} {info : SegmentInfo} {dir : Dir} {iw dw : Writer} {s' : SegmentWriter}
    (hi : Writer.new os.index = .ok iw) (hd : Writer.new os.data = .ok dw)
    (h1 : s'.indexWriter.file.content ++ s'.indexWriter.file.pending <+: INDEX_FILE_SIGNATURE)
    (h2 : s'.dataWriter.file.content ++ s'.dataWriter.file.pending <+: DATA_FILE_SIGNATURE) :
    let dir' := trackSegment ((dir.set (indexFileName info.segmentId) []).set (dataFileName info.segmentId) [])
      info.segmentId (SegmentWriter.initial info dw iw) (s'.settle os)
    ∃ i d, dir' (indexFileName info.segmentId) = some i ∧ i <+: INDEX_FILE_SIGNATURE ∧
      dir' (dataFileName info.segmentId) = some d ∧ d <+: DATA_FILE_SIGNATURE := by
  have e1 := new_empty hi
  have e2 := new_empty hd
  have key := trackSegment_same (dir := (dir.set (indexFileName info.segmentId) []).set (dataFileName info.segmentId) [])
    (id := info.segmentId) (s := SegmentWriter.initial info dw iw) (s' := s'.settle os)
    ⟨by rw [Dir.set_same]; exact congrArg some (new_content hd).symm,
     by rw [Dir.set_other _ (names_ne _ _).symm, Dir.set_same]; exact congrArg some (new_content hi).symm⟩
    ⟨by show dw.file.content <+: _; rw [e2.2]; exact List.nil_prefix,
     by show iw.file.content <+: _; rw [e1.2]; exact List.nil_prefix⟩
  exact ⟨_, _, key.2, settle_given h1, key.1, settle_given h2⟩

theorem short_recover {i : Bytes} (h : i <+: INDEX_FILE_SIGNATURE) : recoverIndex i = none := by
  have hl : i.length ≤ 12 := h.length_le
  simp only [recoverIndex]
  rw [if_neg]
  rintro ⟨_, h2, _⟩
  omega

end Interrupted

open Interrupted

/-! ## C92 -/

/-- The creation can have opened the index file, or emptied it, when it stops like this. -/
def CreateStop.opensIndex (os : SegmentOs) : CreateStop → Bool
  | .indexFile opened => opened && os.index.creates
  | _ => os.index.creates

/-- The creation can have opened the data file, or emptied it, when it stops like this. -/
def CreateStop.opensData (os : SegmentOs) : CreateStop → Bool
  | .indexFile _ => false
  | .dataFile opened => opened && os.data.creates
  | _ => os.index.creates && os.data.creates

/-- What was in a place before is there, or a file of which there is only a part of its signature. -/
def LeftAlone (opened : Bool) (before after : Option Bytes) (signature : Bytes) : Prop :=
  if opened then ∃ file, after = some file ∧ file <+: signature else after = before

/-- C92, exactly. However a creation stops before its end, by an error or because it is dropped, all files but the two named
after the id stay as they were. The index file and the data file stay as they were if they were not opened; otherwise they
are there, with a part of their signature at most, whatever they held before. -/
theorem C92_stopped_creation_exact (p : Profile) (os : SegmentOs) (info : SegmentInfo) (dir dir' : Dir) (stop : CreateStop)
    (h : createStopped p os info dir stop = some dir') :
    (∀ n, n ≠ dataFileName info.segmentId → n ≠ indexFileName info.segmentId → dir' n = dir n) ∧
    LeftAlone (stop.opensIndex os) (dir (indexFileName info.segmentId)) (dir' (indexFileName info.segmentId))
      INDEX_FILE_SIGNATURE ∧
    LeftAlone (stop.opensData os) (dir (dataFileName info.segmentId)) (dir' (dataFileName info.segmentId))
      DATA_FILE_SIGNATURE ∧
    (stop.opensData os = true → stop.opensIndex os = true) := by
  have opens : ∀ {iw dw s'}, Writer.new os.index = .ok iw → Writer.new os.data = .ok dw →
      s'.indexWriter.file.content ++ s'.indexWriter.file.pending <+: INDEX_FILE_SIGNATURE →
      s'.dataWriter.file.content ++ s'.dataWriter.file.pending <+: DATA_FILE_SIGNATURE →
      dir' = trackSegment ((dir.set (indexFileName info.segmentId) []).set (dataFileName info.segmentId) [])
        info.segmentId (SegmentWriter.initial info dw iw) (SegmentWriter.settle os s') →
      (∀ n, n ≠ dataFileName info.segmentId → n ≠ indexFileName info.segmentId → dir' n = dir n) ∧
      LeftAlone (os.index.creates) (dir (indexFileName info.segmentId)) (dir' (indexFileName info.segmentId))
        INDEX_FILE_SIGNATURE ∧
      LeftAlone (os.index.creates && os.data.creates) (dir (dataFileName info.segmentId)) (dir' (dataFileName info.segmentId))
        DATA_FILE_SIGNATURE ∧ ((os.index.creates && os.data.creates) = true → os.index.creates = true) := by
    intro iw dw s' hi hd h1 h2 hdir
    obtain ⟨i, d, k1, k2, k3, k4⟩ := tracked (dir := dir) (info := info) hi hd h1 h2
    rw [← hdir] at k1 k3
    simp only [LeftAlone, (new_empty hi).1, (new_empty hd).1, Bool.and_true, if_true]
    refine ⟨fun n n1 n2 => ?_, ⟨i, k1, k2⟩, ⟨d, k3, k4⟩, by simp⟩
    rw [hdir, trackSegment_other _ _ n1 n2, Dir.set_other _ n1, Dir.set_other _ n2]
  have fresh : ∀ {o w}, Writer.new o = .ok w → ∀ b, w.file.content ++ w.file.pending ++ b = b := by
    intro o w hw b; rw [(new_empty hw).2]; rfl
  cases stop with
  | failed =>
    simp only [createStopped] at h
    simp only [CreateStop.opensIndex, CreateStop.opensData]
    split at h
    · rename_i hi
      cases h
      simp [LeftAlone, new_error hi]
    · rename_i iw hi
      split at h
      · rename_i hd
        cases h
        simp only [LeftAlone, (new_empty hi).1, new_error hd, Bool.and_false, if_true]
        refine ⟨fun n _ n2 => Dir.set_other _ n2, ⟨[], Dir.set_same .., List.nil_prefix⟩, ?_, by simp⟩
        rw [Dir.set_other _ (names_ne _ _)]; rfl
      · rename_i dw hd
        split at h
        · cases h
        · rename_i e s' hs
          cases h
          simp only [SegmentWriter.writeHeaders] at hs
          rcases h1 : SegmentWriter.onIndex (Writer.writeBlock p os.index INDEX_FILE_SIGNATURE)
            (SegmentWriter.initial info dw iw) with ⟨x | x, s1⟩
          · rw [Run.bind_error h1] at hs
            cases hs
            rcases h2 : Writer.writeBlock p os.index INDEX_FILE_SIGNATURE iw with ⟨r, w⟩
            have g := writeBlock_given h2
            rw [fresh hi] at g
            simp only [SegmentWriter.onIndex, SegmentWriter.initial, h2] at h1
            cases h1
            exact opens hi hd g (by
              show dw.file.content ++ dw.file.pending <+: _
              rw [(new_empty hd).2]; exact List.nil_prefix) rfl
          · rw [Run.bind_ok h1] at hs
            rcases h2 : Writer.writeBlock p os.index INDEX_FILE_SIGNATURE iw with ⟨r, w⟩
            have g := writeBlock_given h2
            rw [fresh hi] at g
            simp only [SegmentWriter.onIndex, SegmentWriter.initial, h2] at h1
            cases h1
            rcases h3 : Writer.writeBlock p os.data DATA_FILE_SIGNATURE dw with ⟨r, w'⟩
            have g' := writeBlock_given h3
            rw [fresh hd] at g'
            simp only [SegmentWriter.onData, h3] at hs
            cases hs
            exact opens hi hd g g' rfl
  | indexFile opened =>
    simp only [createStopped, Option.some.injEq] at h
    subst h
    simp only [CreateStop.opensIndex, CreateStop.opensData]
    by_cases ho : (opened && os.index.creates) = true
    · simp only [LeftAlone, ho, if_true]
      refine ⟨fun n _ n2 => Dir.set_other _ n2, ⟨[], Dir.set_same .., List.nil_prefix⟩, ?_, fun h => by cases h⟩
      rw [Dir.set_other _ (names_ne _ _)]; rfl
    · simp [LeftAlone, ho]
  | dataFile opened =>
    simp only [createStopped] at h
    split at h
    · cases h
    · rename_i iw hi
      simp only [Option.some.injEq] at h
      subst h
      simp only [CreateStop.opensIndex, CreateStop.opensData, (new_empty hi).1]
      by_cases ho : (opened && os.data.creates) = true
      · simp only [LeftAlone, ho, if_true]
        refine ⟨fun n n1 n2 => by rw [Dir.set_other _ n1, Dir.set_other _ n2], ⟨[], ?_, List.nil_prefix⟩,
          ⟨[], Dir.set_same .., List.nil_prefix⟩, by simp⟩
        rw [Dir.set_other _ (names_ne _ _).symm, Dir.set_same]
      · simp only [LeftAlone, ho, if_true]
        refine ⟨fun n _ n2 => Dir.set_other _ n2, ⟨[], Dir.set_same .., List.nil_prefix⟩, ?_, by simp⟩
        rw [if_neg (by simp), if_neg (by simp), Dir.set_other _ (names_ne _ _)]
  | indexHeader j =>
    simp only [createStopped] at h
    split at h
    · rename_i iw dw hi hd
      simp only [Option.map_eq_some_iff] at h
      obtain ⟨w, hw, rfl⟩ := h
      have g := writeBlockCut_given hw
      rw [show (SegmentWriter.initial info dw iw).indexWriter = iw from rfl, fresh hi] at g
      exact opens hi hd g (by
        show dw.file.content ++ dw.file.pending <+: _
        rw [(new_empty hd).2]; exact List.nil_prefix) rfl
    · cases h
  | dataHeader j =>
    simp only [createStopped] at h
    split at h
    · rename_i iw dw hi hd
      rcases h2 : Writer.writeBlock p os.index INDEX_FILE_SIGNATURE iw with ⟨r, w⟩
      have g := writeBlock_given h2
      rw [fresh hi] at g
      simp only [SegmentWriter.onIndex, SegmentWriter.initial, h2] at h
      split at h
      · cases h
      · rename_i s1 hs
        cases hs
        simp only [Option.map_eq_some_iff] at h
        obtain ⟨w', hw, rfl⟩ := h
        have g' := writeBlockCut_given hw
        rw [fresh hd] at g'
        exact opens hi hd g g' rfl
    · cases h

/-- A creation returns an error if and only if it can stop with one; what it leaves then is what was there when it
returned, and at most what was still pending behind it. -/
theorem C92_failed_creation (p : Profile) (os : SegmentOs) (info : SegmentInfo) (dir : Dir) :
    ((∃ e, (createSegment p os info dir).1 = .error e) ↔ ∃ dir', createStopped p os info dir .failed = some dir') ∧
    ∀ dir', createStopped p os info dir .failed = some dir' → ∀ n,
      (∀ file, (createSegment p os info dir).2 n = some file → ∃ more, dir' n = some (file ++ more)) ∧
      ((createSegment p os info dir).2 n = none → dir' n = none) := by
  simp only [createStopped, createSegment]
  rcases hi : Writer.new os.index with e | iw
  · refine ⟨by simp, fun dir' h n => ?_⟩
    cases h
    exact ⟨fun f hf => ⟨[], by rw [show dir n = some f from hf, List.append_nil]⟩, fun h => h⟩
  · rcases hd : Writer.new os.data with e | dw
    · refine ⟨by simp, fun dir' h n => ?_⟩
      cases h
      refine ⟨fun f hf => ⟨[], ?_⟩, fun h => h⟩
      rw [show (dir.set (indexFileName info.segmentId) []) n = some f from hf, List.append_nil]
    · dsimp only
      rcases hw : SegmentWriter.writeHeaders p os (SegmentWriter.initial info dw iw) with ⟨e | u, s'⟩
      · refine ⟨by simp, fun dir' h n => ?_⟩
        cases h
        have hfiles : HasFiles ((dir.set (indexFileName info.segmentId) []).set (dataFileName info.segmentId) [])
            info.segmentId (SegmentWriter.initial info dw iw) :=
          ⟨by rw [Dir.set_same]; exact congrArg some (new_content hd).symm,
           by rw [Dir.set_other _ (names_ne _ _).symm, Dir.set_same]; exact congrArg some (new_content hi).symm⟩
        have hc := writeHeaders_continues p os (SegmentWriter.initial info dw iw)
        rw [hw] at hc
        have a1 : s'.dataWriter.file.content <+: (s'.settle os).dataWriter.file.content := by
          show _ <+: (settle os.data s'.dataWriter.file).content
          rw [settle_content]; exact content_prefix ..
        have a2 : s'.indexWriter.file.content <+: (s'.settle os).indexWriter.file.content := by
          show _ <+: (settle os.index s'.indexWriter.file).content
          rw [settle_content]; exact content_prefix ..
        have k1 := trackSegment_same hfiles hc
        have k2 := trackSegment_same hfiles (s' := s'.settle os) ⟨hc.1.trans a1, hc.2.trans a2⟩
        by_cases n1 : n = dataFileName info.segmentId
        · subst n1
          dsimp only
          rw [k1.1, k2.1]
          obtain ⟨t, ht⟩ := a1
          exact ⟨fun f hf => by cases hf; exact ⟨t, by rw [ht]⟩, fun h => by cases h⟩
        · by_cases n2 : n = indexFileName info.segmentId
          · subst n2
            dsimp only
            rw [k1.2, k2.2]
            obtain ⟨t, ht⟩ := a2
            exact ⟨fun f hf => by cases hf; exact ⟨t, by rw [ht]⟩, fun h => by cases h⟩
          · dsimp only
            rw [trackSegment_other _ _ n1 n2, trackSegment_other _ _ n1 n2]
            exact ⟨fun f hf => ⟨[], by rw [hf, List.append_nil]⟩, fun h => h⟩
      · exact ⟨by simp, fun dir' h => by cases h⟩

/-- **C92 is violated**: whatever the directory holds, a creation that fails because the data file cannot be opened leaves an
empty index file; and so does one that is dropped while it waits for the data file, though nothing fails. -/
theorem C92_stopped_creation_violated (p : Profile) (os : SegmentOs) (info : SegmentInfo) (dir : Dir)
    (hi : os.index.creates = true) :
    (os.data.creates = false → (createSegment p os info dir).1 = .error .io ∧
      ∃ dir', createStopped p os info dir .failed = some dir' ∧ dir' (indexFileName info.segmentId) = some []) ∧
    ∀ opened, ∃ dir', createStopped p os info dir (.dataFile opened) = some dir' ∧
      dir' (indexFileName info.segmentId) = some [] := by
  have h1 : Writer.new os.index = .ok { file := TokioFile.empty, pos := 0 } := by simp [Writer.new, TokioFile.create, hi]
  refine ⟨fun hd => ?_, fun opened => ?_⟩
  · have h2 : Writer.new os.data = .error .io := by simp [Writer.new, TokioFile.create, hd]
    refine ⟨by simp only [createSegment, h1, h2], _, by simp only [createStopped, h1, h2]; rfl, Dir.set_same ..⟩
  · refine ⟨_, by simp only [createStopped, h1]; rfl, ?_⟩
    split
    · rw [Dir.set_other _ (names_ne _ _).symm, Dir.set_same]
    · exact Dir.set_same ..

/-- C92, what holds: however a creation stops before its end, all other files stay, the index file is as before or
does not look complete, and the next successful creation with the same id leaves the same directory as if
there had been no attempt before. -/
theorem C92_stopped_creation_partial (p : Profile) (os : SegmentOs) (info : SegmentInfo) (dir dir' : Dir) (stop : CreateStop)
    (h : createStopped p os info dir stop = some dir') :
    (∀ n, n ≠ dataFileName info.segmentId → n ≠ indexFileName info.segmentId → dir' n = dir n) ∧
    (dir' (indexFileName info.segmentId) = dir (indexFileName info.segmentId) ∨
      ∃ file, dir' (indexFileName info.segmentId) = some file ∧ recoverIndex file = none) ∧
    ∀ (q : Profile) (os' : SegmentOs) (info' : SegmentInfo), info'.segmentId = info.segmentId → ∀ s after,
      createSegment q os' info' dir' = (.ok s, after) ↔ createSegment q os' info' dir = (.ok s, after) := by
  obtain ⟨h1, h2, _, _⟩ := C92_stopped_creation_exact p os info dir dir' stop h
  refine ⟨h1, ?_, fun q os' info' hid s after => ?_⟩
  · simp only [LeftAlone] at h2
    split at h2
    · obtain ⟨file, a, b⟩ := h2
      exact .inr ⟨file, a, short_recover b⟩
    · exact .inl h2
  · rw [← hid] at h1
    have hsame : (dir'.set (indexFileName info'.segmentId) []).set (dataFileName info'.segmentId) [] =
        (dir.set (indexFileName info'.segmentId) []).set (dataFileName info'.segmentId) [] := by
      funext n
      by_cases n1 : n = dataFileName info'.segmentId
      · subst n1; rw [Dir.set_same, Dir.set_same]
      · rw [Dir.set_other _ n1, Dir.set_other _ n1]
        by_cases n2 : n = indexFileName info'.segmentId
        · subst n2; rw [Dir.set_same, Dir.set_same]
        · rw [Dir.set_other _ n2, Dir.set_other _ n2]; exact h1 n n1 n2
    simp only [createSegment]
    rcases Writer.new os'.index with e | iw
    · simp
    · rcases Writer.new os'.data with e | dw
      · simp
      · dsimp only
        rw [hsame]

/-- What a directory has under the names of the two files of the example. -/
private def exampleFiles (dir : Option Dir) : Option (Option Bytes × Option Bytes) :=
  dir.map fun dir => (dir (indexFileName exampleInfo.segmentId), dir (dataFileName exampleInfo.segmentId))

/-- A segment whose index file is lost: the data file of the second creation cannot be opened. -/
example : exampleFiles (createStopped .debug { index := .reliable, data := { Os.reliable with creates := false } } exampleInfo
      (Dir.set (fun _ => none) (indexFileName exampleInfo.segmentId) [1, 2, 3]) .failed) = some (some [], none) := by
  decide +kernel

/-- A creation that is dropped while it writes the signature of the index file through a buffer of 5 bytes: 5 bytes were
taken and reach the file. -/
example : exampleFiles (createStopped .debug { index := { Os.reliable with maxBuf := 5 }, data := .reliable } exampleInfo
      (fun _ => none) (.indexHeader 1)) = some (some (INDEX_FILE_SIGNATURE.take 5), some []) := by
  decide +kernel

/-- A creation whose write of the data file's signature fails after 3 bytes. The signature of the index file is pending when
the creation fails, and reaches the file later. -/
example : exampleFiles (createStopped .debug
      { index := .reliable, data := { Os.reliable with maxBuf := 5, writes := fun _ => .failed 3 } }
      exampleInfo (fun _ => none) .failed) = some (some INDEX_FILE_SIGNATURE, some (DATA_FILE_SIGNATURE.take 3)) := by
  decide +kernel

/-! ## C93 -/

namespace Interrupted

/-- What was synced is at the beginning of the file. -/
def SyncedFirst (w : Writer) : Prop := w.file.synced <+: w.file.content

theorem writeAllFuel_synced {os : Os} {fuel : Nat} {src : Bytes} {f f' : TokioFile} {r : Except Fault Unit}
    (h : writeAllFuel os fuel src f = (r, f')) : f'.synced = f.synced := by
  have hc : ∀ {f f' : TokioFile} {r}, complete os f = (r, f') → f'.synced = f.synced := by
    intro f f' r h
    simp only [complete] at h
    split at h
    · cases h; rfl
    · split at h <;> cases h <;> rfl
  have hw : ∀ {src} {f f' : TokioFile} {r}, write os src f = (r, f') → f'.synced = f.synced := by
    intro src f f' r h
    rcases h1 : takeErr f with ⟨x | a, f1⟩
    · rw [write, Run.bind_error h1] at h; cases h; exact (takeErr_same h1).2.2.2
    · rw [write, Run.bind_ok h1] at h
      rcases h2 : complete os f1 with ⟨x | b, f2⟩
      · rw [Run.bind_error h2] at h; cases h; rw [hc h2, (takeErr_same h1).2.2.2]
      · rw [Run.bind_ok h2] at h; cases h; exact (hc h2).trans (takeErr_same h1).2.2.2
  induction fuel generalizing src f with
  | zero =>
    simp only [writeAllFuel] at h
    split at h
    · cases h; rfl
    · simp only [Run.lift] at h; cases h; rfl
  | succ fuel ih =>
    rw [writeAllFuel] at h
    split at h
    · cases h; rfl
    · rcases h1 : write os src f with ⟨x | n, f1⟩
      · rw [Run.bind_error h1] at h; cases h; exact hw h1
      · rw [Run.bind_ok h1] at h
        split at h
        · simp only [fail] at h; cases h; exact hw h1
        · rw [ih h, hw h1]

theorem flush_facts {os : Os} {f f' : TokioFile} {r : Except Fault Unit} (h : flush os f = (r, f')) :
    f'.synced = f.synced ∧ f.content <+: f'.content ∧ syncedBytes os f' = syncedBytes os f ∧
    f'.content ++ f'.pending <+: f.content ++ f.pending := by
  have hg := Grows.flush os _ _ _ h
  rcases h1 : takeErr f with ⟨x | a, f1⟩
  · rw [flush, Run.bind_error h1] at h
    cases h
    obtain ⟨a1, a2, a3, a4⟩ := takeErr_same h1
    exact ⟨a4, hg, by simp only [syncedBytes, a1, a2, a3], by rw [a1, pending, a2]; exact List.prefix_refl _⟩
  · rw [flush, Run.bind_ok h1] at h
    obtain ⟨_, rfl⟩ := takeErr_ok h1
    obtain ⟨b1, b2⟩ := complete_settled h
    refine ⟨?_, hg, ?_, complete_given h⟩
    · simp only [complete] at h
      split at h
      · cases h; rfl
      · split at h <;> cases h <;> rfl
    · simp only [syncedBytes, b2] at b1 ⊢; exact b1

theorem syncedFirst_preserved (p : Profile) (os : Os) : Preserved p os SyncedFirst where
  write b w hw := by
    simp only [SyncedFirst, Writer.writeBlock] at hw ⊢
    split
    · exact hw
    · simp only [Writer.onFile]
      rw [show (writeAll os b w.file).2.synced = w.file.synced from writeAllFuel_synced (r := (writeAll os b w.file).1) rfl]
      exact hw.trans (Grows.writeAll os b _ _ _ rfl)
  flush w hw := by
    simp only [SyncedFirst, Writer.flush, Writer.onFile] at hw ⊢
    rcases h : flush os w.file with ⟨r, f⟩
    obtain ⟨a, b, _⟩ := flush_facts h
    rw [a]
    exact hw.trans b

/-- What holds of a file when a sync of it stops, compared to before. -/
structure Kept (os : Os) (f f' : TokioFile) : Prop where
  bytes : syncedBytes os f' = syncedBytes os f
  written : f.content <+: f'.content
  given : f'.content ++ f'.pending <+: f.content ++ f.pending
  synced : f.synced <+: f'.synced
  reports : (flush os f').1 = (flush os f).1

theorem Kept.refl (os : Os) (f : TokioFile) : Kept os f f :=
  ⟨rfl, List.prefix_refl _, List.prefix_refl _, List.prefix_refl _, rfl⟩

/-- A flush that failed has reported an `io::Error`; one that did not leaves nothing to report. -/
theorem flush_reports {os : Os} {f f' : TokioFile} {r : Except Fault Unit} (h : flush os f = (r, f')) :
    match r with
    | .ok () => f'.lastErr = false ∧ f'.inflight = none
    | .error x => x = .io := by
  rcases h1 : takeErr f with ⟨x | a, f1⟩
  · rw [flush, Run.bind_error h1] at h
    cases h
    simp only [takeErr] at h1
    split at h1 <;> cases h1
    rfl
  · have h2 := takeErr_ok h1
    rw [flush, Run.bind_ok h1, h2.2] at h
    replace h2 := h2.1
    simp only [complete] at h
    split at h
    · cases h; exact ⟨h2, by assumption⟩
    · split at h <;> cases h
      · exact ⟨h2, rfl⟩
      · rfl

theorem Kept.waited {os : Os} {f : TokioFile} (hs : f.synced <+: f.content) (done : Bool) :
    Kept os f (fsyncCut os done f) ∧ (fsyncCut os done f).synced <+: (fsyncCut os done f).content := by
  rcases h : flush os f with ⟨r, f1⟩
  obtain ⟨a, b, c, d⟩ := flush_facts h
  have e := flush_reports h
  have h2 : f1.synced <+: f1.content := by rw [a]; exact hs.trans b
  have h3 : f.synced <+: f1.content := hs.trans b
  have h4 : f.synced <+: f1.synced := by rw [a]; exact List.prefix_refl _
  have h5 : ∀ f2 : TokioFile, f2.inflight = f1.inflight → f2.lastErr = (match r with | .ok () => f1.lastErr | .error _ => true) →
      (flush os f2).1 = (flush os f).1 := by
    intro f2 g1 g2
    rw [h]
    rcases r with x | ⟨⟩
    · cases e
      simp only at g2
      rw [flush, Run.bind_error (show takeErr f2 = (.error .io, { f2 with lastErr := false }) by simp [takeErr, g2])]
    · rw [flush_idle (g2.trans e.1) (g1.trans e.2)]
  simp only [fsyncCut, syncAll, h]
  cases done <;> cases r <;> simp only [if_true, Bool.false_eq_true, if_false]
  · exact ⟨⟨c, b, d, h4, h5 _ rfl rfl⟩, h2⟩
  · exact ⟨⟨c, b, d, h4, h5 _ rfl rfl⟩, h2⟩
  · split
    · exact ⟨⟨c, b, d, h3, h5 _ rfl rfl⟩, List.prefix_refl _⟩
    · exact ⟨⟨c, b, d, h4, h5 _ rfl rfl⟩, h2⟩
  · split
    · exact ⟨⟨c, b, d, h3, h5 _ rfl rfl⟩, List.prefix_refl _⟩
    · exact ⟨⟨c, b, d, h4, h5 _ rfl rfl⟩, h2⟩

theorem Kept.crash {os : Os} {f f' : TokioFile} (h : Kept os f f') {disk : Bytes} (hd : AfterCrash f' disk) :
    AfterCrash f disk := by
  obtain ⟨h1, h2, h3⟩ := hd
  have hl := h.given.length_le
  refine ⟨h.synced.trans h1, by omega, fun i hi => ?_⟩
  rcases h3 i hi with h4 | h4
  · refine .inl ?_
    obtain ⟨t, ht⟩ := h.given
    rw [h4, ← ht]; exact (List.getElem?_append_left (by omega)).symm
  · exact .inr h4

end Interrupted

/-- **C93.** After any calls on a segment, whatever they returned, a sync that is dropped at any point does no harm. Once the
background writes have taken place both files hold what they would hold if sync had not been called, nothing that was
written or synced before is lost, a crash leaves nothing that it could not have left without the sync, and an error of a
write is reported by the next flush if it would have been without the sync. -/
theorem C93_dropped_sync (p : Profile) (os : SegmentOs) (info : SegmentInfo) (s s' s'' : SegmentWriter)
    (hnew : SegmentWriter.new p os info = .ok s) (ops : List SegOp) (results : List SegResult)
    (hrun : runSeg p os ops s = (results, s')) (point : SyncPoint)
    (hcut : SegmentWriter.syncCut os s' point = some s'') :
    (s''.settle os).indexWriter.file.content = (s'.settle os).indexWriter.file.content ∧
    (s''.settle os).dataWriter.file.content = (s'.settle os).dataWriter.file.content ∧
    s'.indexWriter.file.content <+: s''.indexWriter.file.content ∧
    s'.dataWriter.file.content <+: s''.dataWriter.file.content ∧
    s'.indexWriter.file.synced <+: s''.indexWriter.file.synced ∧
    s'.dataWriter.file.synced <+: s''.dataWriter.file.synced ∧
    (∀ disk, AfterCrash s''.indexWriter.file disk → AfterCrash s'.indexWriter.file disk) ∧
    (∀ disk, AfterCrash s''.dataWriter.file disk → AfterCrash s'.dataWriter.file disk) ∧
    (Writer.flush os.index s''.indexWriter).1 = (Writer.flush os.index s'.indexWriter).1 ∧
    (Writer.flush os.data s''.dataWriter).1 = (Writer.flush os.data s'.dataWriter).1 := by
  obtain ⟨g1, g2, _⟩ := new_ok hnew
  have hinv := Preserved.run (syncedFirst_preserved p os.data) (syncedFirst_preserved p os.index) ops s
    ⟨by rw [SyncedFirst, g2.synced]; exact List.nil_prefix, by rw [SyncedFirst, g1.synced]; exact List.nil_prefix⟩
  rw [hrun] at hinv
  have key : Kept os.index s'.indexWriter.file s''.indexWriter.file ∧ Kept os.data s'.dataWriter.file s''.dataWriter.file := by
    cases point with
    | indexWrite =>
      simp only [SegmentWriter.syncCut] at hcut
      split at hcut
      · cases hcut; exact ⟨.refl .., .refl ..⟩
      · cases hcut
    | indexFsync done =>
      simp only [SegmentWriter.syncCut, Option.some.injEq] at hcut
      subst hcut
      exact ⟨(Kept.waited hinv.2 done).1, .refl ..⟩
    | dataWrite =>
      simp only [SegmentWriter.syncCut] at hcut
      split at hcut
      · rename_i s1 h1
        split at hcut
        · cases hcut
          simp only [SegmentWriter.onIndex, Writer.sync, Writer.onFile] at h1
          have := (Kept.waited (os := os.index) hinv.2 true).1
          simp only [fsyncCut, if_true] at this
          rw [Prod.mk.injEq] at h1
          rw [← h1.2]
          exact ⟨this, .refl ..⟩
        · cases hcut
      · cases hcut
    | dataFsync done =>
      simp only [SegmentWriter.syncCut] at hcut
      split at hcut
      · rename_i s1 h1
        simp only [Option.some.injEq] at hcut
        subst hcut
        simp only [SegmentWriter.onIndex, Writer.sync, Writer.onFile] at h1
        have := (Kept.waited (os := os.index) hinv.2 true).1
        simp only [fsyncCut, if_true] at this
        rw [Prod.mk.injEq] at h1
        rw [← h1.2]
        exact ⟨this, (Kept.waited hinv.1 done).1⟩
      · cases hcut
  have h1 := key.1.bytes
  have h2 := key.2.bytes
  rw [← settle_content, ← settle_content] at h1 h2
  exact ⟨h1, h2, key.1.written, key.2.written, key.1.synced, key.2.synced, fun _ h => key.1.crash h,
    fun _ h => key.2.crash h, key.1.reports, key.2.reports⟩

/-- A sync that is not dropped is one that is dropped when the last fsync it waits for has taken place. -/
theorem C93_whole_sync (os : SegmentOs) (s : SegmentWriter) :
    SegmentWriter.syncCut os s (if (SegmentWriter.onIndex (Writer.sync os.index) s).1 = .ok () then .dataFsync true
      else .indexFsync true) = some (SegmentWriter.sync os s).2 := by
  rw [SegmentWriter.sync, Run.bind_apply]
  rcases h : SegmentWriter.onIndex (Writer.sync os.index) s with ⟨x | ⟨⟩, s1⟩
  · rw [if_neg (by simp)]
    simp only [SegmentWriter.onIndex, Writer.sync, Writer.onFile, Prod.mk.injEq] at h
    rw [← h.2]
    rfl
  · rw [if_pos rfl]
    simp only [SegmentWriter.syncCut, h]
    rfl

/-- C54, second part, is false of the code though no call and no fsync fails: if `sync` of a closed segment is dropped, or the
machine crashes, while the fsync of the data file is waited for, the index file is complete for certain and
the data file may be left empty. -/
theorem C54_between_fsyncs_violated (p : Profile) (os : SegmentOs) (info : SegmentInfo) (s s' : SegmentWriter)
    (hnew : SegmentWriter.new p os info = .ok s) (ops : List SegOp) (order : HashOrder) (results : List SegResult)
    (hrun : runSeg p os (ops ++ [.close order]) s = (results, s')) (hgood : ∀ x ∈ results, x.Good)
    (hindex : os.index.syncs s'.indexWriter.file.numSyncs = true) :
    ∃ s'', SegmentWriter.syncCut os s' (.dataFsync false) = some s'' ∧
    (∀ disk, AfterCrash s''.indexWriter.file disk → disk = s'.indexWriter.file.content) ∧
    AfterCrash s''.dataWriter.file [] ∧ s''.dataWriter.file.content ≠ [] := by
  obtain ⟨idata, data, g1, g2, hsig, c1, c2⟩ := closed_state hnew hrun hgood
  let fi : TokioFile := { s'.indexWriter.file with numSyncs := s'.indexWriter.file.numSyncs + 1,
                                                   synced := s'.indexWriter.file.content }
  let s1 : SegmentWriter := { s' with indexWriter := { s'.indexWriter with file := fi } }
  have hs1 : SegmentWriter.onIndex (Writer.sync os.index) s' = (.ok (), s1) := by
    have hf : TokioFile.flush os.index s'.indexWriter.file = (.ok (), s'.indexWriter.file) := flush_idle g1.err c1
    simp only [SegmentWriter.onIndex, Writer.sync, Writer.onFile, TokioFile.syncAll, hf, hindex, if_true, s1, fi]
  have hs2 : TokioFile.fsyncCut os.data false s'.dataWriter.file = s'.dataWriter.file := by
    have hf : TokioFile.flush os.data s'.dataWriter.file = (.ok (), s'.dataWriter.file) := flush_idle g2.err c2
    simp only [TokioFile.fsyncCut, Bool.false_eq_true, if_false, hf]
  refine ⟨s1, by simp only [SegmentWriter.syncCut, hs1]; rw [show s1.dataWriter = s'.dataWriter from rfl, hs2], ?_, ?_, ?_⟩
  · intro disk hi
    exact hi.complete rfl (show fi.inflight.getD [] = [] by simp only [fi, c1, Option.getD_none])
  · exact ⟨by rw [show s1.dataWriter.file.synced = ([] : Bytes) from g2.synced]; exact List.prefix_refl _, by simp, by simp⟩
  · have := g2.content
    simp only [TokioFile.pending, c2, Option.getD_none, List.append_nil] at this
    show s'.dataWriter.file.content ≠ []
    rw [this]
    rintro rfl
    exact absurd (List.prefix_nil.1 hsig) (by decide)

/-- A sync of a segment that was not closed, dropped while it waits for the pending write of the data file: 29 of the 31
bytes were written then, and all of them reach the file. -/
example : ∃ s, SegmentWriter.new .debug .reliable exampleInfo = .ok s ∧
    ((SegmentWriter.syncCut .reliable (runSeg .debug .reliable exampleOps s).2 .dataWrite).map fun s' =>
      (s'.dataWriter.file.content.length, (s'.settle .reliable).dataWriter.file.content.length,
        s'.indexWriter.file.synced.length)) = some (29, 31, 12) := by
  refine exists_ok ?_
  decide +kernel

end Meerkat
