import Verif.Spec.DirCrash
import Verif.Props.Crash
import Verif.Props.SegmentName

set_option autoImplicit false

/-! # The names of the files after a crash: C103 -/

namespace Meerkat

/-- A synced file, exactly: it is there with all its bytes, or, if the file system does not keep the name, not at all. -/
theorem NameAfterCrash.synced {keeps : Bool} {f : TokioFile} {found : Option Bytes} (hs : f.synced = f.content)
    (hp : f.pending = []) (hne : f.content ≠ []) :
    NameAfterCrash keeps f found ↔ found = some f.content ∨ (keeps = false ∧ found = none) := by
  constructor
  · rintro (⟨h1, h2⟩ | ⟨disk, h1, h2⟩)
    · refine .inr ⟨?_, h1⟩
      cases keeps with
      | false => rfl
      | true => exact absurd ⟨rfl, by rw [hs]; exact hne⟩ h2
    · exact .inl (by rw [h1, h2.complete hs hp])
  · rintro (h | ⟨h1, h2⟩)
    · refine .inr ⟨_, h, by rw [hs]; exact List.prefix_refl _, by rw [hp, List.append_nil]; exact Nat.le_refl _, fun i _ => .inl ?_⟩
      rw [hp, List.append_nil]
    · exact .inl ⟨h2, by simp [h1]⟩

/-- The files of a closed segment are not empty. -/
theorem closed_nonempty {p : Profile} {os : SegmentOs} {info : SegmentInfo} {s s' : SegmentWriter}
    (hnew : SegmentWriter.new p os info = .ok s) {ops : List SegOp} {order : HashOrder} {results : List SegResult}
    (hrun : runSeg p os (ops ++ [.close order]) s = (results, s')) (hgood : ∀ x ∈ results, x.Good) :
    s'.indexWriter.file.content ≠ [] ∧ s'.dataWriter.file.content ≠ [] := by
  obtain ⟨_, _, _, _, _, c1, c2⟩ := closed_state hnew hrun hgood
  obtain ⟨g1, g2, _⟩ := new_ok hnew
  obtain ⟨g3, more, g4⟩ := runSeg_data (p := p) (os := os) _ (s := s) (by rw [hrun]; exact hgood) g2 g1
  rw [hrun] at g3 g4
  have h3 := g3.content
  have h4 := g4.content
  simp only [TokioFile.pending, c1, c2, Option.getD_none, List.append_nil] at h3 h4
  rw [h3, h4]
  exact ⟨List.append_ne_nil_of_left_ne_nil (by decide) _, List.append_ne_nil_of_left_ne_nil (by decide) _⟩

/-- C103, exactly: after a segment was closed and synced without an error, a crash leaves in its directory what was there before and,
independently of each other, each of its two files with all its bytes or not at all; the latter only if the file system does not keep the
names of synced files. -/
theorem C103_found_exact (p : Profile) (keeps : Bool) (os : SegmentOs) (info : SegmentInfo) (dir : Dir)
    (s s' s'' : SegmentWriter) (hnew : SegmentWriter.new p os info = .ok s) (ops : List SegOp) (order : HashOrder) (results : List SegResult)
    (hrun : runSeg p os (ops ++ [.close order]) s = (results, s')) (hgood : ∀ x ∈ results, x.Good)
    (hsync : SegmentWriter.sync os s' = (.ok (), s'')) (found : Dir) :
    DirAfterCrash keeps dir info.segmentId s'' found ↔
      (∀ name, name ≠ indexFileName info.segmentId → name ≠ dataFileName info.segmentId → found name = dir name) ∧
      (found (indexFileName info.segmentId) = some s'.indexWriter.file.content ∨
        (keeps = false ∧ found (indexFileName info.segmentId) = none)) ∧
      (found (dataFileName info.segmentId) = some s'.dataWriter.file.content ∨
        (keeps = false ∧ found (dataFileName info.segmentId) = none)) := by
  obtain ⟨⟨i1, i2, i3⟩, d1, d2, d3⟩ := synced_state hnew hrun hgood hsync
  obtain ⟨n1, n2⟩ := closed_nonempty hnew hrun hgood
  have hi := fun found => NameAfterCrash.synced (keeps := keeps) (found := found) (by rw [i3, i1]) i2 (by rw [i1]; exact n1)
  have hd := fun found => NameAfterCrash.synced (keeps := keeps) (found := found) (by rw [d3, d1]) d2 (by rw [d1]; exact n2)
  constructor
  · rintro ⟨h1, h2, h3⟩
    rw [hi, i1] at h2
    rw [hd, d1] at h3
    exact ⟨h1, h2, h3⟩
  · rintro ⟨h1, h2, h3⟩
    refine ⟨h1, ?_, ?_⟩
    · rw [hi, i1]; exact h2
    · rw [hd, d1]; exact h3

/-- C103 as far as it holds: if the file system keeps the names of synced files, both files are there and complete. -/
theorem C103_found_partial (p : Profile) (os : SegmentOs) (info : SegmentInfo) (dir : Dir)
    (s s' s'' : SegmentWriter) (hnew : SegmentWriter.new p os info = .ok s) (ops : List SegOp) (order : HashOrder) (results : List SegResult)
    (hrun : runSeg p os (ops ++ [.close order]) s = (results, s')) (hgood : ∀ x ∈ results, x.Good)
    (hsync : SegmentWriter.sync os s' = (.ok (), s'')) (found : Dir)
    (hfound : DirAfterCrash true dir info.segmentId s'' found) :
    found (indexFileName info.segmentId) = some s'.indexWriter.file.content ∧
    found (dataFileName info.segmentId) = some s'.dataWriter.file.content := by
  obtain ⟨-, h2, h3⟩ := (C103_found_exact p true os info dir s s' s'' hnew ops order results hrun hgood hsync found).1 hfound
  simpa using And.intro h2 h3

/-- C103 is false of the code for every segment: though every call and the sync succeeded, the crash may leave neither file,
or an index file that is complete and no data file, or a data file that no index file describes. -/
theorem C103_found_violated (p : Profile) (os : SegmentOs) (info : SegmentInfo) (hid : info.segmentId.length = 16)
    (dir : Dir) (hi : dir (indexFileName info.segmentId) = none) (hd : dir (dataFileName info.segmentId) = none)
    (s s' s'' : SegmentWriter)
    (hnew : SegmentWriter.new p os info = .ok s) (ops : List SegOp) (order : HashOrder) (results : List SegResult)
    (hrun : runSeg p os (ops ++ [.close order]) s = (results, s')) (hgood : ∀ x ∈ results, x.Good)
    (hsync : SegmentWriter.sync os s' = (.ok (), s'')) :
    DirAfterCrash false dir info.segmentId s'' dir ∧
    DirAfterCrash false dir info.segmentId s'' (dir.set (indexFileName info.segmentId) s'.indexWriter.file.content) ∧
    DirAfterCrash false dir info.segmentId s'' (dir.set (dataFileName info.segmentId) s'.dataWriter.file.content) := by
  have hne : dataFileName info.segmentId ≠ indexFileName info.segmentId := (C50_names_unique _ _ hid hid).2.2
  have key := C103_found_exact p false os info dir s s' s'' hnew ops order results hrun hgood hsync
  refine ⟨(key _).2 ⟨fun _ _ _ => rfl, .inr ⟨rfl, hi⟩, .inr ⟨rfl, hd⟩⟩, (key _).2 ⟨fun _ h _ => if_neg h, .inl (if_pos rfl), .inr ⟨rfl, ?_⟩⟩,
    (key _).2 ⟨fun _ _ h => if_neg h, .inr ⟨rfl, ?_⟩, .inl (if_pos rfl)⟩⟩
  · rw [Dir.set, if_neg hne]; exact hd
  · rw [Dir.set, if_neg hne.symm]; exact hi

/-! Not vacuous: the segment of C54 can be created, written, closed and synced. -/
example : exampleInfo.segmentId.length = 16 ∧ ∃ s, SegmentWriter.new .debug .reliable exampleInfo = .ok s ∧
    let run := runSeg .debug .reliable (exampleOps ++ [.close .insertion]) s
    (∀ x ∈ run.1, x.Good) ∧ (SegmentWriter.sync .reliable run.2).1 = .ok () := by
  refine ⟨by decide +kernel, exists_ok ?_⟩
  decide +kernel

/-- A file that was not synced may be missing on any file system. -/
example (keeps : Bool) : NameAfterCrash keeps { TokioFile.empty with content := [1, 2] } none :=
  .inl ⟨rfl, by simp [TokioFile.empty]⟩

end Meerkat
