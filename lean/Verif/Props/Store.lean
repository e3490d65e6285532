import Verif.Model.Store
import Verif.Proofs.Grows
import Verif.Props.Segment
import Verif.Props.SegmentName

set_option autoImplicit false

/-! # Segments in one directory: C61, C62 -/

namespace Meerkat

open Store

/-! ## The directory -/

theorem Dir.set_other {dir : Dir} {name n : List Char} (file : Bytes) (h : n ≠ name) : dir.set name file n = dir n := by
  simp [Dir.set, h]

theorem Dir.set_same (dir : Dir) (name : List Char) (file : Bytes) : dir.set name file name = some file := by
  simp [Dir.set]

theorem Dir.track_other {dir : Dir} {name n : List Char} (f f' : TokioFile) (h : n ≠ name) :
    dir.track name f f' n = dir n := by
  simp only [Dir.track]
  cases hd : dir name with
  | none => rfl
  | some file => exact Dir.set_other _ h

theorem Dir.overwrite_end (file bs : Bytes) : Dir.overwrite file file.length bs = file ++ bs := by
  simp only [Dir.overwrite]
  split
  · simp [*]
  · simp

theorem Dir.track_same {dir : Dir} {name : List Char} {f f' : TokioFile} (h : dir name = some f.content)
    (hg : f.content <+: f'.content) : dir.track name f f' name = some f'.content := by
  obtain ⟨t, ht⟩ := hg
  simp only [Dir.track, h, Dir.set_same]
  rw [← ht, List.drop_left, Dir.overwrite_end]

theorem names_ne (id id' : Bytes) : dataFileName id ≠ indexFileName id' := by
  intro h
  exact absurd (List.append_inj_right' h rfl) (by decide)

theorem trackSegment_other {dir : Dir} {id : Bytes} (s s' : SegmentWriter) {n : List Char}
    (h1 : n ≠ dataFileName id) (h2 : n ≠ indexFileName id) : trackSegment dir id s s' n = dir n := by
  rw [trackSegment, Dir.track_other _ _ h1, Dir.track_other _ _ h2]

/-- The directory has both files of a segment as its writers left them. -/
def HasFiles (dir : Dir) (id : Bytes) (s : SegmentWriter) : Prop :=
  dir (dataFileName id) = some s.dataWriter.file.content ∧ dir (indexFileName id) = some s.indexWriter.file.content

theorem trackSegment_same {dir : Dir} {id : Bytes} {s s' : SegmentWriter} (h : HasFiles dir id s)
    (hc : s.Continues s') : HasFiles (trackSegment dir id s s') id s' := by
  refine ⟨Dir.track_same ?_ hc.1, ?_⟩
  · rw [Dir.track_other _ _ (names_ne id id)]; exact h.1
  · rw [trackSegment, Dir.track_other _ _ (names_ne id id).symm]; exact Dir.track_same h.2 hc.2

/-- Files of other segments stay. -/
theorem HasFiles.other {dir dir' : Dir} {id id' : Bytes} {s : SegmentWriter} (h : HasFiles dir id s) (hne : id ≠ id')
    (hl : id.length = 16) (hl' : id'.length = 16)
    (hd : ∀ n, n ≠ dataFileName id' → n ≠ indexFileName id' → dir' n = dir n) : HasFiles dir' id s := by
  obtain ⟨u1, u2, _⟩ := C50_names_unique id id' hl hl'
  refine ⟨?_, ?_⟩
  · rw [hd _ (fun e => hne (u1 e)) (names_ne _ _)]; exact h.1
  · rw [hd _ (names_ne _ _).symm (fun e => hne (u2 e))]; exact h.2

theorem createSegment_other (p : Profile) (os : SegmentOs) (info : SegmentInfo) (dir : Dir) {n : List Char}
    (h1 : n ≠ dataFileName info.segmentId) (h2 : n ≠ indexFileName info.segmentId) :
    (createSegment p os info dir).2 n = dir n := by
  simp only [createSegment]
  split
  · rfl
  · split
    · exact Dir.set_other _ h2
    · split
      · dsimp only; rw [trackSegment_other _ _ h1 h2, Dir.set_other _ h1, Dir.set_other _ h2]
      · dsimp only; rw [trackSegment_other _ _ h1 h2, Dir.set_other _ h1, Dir.set_other _ h2]

/-- The result of creating a segment does not depend on the directory. -/
theorem createSegment_new (p : Profile) (os : SegmentOs) (info : SegmentInfo) (dir : Dir) :
    (createSegment p os info dir).1 = SegmentWriter.new p os info := by
  simp only [createSegment, SegmentWriter.new]
  rcases h1 : Writer.new os.index with e | iw
  · rfl
  · rcases h2 : Writer.new os.data with e | dw
    · rfl
    · simp only [ok_bind]
      rcases h3 : SegmentWriter.writeHeaders p os (SegmentWriter.initial info dw iw) with ⟨e | u, s⟩ <;> rfl

theorem new_content {os : Os} {w : Writer} (h : Writer.new os = .ok w) : w.file.content = [] := by
  simp only [Writer.new, TokioFile.create] at h
  split at h
  · rename_i heq; split at heq <;> cases heq; cases h; rfl
  · cases h

theorem createSegment_same {p : Profile} {os : SegmentOs} {info : SegmentInfo} {dir dir' : Dir} {s : SegmentWriter}
    (h : createSegment p os info dir = (.ok s, dir')) : HasFiles dir' info.segmentId s := by
  simp only [createSegment] at h
  split at h
  · cases h
  · rename_i iw hiw
    split at h
    · cases h
    · rename_i dw hdw
      split at h
      · rename_i s' hs
        cases h
        refine trackSegment_same ⟨?_, ?_⟩ ?_
        · rw [Dir.set_same]; exact congrArg some (new_content hdw).symm
        · rw [Dir.set_other _ (names_ne _ _).symm, Dir.set_same]; exact congrArg some (new_content hiw).symm
        · have := writeHeaders_continues p os (SegmentWriter.initial info dw iw)
          rw [hs] at this
          exact this
      · cases h

/-! ## C61 -/

/-- The ids of the segments a history tries to create. -/
def createdIds : List Store.Op → List Bytes
  | [] => []
  | .create info _ :: ops => info.segmentId :: createdIds ops
  | _ :: ops => createdIds ops

/-- What becomes of the segment with number `i` if only its own operations are done. -/
def aloneFrom (p : Profile) (os : SegmentOs) (i : Nat) : List Store.Op → SegmentWriter → SegmentWriter
  | [], s => s
  | .create _ _ :: ops, s => aloneFrom p os i ops s
  | .on j op :: ops, s => if j = i then aloneFrom p os i ops (op.run p os s).2 else aloneFrom p os i ops s
  | .sync j :: ops, s => if j = i then (SegmentWriter.sync os s).2 else aloneFrom p os i ops s

/-- The segments open in a store, apart from number `i`, have 16 byte ids other than `id`. -/
def OthersDiffer (t : Store) (i : Nat) (id : Bytes) : Prop :=
  ∀ j g, j ≠ i → t.segments[j]? = some (some g) → g.id.length = 16 ∧ g.id ≠ id

theorem getElem?_set_some {α : Type} {l : List α} {i j : Nat} {x y : α} (h : (l.set i x)[j]? = some y) :
    (j = i ∧ y = x) ∨ (j ≠ i ∧ l[j]? = some y) := by
  by_cases hij : j = i
  · subst hij
    rw [List.getElem?_set_self'] at h
    cases hl : l[j]? with
    | none => rw [hl] at h; cases h
    | some z => rw [hl] at h; cases h; exact .inl ⟨rfl, rfl⟩
  · rw [List.getElem?_set_ne (fun e => hij e.symm)] at h
    exact .inr ⟨hij, h⟩

/-- One operation and the files of a segment: those of other segments do not touch them. -/
theorem run_step (p : Profile) (op : Store.Op) {t : Store} {i : Nat} {id : Bytes} (hid : id.length = 16)
    (ho : OthersDiffer t i id) (hi : i < t.segments.length)
    (hc : ∀ x ∈ createdIds [op], x.length = 16 ∧ x ≠ id) :
    OthersDiffer (run p op t) i id ∧ i < (run p op t).segments.length ∧
    (t.segments[i]? = some none → (run p op t).segments[i]? = some none ∧
      ∀ s, HasFiles t.dir id s → HasFiles (run p op t).dir id s) ∧
    ∀ g, t.segments[i]? = some (some g) → g.id = id → HasFiles t.dir id g.writer →
      ((∃ s, op = .sync i ∧ s = (SegmentWriter.sync g.os g.writer).2 ∧ (run p op t).segments[i]? = some none ∧
        HasFiles (run p op t).dir id s) ∨
       (op ≠ .sync i ∧ ∃ s, s = aloneFrom p g.os i [op] g.writer ∧
        (run p op t).segments[i]? = some (some { g with writer := s }) ∧ HasFiles (run p op t).dir id s)) := by
  cases op with
  | create info os =>
    obtain ⟨c1, c2⟩ := hc info.segmentId (by simp [createdIds])
    have hdir : ∀ s, HasFiles t.dir id s → HasFiles (createSegment p os info t.dir).2 id s := fun s hs =>
      hs.other (fun e => c2 e.symm) hid c1 (fun n => createSegment_other p os info t.dir)
    rcases h : createSegment p os info t.dir with ⟨e | w, dir⟩
    · rw [h] at hdir
      have hr : run p (.create info os) t = { t with dir := dir } := by simp only [run, h]
      rw [hr]
      exact ⟨ho, hi, fun hn => ⟨hn, hdir⟩, fun g hg _ hf => .inr ⟨(fun e => by cases e), _, rfl, hg, hdir _ hf⟩⟩
    · rw [h] at hdir
      have hr : run p (.create info os) t =
          { dir := dir, segments := t.segments ++ [some { id := info.segmentId, os := os, writer := w }] } := by
        simp only [run, h]
      rw [hr]
      refine ⟨?_, by simp only [List.length_append]; omega, fun hn => ⟨?_, hdir⟩, fun g hg _ hf => .inr ⟨(fun e => by cases e), _, rfl, ?_, hdir _ hf⟩⟩
      · intro j g hj hg
        simp only [List.getElem?_append] at hg
        split at hg
        · exact ho j g hj hg
        · rename_i hlt
          have : j - t.segments.length = 0 := by
            rcases Nat.eq_zero_or_pos (j - t.segments.length) with h | h
            · exact h
            · rw [List.getElem?_eq_none (by simp only [List.length_cons, List.length_nil]; omega)] at hg; cases hg
          rw [this] at hg
          cases hg
          exact ⟨c1, c2⟩
      · simp only [List.getElem?_append_left hi]; exact hn
      · simp only [List.getElem?_append_left hi]; exact hg
  | on j op =>
    cases hj : t.segments[j]? with
    | none =>
      have hr : run p (.on j op) t = t := by simp only [run, hj]
      have hji : j ≠ i := by
        rintro rfl; rw [List.getElem?_eq_none_iff] at hj; omega
      rw [hr]
      exact ⟨ho, hi, fun hn => ⟨hn, fun _ h => h⟩, fun g hg _ hf => .inr ⟨(fun e => by cases e), g.writer, by
        simp [aloneFrom, hji], hg, hf⟩⟩
    | some x =>
      cases x with
      | none =>
        have hr : run p (.on j op) t = t := by simp only [run, hj]
        rw [hr]
        refine ⟨ho, hi, fun hn => ⟨hn, fun _ h => h⟩, fun g hg _ hf => .inr ⟨(fun e => by cases e), g.writer, ?_, hg, hf⟩⟩
        have hji : j ≠ i := by rintro rfl; rw [hg] at hj; cases hj
        simp [aloneFrom, hji]
      | some g' =>
        have hr : run p (.on j op) t =
            { dir := trackSegment t.dir g'.id g'.writer (op.run p g'.os g'.writer).2,
              segments := t.segments.set j (some { g' with writer := (op.run p g'.os g'.writer).2 }) } := by
          simp only [run, hj]
        rw [hr]
        refine ⟨?_, by simpa using hi, ?_, ?_⟩
        · intro k g hk hg
          rcases getElem?_set_some hg with ⟨rfl, h2⟩ | ⟨_, h2⟩
          · cases h2; exact ho k g' hk hj
          · exact ho k g hk h2
        · intro hn
          have hji : j ≠ i := by rintro rfl; rw [hn] at hj; cases hj
          obtain ⟨d1, d2⟩ := ho j g' hji hj
          refine ⟨by rw [List.getElem?_set_ne hji]; exact hn, fun s hs => ?_⟩
          exact hs.other (fun e => d2 e.symm) hid d1 (fun n h1 h2 => trackSegment_other _ _ h1 h2)
        · intro g hg hgid hf
          refine .inr ⟨(fun e => by cases e), _, rfl, ?_⟩
          by_cases hji : j = i
          · subst hji
            rw [hj] at hg
            cases hg
            refine ⟨by rw [List.getElem?_set_self hi]; simp [aloneFrom], ?_⟩
            rw [hgid]
            simpa [aloneFrom] using trackSegment_same hf (segOp_continues p g'.os op g'.writer)
          · obtain ⟨d1, d2⟩ := ho j g' hji hj
            refine ⟨by rw [List.getElem?_set_ne hji, hg]; simp [aloneFrom, hji], ?_⟩
            simp only [aloneFrom, if_neg hji]
            exact hf.other (fun e => d2 e.symm) hid d1 (fun n h1 h2 => trackSegment_other _ _ h1 h2)
  | sync j =>
    cases hj : t.segments[j]? with
    | none =>
      have hr : run p (.sync j) t = t := by simp only [run, hj]
      have hji : j ≠ i := by
        rintro rfl; rw [List.getElem?_eq_none_iff] at hj; omega
      rw [hr]
      exact ⟨ho, hi, fun hn => ⟨hn, fun _ h => h⟩, fun g hg _ hf => .inr ⟨(fun e => by cases e; exact hji rfl), g.writer, by
        simp [aloneFrom, hji], hg, hf⟩⟩
    | some x =>
      cases x with
      | none =>
        have hr : run p (.sync j) t = t := by simp only [run, hj]
        rw [hr]
        refine ⟨ho, hi, fun hn => ⟨hn, fun _ h => h⟩, fun g hg _ hf => ?_⟩
        have hji : j ≠ i := by rintro rfl; rw [hg] at hj; cases hj
        exact .inr ⟨(fun e => by cases e; exact hji rfl), g.writer, by simp [aloneFrom, hji], hg, hf⟩
      | some g' =>
        have hr : run p (.sync j) t =
            { dir := trackSegment t.dir g'.id g'.writer (SegmentWriter.sync g'.os g'.writer).2,
              segments := t.segments.set j none } := by
          simp only [run, hj]
        rw [hr]
        refine ⟨?_, by simpa using hi, ?_, ?_⟩
        · intro k g hk hg
          rcases getElem?_set_some hg with ⟨rfl, h2⟩ | ⟨_, h2⟩
          · cases h2
          · exact ho k g hk h2
        · intro hn
          have hji : j ≠ i := by rintro rfl; rw [hn] at hj; cases hj
          obtain ⟨d1, d2⟩ := ho j g' hji hj
          refine ⟨by rw [List.getElem?_set_ne hji]; exact hn, fun s hs => ?_⟩
          exact hs.other (fun e => d2 e.symm) hid d1 (fun n h1 h2 => trackSegment_other _ _ h1 h2)
        · intro g hg hgid hf
          by_cases hji : j = i
          · subst hji
            rw [hj] at hg
            cases hg
            refine .inl ⟨_, rfl, rfl, by rw [List.getElem?_set_self hi], ?_⟩
            rw [hgid]
            exact trackSegment_same hf (sync_continues g'.os g'.writer)
          · obtain ⟨d1, d2⟩ := ho j g' hji hj
            refine .inr ⟨(fun e => by cases e; exact hji rfl), _, rfl, by rw [List.getElem?_set_ne hji, hg]; simp [aloneFrom, hji], ?_⟩
            simp only [aloneFrom, if_neg hji]
            exact hf.other (fun e => d2 e.symm) hid d1 (fun n h1 h2 => trackSegment_other _ _ h1 h2)

theorem createdIds_cons (op : Store.Op) (ops : List Store.Op) : createdIds (op :: ops) = createdIds [op] ++ createdIds ops := by
  cases op <;> rfl

/-- Once synced, the files stay as they are. -/
theorem runAll_synced (p : Profile) (ops : List Store.Op) {t : Store} {i : Nat} {id : Bytes} (hid : id.length = 16)
    (ho : OthersDiffer t i id) (hi : t.segments[i]? = some none) (hc : ∀ x ∈ createdIds ops, x.length = 16 ∧ x ≠ id)
    {s : SegmentWriter} (hs : HasFiles t.dir id s) : HasFiles (runAll p ops t).dir id s := by
  induction ops generalizing t with
  | nil => exact hs
  | cons op ops ih =>
    rw [createdIds_cons] at hc
    have hlt : i < t.segments.length := by
      rw [List.getElem?_eq_some_iff] at hi; exact hi.1
    obtain ⟨h1, _, h3, _⟩ := run_step p op hid ho hlt (fun x hx => hc x (by simp [hx]))
    obtain ⟨h4, h5⟩ := h3 hi
    exact ih h1 h4 (fun x hx => hc x (by simp [hx])) (h5 s hs)

/-- The files of an open segment develop as if there was no other segment. -/
theorem runAll_alone (p : Profile) (ops : List Store.Op) {t : Store} {i : Nat} {g : OpenSegment} (hid : g.id.length = 16)
    (ho : OthersDiffer t i g.id) (hi : t.segments[i]? = some (some g))
    (hc : ∀ x ∈ createdIds ops, x.length = 16 ∧ x ≠ g.id) (hs : HasFiles t.dir g.id g.writer) :
    HasFiles (runAll p ops t).dir g.id (aloneFrom p g.os i ops g.writer) := by
  induction ops generalizing t g with
  | nil => exact hs
  | cons op ops ih =>
    rw [createdIds_cons] at hc
    have hlt : i < t.segments.length := by
      rw [List.getElem?_eq_some_iff] at hi; exact hi.1
    obtain ⟨h1, _, _, h4⟩ := run_step p op hid ho hlt (fun x hx => hc x (by simp [hx]))
    rcases h4 g hi rfl hs with ⟨s, rfl, rfl, h5, h6⟩ | ⟨hne, s, rfl, h5, h6⟩
    · have := runAll_synced p ops hid h1 h5 (fun x hx => hc x (by simp [hx])) h6
      simpa [aloneFrom, runAll] using this
    · have := ih (g := { g with writer := aloneFrom p g.os i [op] g.writer }) hid h1 h5
        (fun x hx => hc x (by simp [hx])) h6
      have hstep : aloneFrom p g.os i (op :: ops) g.writer =
          aloneFrom p g.os i ops (aloneFrom p g.os i [op] g.writer) := by
        cases op with
        | create info os => rfl
        | on j op => by_cases hji : j = i <;> simp [aloneFrom, hji]
        | sync j =>
          have hji : j ≠ i := fun e => hne (by rw [e])
          simp [aloneFrom, hji]
      rw [hstep]
      exact this

/-- The ids of open segments are among those created. -/
theorem runAll_ids (p : Profile) (ops : List Store.Op) {t : Store} (ids : List Bytes)
    (ht : ∀ (j : Nat) (g : OpenSegment), t.segments[j]? = some (some g) → g.id ∈ ids) :
    ∀ (j : Nat) (g : OpenSegment), (runAll p ops t).segments[j]? = some (some g) → g.id ∈ ids ++ createdIds ops := by
  induction ops generalizing t ids with
  | nil => intro j g h; simpa [createdIds] using ht j g h
  | cons op ops ih =>
    have key : ∀ (j : Nat) (g : OpenSegment), (run p op t).segments[j]? = some (some g) → g.id ∈ ids ++ createdIds [op] := by
      intro j g hg
      cases op with
      | create info os =>
        simp only [run] at hg
        rcases h : createSegment p os info t.dir with ⟨e | w, dir⟩
        · simp only [h] at hg
          exact List.mem_append_left _ (ht j g hg)
        · simp only [h, List.getElem?_append] at hg
          split at hg
          · exact List.mem_append_left _ (ht j g hg)
          · have : j - t.segments.length = 0 := by
              rcases Nat.eq_zero_or_pos (j - t.segments.length) with h | h
              · exact h
              · rw [List.getElem?_eq_none (by simp only [List.length_cons, List.length_nil]; omega)] at hg; cases hg
            rw [this] at hg
            cases hg
            simp [createdIds]
      | on i op =>
        simp only [run] at hg
        split at hg
        · rename_i g' hg'
          rcases getElem?_set_some hg with ⟨rfl, h2⟩ | ⟨_, h2⟩
          · cases h2; exact List.mem_append_left _ (ht j g' hg')
          · exact List.mem_append_left _ (ht j g h2)
        · exact List.mem_append_left _ (ht j g hg)
      | sync i =>
        simp only [run] at hg
        split at hg
        · rename_i g' hg'
          rcases getElem?_set_some hg with ⟨rfl, h2⟩ | ⟨_, h2⟩
          · cases h2
          · exact List.mem_append_left _ (ht j g h2)
        · exact List.mem_append_left _ (ht j g hg)
    have := ih _ key
    rw [createdIds_cons, ← List.append_assoc]
    exact this

/-- **C61.** Segments written in one directory, in any interleaving and with any failures, do not disturb each other: if
the id of a segment is not used again, then at the end of any history its two files hold exactly what they
would hold if only its own operations had been done. -/
theorem C61_segments_do_not_interfere (p : Profile) (dir : Dir) (before after : List Store.Op) (info : SegmentInfo)
    (os : SegmentOs) (s : SegmentWriter) (hnew : SegmentWriter.new p os info = .ok s)
    (h16 : ∀ x ∈ createdIds (before ++ [.create info os] ++ after), x.length = 16)
    (hid : info.segmentId ∉ createdIds before ++ createdIds after) :
    let number := (runAll p before { dir := dir, segments := [] }).segments.length
    let final := runAll p (before ++ [.create info os] ++ after) { dir := dir, segments := [] }
    let alone := aloneFrom p os number after s
    final.dir (dataFileName info.segmentId) = some alone.dataWriter.file.content ∧
    final.dir (indexFileName info.segmentId) = some alone.indexWriter.file.content := by
  have happ : ∀ a b, createdIds (a ++ b) = createdIds a ++ createdIds b := by
    intro a b
    induction a with
    | nil => rfl
    | cons x a ih => rw [List.cons_append, createdIds_cons, ih, createdIds_cons x a, List.append_assoc]
  rw [happ, happ] at h16
  intro number final alone
  obtain ⟨t, ht⟩ : ∃ t, t = runAll p before { dir := dir, segments := [] } := ⟨_, rfl⟩
  have hids := runAll_ids p before (t := { dir := dir, segments := [] }) [] (by simp)
  rw [← ht] at hids
  have hl : info.segmentId.length = 16 := h16 _ (by simp [createdIds])
  rcases hc : createSegment p os info t.dir with ⟨r, dir'⟩
  have hr := createSegment_new p os info t.dir
  rw [hc, hnew] at hr
  dsimp only at hr
  subst hr
  have hrun : run p (.create info os) t =
      { dir := dir', segments := t.segments ++ [some { id := info.segmentId, os := os, writer := s }] } := by
    simp only [run, hc]
  have hfinal : final = runAll p after (run p (.create info os) t) := by
    simp only [final, runAll, List.foldl_append, List.foldl_cons, List.foldl_nil]
    rw [ht]; rfl
  have hn : number = t.segments.length := by rw [ht]
  have := runAll_alone p after (t := run p (.create info os) t) (i := number)
    (g := { id := info.segmentId, os := os, writer := s }) hl ?_ (by rw [hrun, hn]; simp)
    (fun x hx => ⟨h16 x (by simp [hx]), fun (e : x = info.segmentId) => hid (by rw [← e]; simp [hx])⟩)
    (by rw [hrun]; exact createSegment_same hc)
  · rw [hfinal]; exact this
  · intro j g hj hg
    rw [hrun] at hg
    simp only [List.getElem?_append] at hg
    split at hg
    · have hm := hids j g hg
      rw [List.nil_append] at hm
      exact ⟨h16 _ (by simp [hm]), fun (e : g.id = info.segmentId) => hid (by rw [← e]; simp [hm])⟩
    · rename_i hlt
      rw [List.getElem?_eq_none (by simp only [List.length_cons, List.length_nil]; omega)] at hg
      cases hg

/-! ## C62 -/

/-- C62 as far as it holds: creating a segment, successfully or not, changes no file but the two named after its id. -/
theorem C62_create_keeps_others_partial (p : Profile) (os : SegmentOs) (info : SegmentInfo) (dir : Dir) (n : List Char)
    (h1 : n ≠ dataFileName info.segmentId) (h2 : n ≠ indexFileName info.segmentId) :
    (createSegment p os info dir).2 n = dir n := createSegment_other p os info dir h1 h2

/-- C62 is false of the code: if there already is a segment with the same id, `SegmentWriter::new` reports nothing and
destroys it. Both files are then as short as those of a segment just created, whatever they held. And if the data file cannot be
opened, the call fails, but the index file is already empty. -/
theorem C62_create_destroys_violated (p : Profile) (os : SegmentOs) (info : SegmentInfo) (dir : Dir) :
    (∀ s, SegmentWriter.new p os info = .ok s →
      ∃ data index, (createSegment p os info dir).1 = .ok s ∧
        (createSegment p os info dir).2 (dataFileName info.segmentId) = some data ∧ data.length ≤ 13 ∧
        (createSegment p os info dir).2 (indexFileName info.segmentId) = some index ∧ index.length ≤ 12) ∧
    (os.index.creates = true → os.data.creates = false →
      (createSegment p os info dir).1 = .error .io ∧
      (createSegment p os info dir).2 (indexFileName info.segmentId) = some [] ∧
      (createSegment p os info dir).2 (dataFileName info.segmentId) = dir (dataFileName info.segmentId)) := by
  constructor
  · intro s hs
    have h1 := createSegment_new p os info dir
    rw [hs] at h1
    rcases h2 : createSegment p os info dir with ⟨r, dir'⟩
    rw [h2] at h1
    dsimp only at h1
    subst h1
    obtain ⟨h3, h4⟩ := createSegment_same h2
    obtain ⟨g1, g2, _⟩ := new_ok hs
    have l1 := congrArg List.length g2.content
    have l2 := congrArg List.length g1.content
    rw [List.length_append] at l1 l2
    have e1 : DATA_FILE_SIGNATURE.length = 13 := rfl
    have e2 : INDEX_FILE_SIGNATURE.length = 12 := rfl
    exact ⟨_, _, rfl, h3, by omega, h4, by omega⟩
  · intro hi hd
    simp only [createSegment, Writer.new, TokioFile.create, hi, hd, if_true, Bool.false_eq_true, if_false]
    exact ⟨trivial, Dir.set_same _ _ _, Dir.set_other _ (names_ne _ _)⟩

/-- Two segments written in turn, and the first id used again. -/
def exampleStore : List Store.Op :=
  [.create exampleInfo .reliable,
   .create { exampleInfo with segmentId := List.replicate 16 8 } .reliable,
   .on 0 (.column (exampleColumn "a") [.write exampleBuffer, .close]),
   .on 1 (.column (exampleColumn "b") [.close]),
   .on 0 (.close .insertion), .sync 0, .on 1 (.close .insertion)]

/-- The first segment is complete, and its data file holds its column; creating it again leaves nothing of it. -/
example : exampleInfo.segmentId ≠ List.replicate 16 8 ∧ exampleInfo.segmentId.length = 16 ∧
    let t := runAll .debug exampleStore { dir := fun _ => none, segments := [] }
    t.dir (dataFileName exampleInfo.segmentId) = some (DATA_FILE_SIGNATURE ++ [3, 120, 121, 122, 2, 2]) ∧
    t.dir (dataFileName (List.replicate 16 8)) = some DATA_FILE_SIGNATURE ∧
    (runAll .debug [.create exampleInfo .reliable] t).dir (dataFileName exampleInfo.segmentId) =
      some (DATA_FILE_SIGNATURE.take 12) := by
  decide +kernel

end Meerkat
