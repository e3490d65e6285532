import Verif.Props.Store

set_option autoImplicit false

/-! # Two segments with the same id (C97) -/

namespace Meerkat

open Store

namespace Spec

/-- A file that was emptied after `start` bytes had been written through one open file, and then written through that
one and a second one, which in the end have written `old` and `new`: it is as long as the farther of the two got; every byte
is the byte one of them wrote there after the file was emptied; and what neither wrote reads as 0. -/
def Mixed (start : Nat) (old new file : Bytes) : Prop :=
  file.length = max new.length (if start < old.length then old.length else 0) ∧
  ∀ k x, file[k]? = some x →
    (start ≤ k ∧ old[k]? = some x) ∨ new[k]? = some x ∨ (x = 0 ∧ new.length ≤ k ∧ k < start)

end Spec

namespace SameId

open Spec

theorem overwrite_length {file bs : Bytes} (off : Nat) (h : bs ≠ []) :
    (Dir.overwrite file off bs).length = max file.length (off + bs.length) := by
  simp only [Dir.overwrite, if_neg h, List.length_append, List.length_take, List.length_replicate, List.length_drop]
  omega

theorem overwrite_get {file bs : Bytes} (off k : Nat) (h : bs ≠ []) :
    (Dir.overwrite file off bs)[k]? =
      if k < off then (if k < file.length then file[k]? else some 0)
      else if k < off + bs.length then bs[k - off]? else file[k]? := by
  have hl : ((file ++ List.replicate (off - file.length) 0).take off).length = off := by
    simp only [List.length_take, List.length_append, List.length_replicate]; omega
  simp only [Dir.overwrite, if_neg h, List.append_assoc]
  rw [List.getElem?_append, hl]
  split
  · rename_i hk
    rw [List.getElem?_take, if_pos hk, List.getElem?_append]
    split
    · rfl
    · rw [List.getElem?_replicate, if_pos (by omega)]
  · rw [List.getElem?_append]
    split
    · rw [if_pos (by omega)]
    · rw [if_neg (by omega), List.getElem?_drop]
      congr 1
      omega

theorem Mixed.old {start : Nat} {old new file : Bytes} (h : Mixed start old new file) (hs : start ≤ old.length) (t : Bytes) :
    Mixed start (old ++ t) new (Dir.overwrite file old.length t) := by
  by_cases ht : t = []
  · subst ht; rw [List.append_nil]; simpa [Dir.overwrite] using h
  have htl := List.length_pos_iff.2 ht
  obtain ⟨h1, h2⟩ := h
  refine ⟨?_, fun k x hx => ?_⟩
  · rw [overwrite_length _ ht, h1, List.length_append, if_pos (show start < old.length + t.length by omega)]
    split <;> omega
  · rw [overwrite_get _ _ ht] at hx
    rw [List.getElem?_append]
    split at hx
    · rename_i hk
      rw [if_pos hk]
      split at hx
      · exact h2 k x hx
      · rename_i hf
        by_cases hst : start < old.length
        · rw [if_pos hst] at h1; omega
        · rw [if_neg hst] at h1
          exact .inr (.inr ⟨(Option.some.inj hx).symm, by omega, by omega⟩)
    · rename_i hk
      rw [if_neg hk]
      split at hx
      · exact .inl ⟨by omega, hx⟩
      · rcases h2 k x hx with ⟨_, h⟩ | h | h
        · rw [List.getElem?_eq_none (by omega)] at h; cases h
        · exact .inr (.inl h)
        · exact .inr (.inr h)

theorem Mixed.new {start : Nat} {old new file : Bytes} (h : Mixed start old new file) (t : Bytes) :
    Mixed start old (new ++ t) (Dir.overwrite file new.length t) := by
  by_cases ht : t = []
  · subst ht; rw [List.append_nil]; simpa [Dir.overwrite] using h
  have htl := List.length_pos_iff.2 ht
  obtain ⟨h1, h2⟩ := h
  refine ⟨?_, fun k x hx => ?_⟩
  · rw [overwrite_length _ ht, h1, List.length_append]
    split <;> omega
  · rw [overwrite_get _ _ ht] at hx
    rw [List.getElem?_append, List.length_append]
    split at hx
    · rename_i hk
      have hkf : k < file.length := by rw [h1]; omega
      rw [if_pos hkf] at hx
      rw [if_pos hk]
      rcases h2 k x hx with h | h | h
      · exact .inl h
      · exact .inr (.inl h)
      · omega
    · rename_i hk
      rw [if_neg hk]
      split at hx
      · exact .inr (.inl hx)
      · rcases h2 k x hx with h | h | h
        · exact .inl h
        · rw [List.getElem?_eq_none (by omega)] at h; cases h
        · exact .inr (.inr ⟨h.1, by omega, h.2.2⟩)

/-- Number `i` is the segment, or was. -/
def Slot (t : Store) (i : Nat) (id : Bytes) (os : SegmentOs) (s : SegmentWriter) (done : Bool) : Prop :=
  t.segments[i]? = some (if done then none else some { id := id, os := os, writer := s })

/-- What one operation does to the segment with number `i`. -/
def step (p : Profile) (os : SegmentOs) (i : Nat) (x : SegmentWriter × Bool) (op : Store.Op) : SegmentWriter × Bool :=
  if x.2 then x
  else match op with
    | .create _ _ => x
    | .on j op => if j = i then ((op.run p os x.1).2, false) else x
    | .sync j => if j = i then ((SegmentWriter.sync os x.1).2, true) else x

theorem foldl_done (p : Profile) (os : SegmentOs) (i : Nat) (ops : List Store.Op) (s : SegmentWriter) :
    ops.foldl (step p os i) (s, true) = (s, true) := by
  induction ops with
  | nil => rfl
  | cons op ops ih => rw [List.foldl_cons]; exact ih

theorem foldl_step (p : Profile) (os : SegmentOs) (i : Nat) (ops : List Store.Op) (s : SegmentWriter) :
    (ops.foldl (step p os i) (s, false)).1 = aloneFrom p os i ops s := by
  induction ops generalizing s with
  | nil => rfl
  | cons op ops ih =>
    rw [List.foldl_cons]
    cases op with
    | create info os' => exact ih s
    | on j op =>
      by_cases h : j = i
      · simp only [step, aloneFrom, if_pos h]; exact ih _
      · simp only [step, aloneFrom, if_neg h]; exact ih _
    | sync j =>
      by_cases h : j = i
      · simp only [step, aloneFrom, if_pos h]
        have := foldl_done p os i ops (SegmentWriter.sync os s).2
        exact congrArg Prod.fst this
      · simp only [step, aloneFrom, if_neg h]; exact ih _

theorem step_continues (p : Profile) (os : SegmentOs) (i : Nat) (x : SegmentWriter × Bool) (op : Store.Op) :
    x.1.Continues (step p os i x op).1 := by
  have hrefl : ∀ s : SegmentWriter, s.Continues s := fun s => ⟨List.prefix_refl _, List.prefix_refl _⟩
  simp only [step]
  split
  · exact hrefl _
  · split
    · exact hrefl _
    · split
      · exact segOp_continues p os _ x.1
      · exact hrefl _
    · split
      · exact sync_continues os x.1
      · exact hrefl _

/-- The number of the segment an operation is about. -/
def target : Store.Op → Option Nat
  | .create _ _ => none
  | .on j _ => some j
  | .sync j => some j

/-- The open segments apart from `i` and `j` have other ids. -/
def Others (t : Store) (i j : Nat) (id : Bytes) : Prop :=
  ∀ k g, k ≠ i → k ≠ j → t.segments[k]? = some (some g) → g.id.length = 16 ∧ g.id ≠ id

theorem track_self {dir : Dir} {name : List Char} (f : TokioFile) (n : List Char) : dir.track name f f n = dir n := by
  simp only [Dir.track]
  cases h : dir name with
  | none => rfl
  | some file =>
    rw [List.drop_length]
    simp only [Dir.overwrite, if_true, Dir.set]
    split
    · rename_i e; rw [e, h]
    · rfl

theorem trackSegment_self (dir : Dir) (id : Bytes) (s : SegmentWriter) (n : List Char) : trackSegment dir id s s n = dir n := by
  rw [trackSegment, track_self, track_self]

/-- A segment that is the target of an operation. -/
theorem run_target (p : Profile) (op : Store.Op) {t : Store} {i : Nat} {id : Bytes} {os : SegmentOs} {s : SegmentWriter}
    {done : Bool} (hs : Slot t i id os s done) (hop : target op = some i) :
    Slot (run p op t) i id os (step p os i (s, done) op).1 (step p os i (s, done) op).2 ∧
    (∀ n, (run p op t).dir n = trackSegment t.dir id s (step p os i (s, done) op).1 n) ∧
    (∀ k, k ≠ i → (run p op t).segments[k]? = t.segments[k]?) := by
  have hlt : i < t.segments.length := by
    rw [Slot, List.getElem?_eq_some_iff] at hs; exact hs.1
  cases done with
  | true =>
    have hn : t.segments[i]? = some none := hs
    have hr : run p op t = t := by
      cases op with
      | create info os' => cases hop
      | on j op => cases hop; simp only [run, hn]
      | sync j => cases hop; simp only [run, hn]
    rw [hr]
    exact ⟨hs, fun n => (trackSegment_self _ _ _ _).symm, fun _ _ => rfl⟩
  | false =>
    have hn : t.segments[i]? = some (some { id := id, os := os, writer := s }) := hs
    cases op with
    | create info os' => cases hop
    | on j op =>
      cases hop
      simp only [run, hn, step, Slot, if_true, Bool.false_eq_true, if_false]
      exact ⟨by rw [List.getElem?_set_self hlt], fun _ => trivial, fun k hk => by rw [List.getElem?_set_ne (fun e => hk e.symm)]⟩
    | sync j =>
      cases hop
      simp only [run, hn, step, Slot, if_true, Bool.false_eq_true, if_false]
      exact ⟨by rw [List.getElem?_set_self hlt], fun _ => trivial, fun k hk => by rw [List.getElem?_set_ne (fun e => hk e.symm)]⟩

/-- An operation on a segment changes nothing about the others. -/
theorem step_other {p : Profile} {op : Store.Op} {i : Nat} (hop : target op ≠ some i) (os : SegmentOs)
    (x : SegmentWriter × Bool) : step p os i x op = x := by
  obtain ⟨s, done⟩ := x
  cases done with
  | true => rfl
  | false =>
    cases op with
    | create info os' => rfl
    | on j op =>
      have : j ≠ i := fun e => hop (by rw [target, e])
      simp [step, this]
    | sync j =>
      have : j ≠ i := fun e => hop (by rw [target, e])
      simp [step, this]

/-- Operations on other segments. -/
theorem run_other (p : Profile) (op : Store.Op) {t : Store} {i j : Nat} {id : Bytes} (hid : id.length = 16)
    (ho : Others t i j id) (hi : i < t.segments.length) (hj : j < t.segments.length)
    (hc : ∀ x ∈ createdIds [op], x.length = 16 ∧ x ≠ id)
    (hopi : target op ≠ some i) (hopj : target op ≠ some j) :
    Others (run p op t) i j id ∧
    (∀ n, n = dataFileName id ∨ n = indexFileName id → (run p op t).dir n = t.dir n) ∧
    (run p op t).segments[i]? = t.segments[i]? ∧ (run p op t).segments[j]? = t.segments[j]? := by
  have hdir : ∀ {id'} {dir' : Dir}, id'.length = 16 → id' ≠ id →
      (∀ n, n ≠ dataFileName id' → n ≠ indexFileName id' → dir' n = t.dir n) →
      ∀ n, n = dataFileName id ∨ n = indexFileName id → dir' n = t.dir n := by
    intro id' dir' hl hne hd n hn
    obtain ⟨u1, u2, _⟩ := C50_names_unique id id' hid hl
    rcases hn with rfl | rfl
    · exact hd _ (fun e => hne (u1 e).symm) (names_ne _ _)
    · exact hd _ (names_ne _ _).symm (fun e => hne (u2 e).symm)
  cases op with
  | create info os =>
    obtain ⟨c1, c2⟩ := hc info.segmentId (by simp [createdIds])
    have hd := hdir c1 c2 (fun n => createSegment_other p os info t.dir)
    rcases h : createSegment p os info t.dir with ⟨e | w, dir⟩
    · rw [h] at hd
      have hr : run p (.create info os) t = { t with dir := dir } := by simp only [run, h]
      rw [hr]
      exact ⟨ho, hd, rfl, rfl⟩
    · rw [h] at hd
      have hr : run p (.create info os) t =
          { dir := dir, segments := t.segments ++ [some { id := info.segmentId, os := os, writer := w }] } := by
        simp only [run, h]
      rw [hr]
      refine ⟨?_, hd, List.getElem?_append_left hi, List.getElem?_append_left hj⟩
      intro k g hki hkj hg
      simp only [List.getElem?_append] at hg
      split at hg
      · exact ho k g hki hkj hg
      · rename_i hlt
        have : k - t.segments.length = 0 := by
          rcases Nat.eq_zero_or_pos (k - t.segments.length) with h | h
          · exact h
          · rw [List.getElem?_eq_none (by simp only [List.length_cons, List.length_nil]; omega)] at hg; cases hg
        rw [this] at hg
        cases hg
        exact ⟨c1, c2⟩
  | on k op =>
    have hki : k ≠ i := fun e => hopi (by rw [target, e])
    have hkj : k ≠ j := fun e => hopj (by rw [target, e])
    simp only [run]
    split
    · rename_i g hg
      obtain ⟨d1, d2⟩ := ho k g hki hkj hg
      refine ⟨?_, hdir d1 d2 (fun n h1 h2 => trackSegment_other _ _ h1 h2), List.getElem?_set_ne hki, List.getElem?_set_ne hkj⟩
      intro l g' hli hlj hg'
      rcases getElem?_set_some hg' with ⟨rfl, h2⟩ | ⟨_, h2⟩
      · cases h2; exact ⟨d1, d2⟩
      · exact ho l g' hli hlj h2
    · exact ⟨ho, fun _ _ => rfl, rfl, rfl⟩
  | sync k =>
    have hki : k ≠ i := fun e => hopi (by rw [target, e])
    have hkj : k ≠ j := fun e => hopj (by rw [target, e])
    simp only [run]
    split
    · rename_i g hg
      obtain ⟨d1, d2⟩ := ho k g hki hkj hg
      refine ⟨?_, hdir d1 d2 (fun n h1 h2 => trackSegment_other _ _ h1 h2), List.getElem?_set_ne hki, List.getElem?_set_ne hkj⟩
      intro l g' hli hlj hg'
      rcases getElem?_set_some hg' with ⟨rfl, h2⟩ | ⟨_, h2⟩
      · cases h2
      · exact ho l g' hli hlj h2
    · exact ⟨ho, fun _ _ => rfl, rfl, rfl⟩

theorem track_get {dir : Dir} {name : List Char} {file : Bytes} (h : dir name = some file) (a b : TokioFile) :
    dir.track name a b name = some (Dir.overwrite file a.content.length (b.content.drop a.content.length)) := by
  simp only [Dir.track, h]; exact Dir.set_same _ _ _

/-- Both files are mixed. -/
def Both (dir : Dir) (id : Bytes) (start old new : SegmentWriter) : Prop :=
  (∃ f, dir (dataFileName id) = some f ∧
    Mixed start.dataWriter.file.content.length old.dataWriter.file.content new.dataWriter.file.content f) ∧
  ∃ f, dir (indexFileName id) = some f ∧
    Mixed start.indexWriter.file.content.length old.indexWriter.file.content new.indexWriter.file.content f

theorem Both.old {dir : Dir} {id : Bytes} {start old old' new : SegmentWriter} (h : Both dir id start old new)
    (hs : start.Continues old) (hc : old.Continues old') : Both (trackSegment dir id old old') id start old' new := by
  obtain ⟨⟨f, h1, h2⟩, g, h3, h4⟩ := h
  obtain ⟨t, ht⟩ := hc.1
  obtain ⟨u, hu⟩ := hc.2
  have l1 := hs.1.length_le
  have l2 := hs.2.length_le
  refine ⟨⟨_, track_get ((Dir.track_other _ _ (names_ne id id)).trans h1) _ _, ?_⟩, _,
    (Dir.track_other _ _ (names_ne id id).symm).trans (track_get h3 _ _), ?_⟩
  · rw [← ht, List.drop_left]; exact Mixed.old h2 l1 t
  · rw [← hu, List.drop_left]; exact Mixed.old h4 l2 u

theorem Both.new {dir : Dir} {id : Bytes} {start old new new' : SegmentWriter} (h : Both dir id start old new)
    (hc : new.Continues new') : Both (trackSegment dir id new new') id start old new' := by
  obtain ⟨⟨f, h1, h2⟩, g, h3, h4⟩ := h
  obtain ⟨t, ht⟩ := hc.1
  obtain ⟨u, hu⟩ := hc.2
  refine ⟨⟨_, track_get ((Dir.track_other _ _ (names_ne id id)).trans h1) _ _, ?_⟩, _,
    (Dir.track_other _ _ (names_ne id id).symm).trans (track_get h3 _ _), ?_⟩
  · rw [← ht, List.drop_left]; exact Mixed.new h2 t
  · rw [← hu, List.drop_left]; exact Mixed.new h4 u

theorem Both.congr {dir dir' : Dir} {id : Bytes} {start old new : SegmentWriter} (h : Both dir id start old new)
    (hd : ∀ n, n = dataFileName id ∨ n = indexFileName id → dir' n = dir n) : Both dir' id start old new := by
  obtain ⟨⟨f, h1, h2⟩, g, h3, h4⟩ := h
  exact ⟨⟨f, by rw [hd _ (.inl rfl)]; exact h1, h2⟩, g, by rw [hd _ (.inr rfl)]; exact h3, h4⟩

/-- A relation between the directory and the two segments that is kept by what either of them writes holds at the end. -/
theorem runAll_rel (p : Profile) (ops : List Store.Op) {i j : Nat} (hij : i ≠ j) {id : Bytes} (hid : id.length = 16)
    {osi osj : SegmentOs} {start start' : SegmentWriter} (R : Dir → SegmentWriter → SegmentWriter → Prop)
    (hold : ∀ dir x x' y, start.Continues x → x.Continues x' → start'.Continues y → R dir x y →
      R (trackSegment dir id x x') x' y)
    (hnew : ∀ dir x y y', start.Continues x → start'.Continues y → y.Continues y' → R dir x y →
      R (trackSegment dir id y y') x y')
    (hcongr : ∀ (dir dir' : Dir) x y, (∀ n, n = dataFileName id ∨ n = indexFileName id → dir' n = dir n) → R dir x y →
      R dir' x y) : ∀ {t : Store} {x y : SegmentWriter × Bool},
    Others t i j id → Slot t i id osi x.1 x.2 → Slot t j id osj y.1 y.2 → start.Continues x.1 → start'.Continues y.1 →
    (∀ x ∈ createdIds ops, x.length = 16 ∧ x ≠ id) → R t.dir x.1 y.1 →
    Others (runAll p ops t) i j id ∧
    Slot (runAll p ops t) i id osi (ops.foldl (step p osi i) x).1 (ops.foldl (step p osi i) x).2 ∧
    Slot (runAll p ops t) j id osj (ops.foldl (step p osj j) y).1 (ops.foldl (step p osj j) y).2 ∧
    R (runAll p ops t).dir (ops.foldl (step p osi i) x).1 (ops.foldl (step p osj j) y).1 := by
  induction ops with
  | nil => intro t x y h1 h2 h3 _ _ _ h; exact ⟨h1, h2, h3, h⟩
  | cons op ops ih =>
    intro t x y ho hx hy hst hst2 hc h
    rw [createdIds_cons] at hc
    have hc' : ∀ x ∈ createdIds ops, x.length = 16 ∧ x ≠ id := fun x hx => hc x (by simp [hx])
    have hst' : start.Continues (step p osi i x op).1 :=
      ⟨hst.1.trans (step_continues p osi i x op).1, hst.2.trans (step_continues p osi i x op).2⟩
    have hst2' : start'.Continues (step p osj j y op).1 :=
      ⟨hst2.1.trans (step_continues p osj j y op).1, hst2.2.trans (step_continues p osj j y op).2⟩
    rw [List.foldl_cons, List.foldl_cons]
    have hrun : runAll p (op :: ops) t = runAll p ops (run p op t) := rfl
    rw [hrun]
    by_cases hi : target op = some i
    · have hj : target op ≠ some j := by rw [hi]; intro e; exact hij (Option.some.inj e)
      obtain ⟨r1, r2, r3⟩ := run_target p op hx hi
      refine ih ?_ r1 ?_ hst' hst2' hc' ?_
      · intro k g hki hkj hg
        rw [r3 k hki] at hg
        exact ho k g hki hkj hg
      · rw [step_other hj, Slot, r3 j (fun e => hij e.symm)]; exact hy
      · rw [step_other hj]
        exact hcongr _ _ _ _ (fun n _ => r2 n) (hold _ _ _ _ hst (step_continues p osi i x op) hst2 h)
    · by_cases hj : target op = some j
      · obtain ⟨r1, r2, r3⟩ := run_target p op hy hj
        refine ih ?_ ?_ r1 hst' hst2' hc' ?_
        · intro k g hki hkj hg
          rw [r3 k hkj] at hg
          exact ho k g hki hkj hg
        · rw [step_other hi, Slot, r3 i hij]; exact hx
        · rw [step_other hi]
          exact hcongr _ _ _ _ (fun n _ => r2 n) (hnew _ _ _ _ hst hst2 (step_continues p osj j y op) h)
      · have hli : i < t.segments.length := by rw [Slot, List.getElem?_eq_some_iff] at hx; exact hx.1
        have hlj : j < t.segments.length := by rw [Slot, List.getElem?_eq_some_iff] at hy; exact hy.1
        obtain ⟨r1, r2, r3, r4⟩ := run_other p op hid ho hli hlj (fun x hx => hc x (by simp [hx])) hi hj
        refine ih r1 ?_ ?_ hst' hst2' hc' ?_
        · rw [step_other hi, Slot, r3]; exact hx
        · rw [step_other hj, Slot, r4]; exact hy
        · rw [step_other hi, step_other hj]
          exact hcongr _ _ _ _ r2 h

theorem createdIds_append (a b : List Store.Op) : createdIds (a ++ b) = createdIds a ++ createdIds b := by
  induction a with
  | nil => rfl
  | cons x a ih => rw [List.cons_append, createdIds_cons, ih, createdIds_cons x a, List.append_assoc]

/-- The ids of the open segments other than number `i` are among those created. -/
theorem runAll_ids_but (p : Profile) (ops : List Store.Op) {t : Store} (i : Nat) (ids : List Bytes)
    (ht : ∀ (j : Nat) (g : OpenSegment), j ≠ i → t.segments[j]? = some (some g) → g.id ∈ ids) :
    ∀ (j : Nat) (g : OpenSegment), j ≠ i → (runAll p ops t).segments[j]? = some (some g) → g.id ∈ ids ++ createdIds ops := by
  induction ops generalizing t ids with
  | nil => intro j g hne h; simpa [createdIds] using ht j g hne h
  | cons op ops ih =>
    have key : ∀ (j : Nat) (g : OpenSegment), j ≠ i → (run p op t).segments[j]? = some (some g) → g.id ∈ ids ++ createdIds [op] := by
      intro j g hne hg
      cases op with
      | create info os =>
        simp only [run] at hg
        rcases h : createSegment p os info t.dir with ⟨e | w, dir⟩
        · simp only [h] at hg
          exact List.mem_append_left _ (ht j g hne hg)
        · simp only [h, List.getElem?_append] at hg
          split at hg
          · exact List.mem_append_left _ (ht j g hne hg)
          · have : j - t.segments.length = 0 := by
              rcases Nat.eq_zero_or_pos (j - t.segments.length) with h | h
              · exact h
              · rw [List.getElem?_eq_none (by simp only [List.length_cons, List.length_nil]; omega)] at hg; cases hg
            rw [this] at hg
            cases hg
            simp [createdIds]
      | on i' op =>
        simp only [run] at hg
        split at hg
        · rename_i g' hg'
          rcases getElem?_set_some hg with ⟨rfl, h2⟩ | ⟨_, h2⟩
          · cases h2; exact List.mem_append_left _ (ht j g' hne hg')
          · exact List.mem_append_left _ (ht j g hne h2)
        · exact List.mem_append_left _ (ht j g hne hg)
      | sync i' =>
        simp only [run] at hg
        split at hg
        · rename_i g' hg'
          rcases getElem?_set_some hg with ⟨rfl, h2⟩ | ⟨_, h2⟩
          · cases h2
          · exact List.mem_append_left _ (ht j g hne h2)
        · exact List.mem_append_left _ (ht j g hne hg)
    have := ih _ key
    rw [createdIds_cons, ← List.append_assoc]
    exact this

/-- Number `i`, while nothing else happens to it. -/
theorem runAll_slot (p : Profile) (ops : List Store.Op) {i : Nat} {id : Bytes} {os : SegmentOs} :
    ∀ {t : Store} {x : SegmentWriter × Bool}, Slot t i id os x.1 x.2 →
    Slot (runAll p ops t) i id os (ops.foldl (step p os i) x).1 (ops.foldl (step p os i) x).2 := by
  induction ops with
  | nil => intro t x h; exact h
  | cons op ops ih =>
    intro t x h
    rw [List.foldl_cons]
    change Slot (runAll p ops (run p op t)) _ _ _ _ _
    apply ih
    by_cases hi : target op = some i
    · exact (run_target p op h hi).1
    · rw [step_other hi]
      have hl : i < t.segments.length := by rw [Slot, List.getElem?_eq_some_iff] at h; exact h.1
      have : (run p op t).segments[i]? = t.segments[i]? := by
        cases op with
        | create info os =>
          simp only [run]
          split
          · exact List.getElem?_append_left hl
          · rfl
        | on k op =>
          have hki : k ≠ i := fun e => hi (by rw [target, e])
          simp only [run]
          split
          · exact List.getElem?_set_ne hki
          · rfl
        | sync k =>
          have hki : k ≠ i := fun e => hi (by rw [target, e])
          simp only [run]
          split
          · exact List.getElem?_set_ne hki
          · rfl
      rw [Slot, this]; exact h

/-- Nothing happens to a segment after it was synced. -/
theorem aloneFrom_synced (p : Profile) (os : SegmentOs) (i : Nat) (rest : List Store.Op) :
    ∀ (ops : List Store.Op), .sync i ∈ ops → ∀ s, aloneFrom p os i (ops ++ rest) s = aloneFrom p os i ops s
  | [], h, _ => by cases h
  | .create _ _ :: ops, h, s =>
    aloneFrom_synced p os i rest ops ((List.mem_cons.mp h).resolve_left (fun e => by cases e)) s
  | .on j op :: ops, h, s => by
    have ih := aloneFrom_synced p os i rest ops ((List.mem_cons.mp h).resolve_left (fun e => by cases e))
    simp only [List.cons_append, aloneFrom, ih]
  | .sync j :: ops, h, s => by
    by_cases hj : j = i
    · simp only [List.cons_append, aloneFrom, if_pos hj]
    · have ih := aloneFrom_synced p os i rest ops ((List.mem_cons.mp h).resolve_left (fun e => hj (by cases e; rfl)))
      simp only [List.cons_append, aloneFrom, if_neg hj, ih]

theorem aloneFrom_quiet (p : Profile) (os : SegmentOs) (i : Nat) (rest : List Store.Op)
    (h : ∀ op ∈ rest, target op ≠ some i) (ops : List Store.Op) (s : SegmentWriter) :
    aloneFrom p os i (ops ++ rest) s = aloneFrom p os i ops s := by
  rw [← foldl_step, ← foldl_step, List.foldl_append]
  congr 1
  generalize ops.foldl (step p os i) (s, false) = x
  induction rest with
  | nil => rfl
  | cons op rest ih =>
    rw [List.foldl_cons, step_other (h op (by simp))]
    exact ih (fun op hop => h op (by simp [hop]))

theorem mixed_fresh {start : Nat} {old new : Bytes} (h : old.length ≤ start) : Mixed start old new new := by
  refine ⟨?_, fun k x hx => .inr (.inl hx)⟩
  rw [if_neg (by omega)]; omega

theorem Mixed.fresh {start : Nat} {old new file : Bytes} (h : Mixed start old new file) (hl : old.length ≤ start) :
    file = new := by
  obtain ⟨h1, h2⟩ := h
  rw [if_neg (by omega)] at h1
  apply List.ext_getElem (by omega)
  intro k hk hk'
  rcases h2 k _ (List.getElem?_eq_getElem hk) with ⟨h3, h4⟩ | h3 | h3
  · rw [List.getElem?_eq_none (by omega)] at h4; cases h4
  · rw [List.getElem?_eq_getElem hk'] at h3; exact (Option.some.inj h3).symm
  · omega

/-- The store when the second segment has just been created. -/
theorem setup (p : Profile) (dir : Dir) (before between after : List Store.Op) (info info' : SegmentInfo)
    (os os' : SegmentOs) (s s' : SegmentWriter) (hnew : SegmentWriter.new p os info = .ok s)
    (hnew' : SegmentWriter.new p os' info' = .ok s') (hsame : info'.segmentId = info.segmentId)
    (h16 : ∀ x ∈ createdIds (before ++ [.create info os] ++ between ++ [.create info' os'] ++ after), x.length = 16)
    (hid : info.segmentId ∉ createdIds before ++ createdIds between ++ createdIds after) :
    let number := (runAll p before { dir := dir, segments := [] }).segments.length
    let number' := (runAll p (before ++ [.create info os] ++ between) { dir := dir, segments := [] }).segments.length
    let x := between.foldl (step p os number) (s, false)
    ∃ t, number ≠ number' ∧ info.segmentId.length = 16 ∧
      x.1 = aloneFrom p os number between s ∧
      (∀ ops, runAll p (before ++ [.create info os] ++ between ++ [.create info' os'] ++ ops) { dir := dir, segments := [] } =
        runAll p ops t) ∧
      (∀ ops, aloneFrom p os number (between ++ [.create info' os'] ++ ops) s = (ops.foldl (step p os number) x).1) ∧
      Others t number number' info.segmentId ∧ Slot t number info.segmentId os x.1 x.2 ∧
      Slot t number' info.segmentId os' s' false ∧
      (∀ x ∈ createdIds after, x.length = 16 ∧ x ≠ info.segmentId) ∧
      t.dir (dataFileName info.segmentId) = some s'.dataWriter.file.content ∧
      t.dir (indexFileName info.segmentId) = some s'.indexWriter.file.content := by
  simp only [createdIds_append] at h16
  intro number number' x
  obtain ⟨t, ht⟩ : ∃ t, t = runAll p before { dir := dir, segments := [] } := ⟨_, rfl⟩
  have hids := runAll_ids p before (t := { dir := dir, segments := [] }) [] (by simp)
  rw [← ht, List.nil_append] at hids
  have hl : info.segmentId.length = 16 := h16 _ (by simp [createdIds])
  rcases hc : createSegment p os info t.dir with ⟨r, dir'⟩
  have hr := createSegment_new p os info t.dir
  rw [hc, hnew] at hr
  dsimp only at hr
  subst hr
  have hrun : run p (.create info os) t =
      { dir := dir', segments := t.segments ++ [some { id := info.segmentId, os := os, writer := s }] } := by
    simp only [run, hc]
  have hn : number = t.segments.length := by rw [ht]
  have hslot : Slot (run p (.create info os) t) number info.segmentId os s false := by
    rw [hrun, hn, Slot]; simp
  have hslot2 := runAll_slot p between (x := (s, false)) hslot
  obtain ⟨t2, ht2⟩ : ∃ t2, t2 = runAll p between (run p (.create info os) t) := ⟨_, rfl⟩
  rw [← ht2] at hslot2
  have ht2' : t2 = runAll p (before ++ [.create info os] ++ between) { dir := dir, segments := [] } := by
    rw [ht2, ht]; simp only [runAll, List.foldl_append, List.foldl_cons, List.foldl_nil]
  have hn' : number' = t2.segments.length := by rw [ht2']
  have hlt : number < t2.segments.length := by rw [Slot, List.getElem?_eq_some_iff] at hslot2; exact hslot2.1
  rcases hc2 : createSegment p os' info' t2.dir with ⟨r, dir2⟩
  have hr := createSegment_new p os' info' t2.dir
  rw [hc2, hnew'] at hr
  dsimp only at hr
  subst hr
  have hrun2 : run p (.create info' os') t2 =
      { dir := dir2, segments := t2.segments ++ [some { id := info'.segmentId, os := os', writer := s' }] } := by
    simp only [run, hc2]
  have hids2 : ∀ (k : Nat) (g : OpenSegment), k ≠ number → t2.segments[k]? = some (some g) →
      g.id ∈ createdIds before ++ createdIds between := by
    have hbase : ∀ (k : Nat) (g : OpenSegment), (run p (.create info os) t).segments[k]? = some (some g) →
        k ≠ number → g.id ∈ createdIds before := by
      intro k g hg hk
      rw [hrun] at hg
      simp only [List.getElem?_append] at hg
      split at hg
      · exact hids k g hg
      · rw [List.getElem?_eq_none (by simp only [List.length_cons, List.length_nil]; omega)] at hg; cases hg
    intro k g hk hg
    rw [ht2] at hg
    exact runAll_ids_but p between number (createdIds before) (fun k g hk hg => hbase k g hg hk) k g hk hg
  refine ⟨run p (.create info' os') t2, by omega, hl, foldl_step p os number between s, fun ops => ?_, fun ops => ?_, ?_, ?_, ?_,
    ?_, ?_⟩
  · rw [ht2']; simp only [runAll, List.foldl_append, List.foldl_cons, List.foldl_nil]
  · have h := foldl_step p os number (between ++ [.create info' os'] ++ ops) s
    rw [List.foldl_append, List.foldl_append, List.foldl_cons, List.foldl_nil, step_other (by simp [target])] at h
    exact h.symm
  · intro k g hki hkj hg
    rw [hrun2] at hg
    simp only [List.getElem?_append] at hg
    split at hg
    · have hm := hids2 k g hki hg
      rcases List.mem_append.mp hm with hm' | hm'
      · exact ⟨h16 _ (by simp [hm']), fun e => hid (by rw [← e]; simp [hm'])⟩
      · exact ⟨h16 _ (by simp [hm']), fun e => hid (by rw [← e]; simp [hm'])⟩
    · rw [List.getElem?_eq_none (by simp only [List.length_cons, List.length_nil]; omega)] at hg; cases hg
  · rw [hrun2, Slot]
    dsimp only
    rw [List.getElem?_append_left hlt]; exact hslot2
  · rw [hrun2, hn', Slot, ← hsame]; simp
  · intro x hx
    exact ⟨h16 x (by simp [hx]), fun (e : x = info.segmentId) => hid (by rw [← e]; simp [hx])⟩
  · obtain ⟨f1, f2⟩ := createSegment_same hc2
    rw [hsame] at f1 f2
    rw [hrun2]
    exact ⟨f1, f2⟩

end SameId

open SameId Spec in
/-- C97, exactly: what two segments with the same id leave in their files when the second is created while the
first may still be open, whatever else happens in the directory. Up to the second creation the first had written `start`; at the
end it has written `old` and the second `new`. -/
theorem C97_same_id_exact (p : Profile) (dir : Dir) (before between after : List Store.Op) (info info' : SegmentInfo)
    (os os' : SegmentOs) (s s' : SegmentWriter) (hnew : SegmentWriter.new p os info = .ok s)
    (hnew' : SegmentWriter.new p os' info' = .ok s') (hsame : info'.segmentId = info.segmentId)
    (h16 : ∀ x ∈ createdIds (before ++ [.create info os] ++ between ++ [.create info' os'] ++ after), x.length = 16)
    (hid : info.segmentId ∉ createdIds before ++ createdIds between ++ createdIds after) :
    let number := (runAll p before { dir := dir, segments := [] }).segments.length
    let number' := (runAll p (before ++ [.create info os] ++ between) { dir := dir, segments := [] }).segments.length
    let final := runAll p (before ++ [.create info os] ++ between ++ [.create info' os'] ++ after) { dir := dir, segments := [] }
    let start := aloneFrom p os number between s
    let old := aloneFrom p os number (between ++ [.create info' os'] ++ after) s
    let new := aloneFrom p os' number' after s'
    (∃ f, final.dir (dataFileName info.segmentId) = some f ∧
      Mixed start.dataWriter.file.content.length old.dataWriter.file.content new.dataWriter.file.content f) ∧
    ∃ f, final.dir (indexFileName info.segmentId) = some f ∧
      Mixed start.indexWriter.file.content.length old.indexWriter.file.content new.indexWriter.file.content f := by
  intro number number' final start old new
  obtain ⟨t, hij, hl, hstart, hfinal, hold, ho, hx, hy, hc, f1, f2⟩ :=
    setup p dir before between after info info' os os' s s' hnew hnew' hsame h16 hid
  have key := runAll_rel p after hij hl (osi := os) (osj := os') (start := start) (start' := s')
    (fun dir x y => Both dir info.segmentId start x y) (fun _ _ _ _ h1 h2 _ h => Both.old h h1 h2)
    (fun _ _ _ _ _ _ h2 h => Both.new h h2) (fun _ _ _ _ h1 h => Both.congr h h1)
    (t := t) (x := between.foldl (step p os number) (s, false)) (y := (s', false)) ho hx hy
    (by rw [hstart]; exact ⟨List.prefix_refl _, List.prefix_refl _⟩) ⟨List.prefix_refl _, List.prefix_refl _⟩ hc
    (by rw [hstart]; exact ⟨⟨_, f1, mixed_fresh (Nat.le_refl _)⟩, _, f2, mixed_fresh (Nat.le_refl _)⟩)
  have h := key.2.2.2
  rw [← hold, ← hfinal, foldl_step p os' number' after s'] at h
  exact h

open SameId in
/-- C97 as far as it holds: if the first segment writes nothing more, the second is alone. -/
theorem C97_same_id_partial (p : Profile) (dir : Dir) (before between after : List Store.Op) (info info' : SegmentInfo)
    (os os' : SegmentOs) (s s' : SegmentWriter) (hnew : SegmentWriter.new p os info = .ok s)
    (hnew' : SegmentWriter.new p os' info' = .ok s') (hsame : info'.segmentId = info.segmentId)
    (h16 : ∀ x ∈ createdIds (before ++ [.create info os] ++ between ++ [.create info' os'] ++ after), x.length = 16)
    (hid : info.segmentId ∉ createdIds before ++ createdIds between ++ createdIds after)
    (hquiet : ∀ number, number = (runAll p before { dir := dir, segments := [] }).segments.length →
      .sync number ∈ between ∨ ∀ op, .on number op ∉ after ∧ .sync number ∉ after) :
    let number' := (runAll p (before ++ [.create info os] ++ between) { dir := dir, segments := [] }).segments.length
    let final := runAll p (before ++ [.create info os] ++ between ++ [.create info' os'] ++ after) { dir := dir, segments := [] }
    let new := aloneFrom p os' number' after s'
    final.dir (dataFileName info.segmentId) = some new.dataWriter.file.content ∧
    final.dir (indexFileName info.segmentId) = some new.indexWriter.file.content := by
  intro number' final new
  obtain ⟨⟨f, h1, h2⟩, g, h3, h4⟩ := C97_same_id_exact p dir before between after info info' os os' s s' hnew hnew' hsame h16 hid
  have hstill := hquiet _ rfl
  generalize (runAll p before { dir := dir, segments := [] }).segments.length = number at *
  have hold : aloneFrom p os number (between ++ [.create info' os'] ++ after) s = aloneFrom p os number between s := by
    rw [List.append_assoc]
    rcases hstill with hstill | hstill
    · exact aloneFrom_synced p os number _ between hstill s
    · refine aloneFrom_quiet p os number _ ?_ between s
      intro op hop
      rcases List.mem_cons.mp hop with rfl | hop
      · simp [target]
      · cases op with
        | create _ _ => simp [target]
        | on k op =>
          intro e; cases e; exact (hstill op).1 hop
        | sync k =>
          intro e; cases e; exact (hstill (.close .insertion)).2 hop
  rw [hold] at h2 h4
  have e1 := Mixed.fresh h2 (Nat.le_refl _)
  have e2 := Mixed.fresh h4 (Nat.le_refl _)
  rw [e1] at h1
  rw [e2] at h3
  exact ⟨h1, h3⟩


namespace SameId

open Spec

/-- What `own` wrote from `from_` on, below `upto`, is in the file. -/
def Late (from_ upto : Nat) (own file : Bytes) : Prop :=
  ∀ k, from_ ≤ k → k < upto → k < own.length → file[k]? = own[k]?

theorem Late.own {a b : Nat} {own file : Bytes} (h : Late a b own file) (t : Bytes) :
    Late a b (own ++ t) (Dir.overwrite file own.length t) := by
  by_cases ht : t = []
  · subst ht; rw [List.append_nil]; simpa [Dir.overwrite] using h
  intro k h1 h2 h3
  rw [List.length_append] at h3
  rw [overwrite_get _ _ ht, List.getElem?_append]
  split
  · rename_i hk
    have h4 := h k h1 h2 hk
    rw [List.getElem?_eq_getElem hk] at h4
    have h5 : k < file.length := (List.getElem?_eq_some_iff.1 h4).1
    rw [if_pos h5, h4, List.getElem?_eq_getElem hk]
  · rfl

theorem Late.other {a b : Nat} {own file : Bytes} (h : Late a b own file) {off : Nat} (hoff : b ≤ off) (t : Bytes) :
    Late a b own (Dir.overwrite file off t) := by
  by_cases ht : t = []
  · subst ht; simpa [Dir.overwrite] using h
  intro k h1 h2 h3
  have h4 := h k h1 h2 h3
  rw [List.getElem?_eq_getElem h3] at h4
  have h5 : k < file.length := (List.getElem?_eq_some_iff.1 h4).1
  rw [overwrite_get _ _ ht, if_pos (by omega), if_pos h5, h4, List.getElem?_eq_getElem h3]

/-- In both files, what each of the two wrote later than the other, seen from a moment when they had written `a` and `b`. -/
def BothLate (dir : Dir) (id : Bytes) (a b old new : SegmentWriter) : Prop :=
  (∃ f, dir (dataFileName id) = some f ∧
    Late a.dataWriter.file.content.length b.dataWriter.file.content.length old.dataWriter.file.content f ∧
    Late b.dataWriter.file.content.length a.dataWriter.file.content.length new.dataWriter.file.content f) ∧
  ∃ f, dir (indexFileName id) = some f ∧
    Late a.indexWriter.file.content.length b.indexWriter.file.content.length old.indexWriter.file.content f ∧
    Late b.indexWriter.file.content.length a.indexWriter.file.content.length new.indexWriter.file.content f

theorem BothLate.old {dir : Dir} {id : Bytes} {a b old old' new : SegmentWriter} (h : BothLate dir id a b old new)
    (ha : a.Continues old) (hc : old.Continues old') : BothLate (trackSegment dir id old old') id a b old' new := by
  obtain ⟨⟨f, h1, h2, h3⟩, g, h4, h5, h6⟩ := h
  obtain ⟨t, ht⟩ := hc.1
  obtain ⟨u, hu⟩ := hc.2
  have l1 := ha.1.length_le
  have l2 := ha.2.length_le
  refine ⟨⟨_, track_get ((Dir.track_other _ _ (names_ne id id)).trans h1) _ _, ?_⟩, _,
    (Dir.track_other _ _ (names_ne id id).symm).trans (track_get h4 _ _), ?_⟩
  · rw [← ht, List.drop_left]; exact ⟨h2.own t, h3.other l1 t⟩
  · rw [← hu, List.drop_left]; exact ⟨h5.own u, h6.other l2 u⟩

theorem BothLate.new {dir : Dir} {id : Bytes} {a b old new new' : SegmentWriter} (h : BothLate dir id a b old new)
    (hb : b.Continues new) (hc : new.Continues new') : BothLate (trackSegment dir id new new') id a b old new' := by
  obtain ⟨⟨f, h1, h2, h3⟩, g, h4, h5, h6⟩ := h
  obtain ⟨t, ht⟩ := hc.1
  obtain ⟨u, hu⟩ := hc.2
  have l1 := hb.1.length_le
  have l2 := hb.2.length_le
  refine ⟨⟨_, track_get ((Dir.track_other _ _ (names_ne id id)).trans h1) _ _, ?_⟩, _,
    (Dir.track_other _ _ (names_ne id id).symm).trans (track_get h4 _ _), ?_⟩
  · rw [← ht, List.drop_left]; exact ⟨h2.other l1 t, h3.own t⟩
  · rw [← hu, List.drop_left]; exact ⟨h5.other l2 u, h6.own u⟩

theorem BothLate.congr {dir dir' : Dir} {id : Bytes} {a b old new : SegmentWriter} (h : BothLate dir id a b old new)
    (hd : ∀ n, n = dataFileName id ∨ n = indexFileName id → dir' n = dir n) : BothLate dir' id a b old new := by
  obtain ⟨⟨f, h1, h2⟩, g, h3, h4⟩ := h
  exact ⟨⟨f, by rw [hd _ (.inl rfl)]; exact h1, h2⟩, g, by rw [hd _ (.inr rfl)]; exact h3, h4⟩

/-- One operation is about one segment, so one of two segments passes a place first. -/
theorem first_past (p : Profile) {osi osj : SegmentOs} {i j : Nat} (hij : i ≠ j) (size : SegmentWriter → Nat) (k : Nat)
    (ops : List Store.Op) : ∀ {x y : SegmentWriter × Bool}, size x.1 ≤ k →
    k < size (ops.foldl (step p osi i) x).1 → k < size (ops.foldl (step p osj j) y).1 →
    ∃ a b, ops = a ++ b ∧
      ((size (a.foldl (step p osi i) x).1 ≤ k ∧ k < size (a.foldl (step p osj j) y).1) ∨
       (size (a.foldl (step p osj j) y).1 ≤ k ∧ k < size (a.foldl (step p osi i) x).1)) := by
  induction ops with
  | nil => intro x y h1 h2 _; simp only [List.foldl_nil] at h2; omega
  | cons op ops ih =>
    intro x y h1 h2 h3
    by_cases hy : k < size y.1
    · exact ⟨[], op :: ops, rfl, .inl ⟨h1, hy⟩⟩
    · rw [List.foldl_cons] at h2 h3
      by_cases hx : k < size (step p osi i x op).1
      · refine ⟨[op], ops, rfl, .inr ⟨?_, hx⟩⟩
        have hi : target op = some i := by
          apply Classical.byContradiction
          intro hne
          rw [step_other hne] at hx; omega
        have hj : target op ≠ some j := by rw [hi]; intro e; exact hij (Option.some.inj e)
        rw [List.foldl_cons, List.foldl_nil, step_other hj]; omega
      · obtain ⟨a, b, hab, h⟩ := ih (by omega) h2 h3
        exact ⟨op :: a, b, by rw [hab, List.cons_append], h⟩

end SameId

open SameId in
/-- C97, who prevails: at a place that both wrote after the second creation, what was written last. Let `a` be what was done up
to some moment after it. If by then the second had passed a place and the first had not, it holds in the end what the first
wrote there later, and the other way round. -/
theorem C97_last_prevails (p : Profile) (dir : Dir) (before between a b : List Store.Op) (info info' : SegmentInfo)
    (os os' : SegmentOs) (s s' : SegmentWriter) (hnew : SegmentWriter.new p os info = .ok s)
    (hnew' : SegmentWriter.new p os' info' = .ok s') (hsame : info'.segmentId = info.segmentId)
    (h16 : ∀ x ∈ createdIds (before ++ [.create info os] ++ between ++ [.create info' os'] ++ (a ++ b)), x.length = 16)
    (hid : info.segmentId ∉ createdIds before ++ createdIds between ++ createdIds (a ++ b)) :
    let number := (runAll p before { dir := dir, segments := [] }).segments.length
    let number' := (runAll p (before ++ [.create info os] ++ between) { dir := dir, segments := [] }).segments.length
    let final := runAll p (before ++ [.create info os] ++ between ++ [.create info' os'] ++ (a ++ b)) { dir := dir, segments := [] }
    let old := aloneFrom p os number (between ++ [.create info' os'] ++ (a ++ b)) s
    let new := aloneFrom p os' number' (a ++ b) s'
    let oldThen := aloneFrom p os number (between ++ [.create info' os'] ++ a) s
    let newThen := aloneFrom p os' number' a s'
    (∃ f, final.dir (dataFileName info.segmentId) = some f ∧ ∀ k,
      (oldThen.dataWriter.file.content.length ≤ k → k < newThen.dataWriter.file.content.length →
        k < old.dataWriter.file.content.length → f[k]? = old.dataWriter.file.content[k]?) ∧
      (newThen.dataWriter.file.content.length ≤ k → k < oldThen.dataWriter.file.content.length →
        k < new.dataWriter.file.content.length → f[k]? = new.dataWriter.file.content[k]?)) ∧
    ∃ f, final.dir (indexFileName info.segmentId) = some f ∧ ∀ k,
      (oldThen.indexWriter.file.content.length ≤ k → k < newThen.indexWriter.file.content.length →
        k < old.indexWriter.file.content.length → f[k]? = old.indexWriter.file.content[k]?) ∧
      (newThen.indexWriter.file.content.length ≤ k → k < oldThen.indexWriter.file.content.length →
        k < new.indexWriter.file.content.length → f[k]? = new.indexWriter.file.content[k]?) := by
  intro number number' final old new oldThen newThen
  obtain ⟨t, hij, hl, hstart, hfinal, hold, ho, hx, hy, hc, f1, f2⟩ :=
    setup p dir before between (a ++ b) info info' os os' s s' hnew hnew' hsame h16 hid
  rw [createdIds_append] at hc
  have key := runAll_rel p a hij hl (osi := os) (osj := os')
    (start := (between.foldl (step p os number) (s, false)).1) (start' := s')
    (fun dir x y => Both dir info.segmentId (between.foldl (step p os number) (s, false)).1 x y)
    (fun _ _ _ _ h1 h2 _ h => Both.old h h1 h2)
    (fun _ _ _ _ _ _ h2 h => Both.new h h2) (fun _ _ _ _ h1 h => Both.congr h h1)
    (t := t) (x := between.foldl (step p os number) (s, false)) (y := (s', false)) ho hx hy
    ⟨List.prefix_refl _, List.prefix_refl _⟩ ⟨List.prefix_refl _, List.prefix_refl _⟩
    (fun x hx => hc x (List.mem_append_left _ hx))
    ⟨⟨_, f1, mixed_fresh (Nat.le_refl _)⟩, _, f2, mixed_fresh (Nat.le_refl _)⟩
  obtain ⟨ho', hx', hy', ⟨f, g1, -⟩, g, g2, -⟩ := key
  have key2 := runAll_rel p b hij hl (osi := os) (osj := os') (start := oldThen) (start' := newThen)
    (fun dir x y => BothLate dir info.segmentId oldThen newThen x y)
    (fun _ _ _ _ h1 h2 _ h => h.old h1 h2)
    (fun _ _ _ _ _ h1 h2 h => h.new h1 h2) (fun _ _ _ _ h1 h => h.congr h1)
    (t := runAll p a t) (x := a.foldl (step p os number) (between.foldl (step p os number) (s, false)))
    (y := a.foldl (step p os' number') (s', false)) ho' hx' hy'
    (by rw [← hold a]; exact ⟨List.prefix_refl _, List.prefix_refl _⟩)
    (by rw [foldl_step p os' number' a s']; exact ⟨List.prefix_refl _, List.prefix_refl _⟩)
    (fun x hx => hc x (List.mem_append_right _ hx))
    (by
      rw [← hold a, foldl_step p os' number' a s']
      exact ⟨⟨f, g1, fun k h1 _ h3 => absurd h3 (Nat.not_lt.2 h1), fun k h1 _ h3 => absurd h3 (Nat.not_lt.2 h1)⟩,
        g, g2, fun k h1 _ h3 => absurd h3 (Nat.not_lt.2 h1), fun k h1 _ h3 => absurd h3 (Nat.not_lt.2 h1)⟩)
  have h := key2.2.2.2
  have e1 : (b.foldl (step p os number) (a.foldl (step p os number) (between.foldl (step p os number) (s, false)))).1 = old := by
    have := hold (a ++ b)
    rw [List.foldl_append] at this
    exact this.symm
  have e2 : (b.foldl (step p os' number') (a.foldl (step p os' number') (s', false))).1 = new := by
    have := foldl_step p os' number' (a ++ b) s'
    rw [List.foldl_append] at this
    exact this
  rw [e1, e2] at h
  have hr : final = runAll p b (runAll p a t) := by
    rw [← show runAll p (a ++ b) t = runAll p b (runAll p a t) by simp only [runAll, List.foldl_append]]
    exact hfinal (a ++ b)
  rw [← hr] at h
  obtain ⟨⟨f, e1, e2, e3⟩, g, e4, e5, e6⟩ := h
  exact ⟨⟨f, e1, fun k => ⟨e2 k, e3 k⟩⟩, g, e4, fun k => ⟨e5 k, e6 k⟩⟩

open SameId in
/-- C97: for every place that both wrote after the second creation there is such a moment, so `C97_last_prevails` decides it.
This holds whatever is measured of the segments, so for both files. -/
theorem C97_last_decides (p : Profile) (dir : Dir) (before between after : List Store.Op) (info info' : SegmentInfo)
    (os os' : SegmentOs) (s s' : SegmentWriter) (hnew : SegmentWriter.new p os info = .ok s)
    (hnew' : SegmentWriter.new p os' info' = .ok s') (hsame : info'.segmentId = info.segmentId)
    (h16 : ∀ x ∈ createdIds (before ++ [.create info os] ++ between ++ [.create info' os'] ++ after), x.length = 16)
    (hid : info.segmentId ∉ createdIds before ++ createdIds between ++ createdIds after)
    (size : SegmentWriter → Nat) (k : Nat) :
    let number := (runAll p before { dir := dir, segments := [] }).segments.length
    let number' := (runAll p (before ++ [.create info os] ++ between) { dir := dir, segments := [] }).segments.length
    size (aloneFrom p os number between s) ≤ k →
    k < size (aloneFrom p os number (between ++ [.create info' os'] ++ after) s) →
    k < size (aloneFrom p os' number' after s') →
    ∃ a b, after = a ++ b ∧
      ((size (aloneFrom p os number (between ++ [.create info' os'] ++ a) s) ≤ k ∧ k < size (aloneFrom p os' number' a s')) ∨
       (size (aloneFrom p os' number' a s') ≤ k ∧
        k < size (aloneFrom p os number (between ++ [.create info' os'] ++ a) s))) := by
  intro number number' h1 h2 h3
  obtain ⟨t, hij, hl, hstart, hfinal, hold, -⟩ :=
    setup p dir before between after info info' os os' s s' hnew hnew' hsame h16 hid
  rw [← hstart] at h1
  rw [hold] at h2
  rw [← foldl_step] at h3
  obtain ⟨a, b, hab, h⟩ := first_past p hij size k after h1 h2 h3
  refine ⟨a, b, hab, ?_⟩
  rw [hold, ← foldl_step]
  exact h

/-- What is done to a segment before it is created again, and afterwards. -/
def exampleBetween : List Store.Op := [.on 0 (.column (exampleColumn "a") [.write exampleBuffer, .close])]

def exampleAfter : List Store.Op :=
  [.on 0 (.column (exampleColumn "b") [.write exampleBuffer, .close]),
   .on 1 (.close .insertion), .on 0 (.close .insertion), .sync 0, .sync 1]

/-- C97 is false of the code: nothing fails, the data file is neither what the first nor what the second segment wrote, and
has bytes that nobody wrote. -/
theorem C97_same_id_violated (p : Profile) :
    ¬ ∀ (dir : Dir) (before between after : List Store.Op) (info info' : SegmentInfo) (os os' : SegmentOs)
      (s s' : SegmentWriter), SegmentWriter.new p os info = .ok s → SegmentWriter.new p os' info' = .ok s' →
      info'.segmentId = info.segmentId →
      (∀ x ∈ createdIds (before ++ [.create info os] ++ between ++ [.create info' os'] ++ after), x.length = 16) →
      info.segmentId ∉ createdIds before ++ createdIds between ++ createdIds after →
      let number := (runAll p before { dir := dir, segments := [] }).segments.length
      let number' := (runAll p (before ++ [.create info os] ++ between) { dir := dir, segments := [] }).segments.length
      let final := runAll p (before ++ [.create info os] ++ between ++ [.create info' os'] ++ after) { dir := dir, segments := [] }
      let old := aloneFrom p os number (between ++ [.create info' os'] ++ after) s
      let new := aloneFrom p os' number' after s'
      final.dir (dataFileName info.segmentId) = some old.dataWriter.file.content ∨
      final.dir (dataFileName info.segmentId) = some new.dataWriter.file.content := by
  intro h
  have key : (match SegmentWriter.new p .reliable exampleInfo with
      | .error _ => false
      | .ok s =>
        decide ((runAll p ([] ++ [.create exampleInfo .reliable] ++ exampleBetween ++ [.create exampleInfo .reliable] ++ exampleAfter)
            { dir := fun _ => none, segments := [] }).dir (dataFileName exampleInfo.segmentId) ≠
            some (aloneFrom p .reliable (runAll p [] { dir := fun _ => none, segments := [] }).segments.length
              (exampleBetween ++ [.create exampleInfo .reliable] ++ exampleAfter) s).dataWriter.file.content) &&
        decide ((runAll p ([] ++ [.create exampleInfo .reliable] ++ exampleBetween ++ [.create exampleInfo .reliable] ++ exampleAfter)
            { dir := fun _ => none, segments := [] }).dir (dataFileName exampleInfo.segmentId) ≠
            some (aloneFrom p .reliable (runAll p ([] ++ [.create exampleInfo .reliable] ++ exampleBetween)
              { dir := fun _ => none, segments := [] }).segments.length exampleAfter s).dataWriter.file.content)) = true := by
    cases p <;> decide +kernel
  rcases hs : SegmentWriter.new p .reliable exampleInfo with e | s
  · rw [hs] at key; cases key
  · rw [hs] at key
    simp only [Bool.and_eq_true, decide_eq_true_eq] at key
    rcases h (fun _ => none) [] exampleBetween exampleAfter exampleInfo exampleInfo .reliable .reliable s s hs hs rfl
      (by decide +kernel) (by decide +kernel) with h1 | h1
    · exact key.1 h1
    · exact key.2 h1

/-- Such a moment of that history: when the second segment has been closed, its index file reaches beyond what the first
had written of it by then, and the first goes on to write there. -/
example (p : Profile) :
    (match SegmentWriter.new p .reliable exampleInfo with
      | .error _ => none
      | .ok s => some
        ((aloneFrom p .reliable 0 (exampleBetween ++ [.create exampleInfo .reliable] ++ exampleAfter.take 2) s).indexWriter.file.content.length,
         (aloneFrom p .reliable 1 (exampleAfter.take 2) s).indexWriter.file.content.length,
         (aloneFrom p .reliable 0 (exampleBetween ++ [.create exampleInfo .reliable] ++ exampleAfter) s).indexWriter.file.content.length)) =
    some (10, 51, 101) := by
  cases p <;> decide +kernel

/-- The files of that history: of the data of the first column only the end is left, and the index file is that of the first
segment, which lists both columns. -/
example (p : Profile) :
    let t := runAll p ([] ++ [.create exampleInfo .reliable] ++ exampleBetween ++ [.create exampleInfo .reliable] ++ exampleAfter)
      { dir := fun _ => none, segments := [] }
    t.dir (dataFileName exampleInfo.segmentId) =
      some (DATA_FILE_SIGNATURE ++ [0, 0, 0, 0, 2, 2] ++ [3, 120, 121, 122, 2, 2]) ∧
    (t.dir (indexFileName exampleInfo.segmentId)).map List.length = some 101 ∧
    t.segments.length = 2 := by
  cases p <;> decide +kernel

/-- When the first segment is left alone, the files are those of the second. -/
example (p : Profile) :
    let t := runAll p ([] ++ [.create exampleInfo .reliable] ++ exampleBetween ++ [.create exampleInfo .reliable] ++
        [.on 1 (.column (exampleColumn "c") [.write exampleBuffer, .close]), .on 1 (.close .insertion), .sync 1])
      { dir := fun _ => none, segments := [] }
    t.dir (dataFileName exampleInfo.segmentId) = some (DATA_FILE_SIGNATURE ++ [3, 120, 121, 122, 2, 2]) := by
  cases p <;> decide +kernel

end Meerkat
