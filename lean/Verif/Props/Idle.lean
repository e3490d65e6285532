import Verif.Props.SegmentMeta

set_option autoImplicit false

/-! # C125: a column that is refused, or to which nothing is written, leaves no trace -/

namespace Meerkat

/-- The item asks for an encoding that no binary column can have, or makes no call on its column writer. -/
def Spec.Idle : SegOp → Bool
  | .column info ops => (decide (info.encoding ≠ .raw) && decide (info.encoding ≠ .snappy)) || ops.isEmpty
  | .close _ => false

namespace Idle

/-- The two writers agree in everything but the block index. -/
def Alike (s t : SegmentWriter) : Prop :=
  s.dataWriter = t.dataWriter ∧ s.indexWriter = t.indexWriter ∧ s.segmentMeta = t.segmentMeta

theorem Alike.refl (s : SegmentWriter) : Alike s s := ⟨rfl, rfl, rfl⟩

theorem Alike.clear {s t : SegmentWriter} (h : Alike s t) :
    ({ s with blockIndex := s.blockIndex.clear } : SegmentWriter) = { t with blockIndex := t.blockIndex.clear } := by
  obtain ⟨d, i, b, m⟩ := s
  obtain ⟨d', i', b', m'⟩ := t
  obtain ⟨rfl, rfl, rfl⟩ := h
  rfl

theorem onIndex_alike {α : Type} (m : Run Writer α) {s t : SegmentWriter} (h : Alike s t) :
    (SegmentWriter.onIndex m s).1 = (SegmentWriter.onIndex m t).1 ∧
    Alike (SegmentWriter.onIndex m s).2 (SegmentWriter.onIndex m t).2 := by
  obtain ⟨h1, h2, h3⟩ := h
  simp only [SegmentWriter.onIndex, Alike, h1, h2, h3, and_self]

theorem onData_alike {α : Type} (m : Run Writer α) {s t : SegmentWriter} (h : Alike s t) :
    (SegmentWriter.onData m s).1 = (SegmentWriter.onData m t).1 ∧
    Alike (SegmentWriter.onData m s).2 (SegmentWriter.onData m t).2 := by
  obtain ⟨h1, h2, h3⟩ := h
  simp only [SegmentWriter.onData, Alike, h1, h2, h3, and_self]

theorem bind_alike {α β : Type} {m : Run SegmentWriter α} {f : α → Run SegmentWriter β} {s t : SegmentWriter}
    (hm : (m s).1 = (m t).1 ∧ Alike (m s).2 (m t).2)
    (hf : ∀ a (s t : SegmentWriter), Alike s t → (f a s).1 = (f a t).1 ∧ Alike (f a s).2 (f a t).2) :
    ((m >>= f) s).1 = ((m >>= f) t).1 ∧ Alike ((m >>= f) s).2 ((m >>= f) t).2 := by
  rcases h1 : m s with ⟨x, s1⟩
  rcases h2 : m t with ⟨y, t1⟩
  rw [h1, h2] at hm
  obtain ⟨rfl, h⟩ := hm
  cases x with
  | error e => rw [Run.bind_error h1, Run.bind_error h2]; exact ⟨rfl, h⟩
  | ok a => rw [Run.bind_ok h1, Run.bind_ok h2]; exact hf a s1 t1 h

theorem close_alike (p : Profile) (os : SegmentOs) (order : HashOrder) {s t : SegmentWriter} (h : Alike s t) :
    (SegmentWriter.close p os order s).1 = (SegmentWriter.close p os order t).1 ∧
    Alike (SegmentWriter.close p os order s).2 (SegmentWriter.close p os order t).2 := by
  simp only [SegmentWriter.close]
  rw [h.2.1, h.2.2]
  refine bind_alike (onIndex_alike _ h) fun _ s t h => ?_
  refine bind_alike (onIndex_alike _ h) fun _ s t h => ?_
  exact bind_alike (onIndex_alike _ h) fun _ s t h => onData_alike _ h

theorem item_alike (p : Profile) (os : SegmentOs) (op : SegOp) {s t : SegmentWriter} (h : Alike s t) :
    (op.run p os s).1 = (op.run p os t).1 ∧ Alike (op.run p os s).2 (op.run p os t).2 := by
  cases op with
  | column info ops =>
    simp only [SegOp.run, SegmentWriter.newBinaryColumnWriter]
    rw [h.clear]
    exact ⟨rfl, .refl _⟩
  | close order =>
    obtain ⟨h1, h2⟩ := close_alike p os order h
    simp only [SegOp.run]
    exact ⟨by rw [h1], h2⟩

theorem idle_alike (p : Profile) (os : SegmentOs) (op : SegOp) (hi : Spec.Idle op = true) (s : SegmentWriter) :
    Alike (op.run p os s).2 s := by
  cases op with
  | close order => cases hi
  | column info ops =>
    simp only [SegOp.run, SegmentWriter.newBinaryColumnWriter]
    rcases he : newBinaryEncoder info.encoding BLOCK_SIZE info.nullable with f | e
    · exact ⟨rfl, rfl, rfl⟩
    · have : ops = [] := by
        simp only [Spec.Idle, Bool.or_eq_true, Bool.and_eq_true, decide_eq_true_eq, List.isEmpty_iff] at hi
        rcases hi with ⟨h1, h2⟩ | hi
        · rw [(C51_encoder_selection (α := Int32) _ _).2, if_neg h1, if_neg h2] at he
          cases he
        · exact hi
      subst this
      exact ⟨rfl, rfl, rfl⟩

end Idle
open Idle

/-- C125: items that ask for an encoding that is refused, or make no call on the column writer, may as well be left out: what comes
of the other items is the same, and so are the two files, their positions and the metadata. -/
theorem C125_idle (p : Profile) (os : SegmentOs) (ops : List SegOp) (s : SegmentWriter) :
    (runSeg p os (ops.filter fun op => !Spec.Idle op) s).1 =
      ((ops.zip (runSeg p os ops s).1).filter fun x => !Spec.Idle x.1).map Prod.snd ∧
    (runSeg p os (ops.filter fun op => !Spec.Idle op) s).2.dataWriter = (runSeg p os ops s).2.dataWriter ∧
    (runSeg p os (ops.filter fun op => !Spec.Idle op) s).2.indexWriter = (runSeg p os ops s).2.indexWriter ∧
    (runSeg p os (ops.filter fun op => !Spec.Idle op) s).2.segmentMeta = (runSeg p os ops s).2.segmentMeta := by
  have key : ∀ (ops : List SegOp) (s t : SegmentWriter), Alike s t →
      (runSeg p os (ops.filter fun op => !Spec.Idle op) s).1 =
        ((ops.zip (runSeg p os ops t).1).filter fun x => !Spec.Idle x.1).map Prod.snd ∧
      Alike (runSeg p os (ops.filter fun op => !Spec.Idle op) s).2 (runSeg p os ops t).2 := by
    intro ops
    induction ops with
    | nil => intro s t h; exact ⟨rfl, h⟩
    | cons op ops ih =>
      intro s t h
      cases hi : Spec.Idle op with
      | true =>
        have h1 := idle_alike p os op hi t
        have h2 := ih s (op.run p os t).2 ⟨h.1.trans h1.1.symm, h.2.1.trans h1.2.1.symm, h.2.2.trans h1.2.2.symm⟩
        simpa [runSeg, List.filter_cons, hi] using h2
      | false =>
        obtain ⟨h1, h2⟩ := item_alike p os op h
        obtain ⟨h3, h4⟩ := ih _ _ h2
        simp only [runSeg, List.filter_cons, hi, Bool.not_false, if_true, List.zip_cons_cons, List.map_cons, h1, h3]
        exact ⟨trivial, h4⟩
  exact (key ops s s (.refl s))

/-- A refused column and one without calls among others. The file behind them is the same, the results of the others too. -/
example : ∃ s, SegmentWriter.new .debug .reliable exampleInfo = .ok s ∧
    let ops := [SegOp.column { exampleColumn "x" with encoding := .bitPacked } [.write exampleBuffer, .close],
      .column (exampleColumn "a") [.write exampleBuffer, .close], .column (exampleColumn "y") [], .close .insertion]
    let run := runSeg .debug .reliable ops s
    let run' := runSeg .debug .reliable (ops.filter fun op => !Spec.Idle op) s
    run.1.length = 4 ∧ run'.1.length = 2 ∧
    run.2.dataWriter.file.content = DATA_FILE_SIGNATURE ++ [3, 120, 121, 122, 2, 2] ∧
    run'.2.dataWriter.file.content = run.2.dataWriter.file.content ∧
    run'.2.indexWriter.file.content = run.2.indexWriter.file.content := by
  refine exists_ok ?_
  decide +kernel

/-- A column with one call is not idle, even if the call is a close: it is listed. -/
example : ∃ s, SegmentWriter.new .debug .reliable exampleInfo = .ok s ∧
    let ops := [SegOp.column (exampleColumn "y") [.close]]
    ops.filter (fun op => !Spec.Idle op) ≠ [] ∧
    (runSeg .debug .reliable ops s).2.segmentMeta.columnsLayout.map (·.1) = ["y"] := by
  refine exists_ok ?_
  decide +kernel
