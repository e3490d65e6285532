import Verif.Proofs.BlockReader
import Verif.Props.BlockWriter

set_option autoImplicit false

/-! # Block reader: C43, C44, C45 -/

namespace Meerkat

/-- **C43.** When `pread` does not fail, `read_block` returns the bytes of the range if the file has it and
an error otherwise, in both profiles. (File sizes are below 2^63.) -/
theorem C43_read_block (p : Profile) (file : Bytes) (hlen : file.length < 2 ^ 63) (range : BlockRange)
    (hs : range.start < 2 ^ 64) (r : Except ReadError Bytes) (h : ReadBlock p false file range r) :
    (InFile file range → r = .ok (bytesOf file range)) ∧ (¬ InFile file range → ∃ e, r = .error e) := by
  rcases r with e | bs
  · exact ⟨fun hin => absurd hin (h.error_spec hlen), fun _ => ⟨e, rfl⟩⟩
  · obtain ⟨h1, h2⟩ := h.ok_spec hlen hs
    exact ⟨fun _ => by rw [h2], fun hn => absurd h1 hn⟩

/-- **C43.** Even when `pread` fails or is interrupted, `read_block` never returns other or fewer bytes. -/
theorem C43_no_wrong_bytes (p : Profile) (file : Bytes) (hlen : file.length < 2 ^ 63) (range : BlockRange)
    (hs : range.start < 2 ^ 64) (bs : Bytes) (h : ReadBlock p true file range (.ok bs)) :
    InFile file range ∧ bs = bytesOf file range ∧ bs.length = range.end - range.start := by
  obtain ⟨h1, h2⟩ := h.ok_spec hlen hs
  refine ⟨h1, h2, ?_⟩
  rw [h2, bytesOf, List.length_take, List.length_drop]
  rcases h1 with ⟨h3, h4⟩
  omega

/-- **C43.** Every call has a result: a panic of the background task is an error like any other. -/
theorem C43_total (p : Profile) (faulty : Bool) (file : Bytes) (range : BlockRange) :
    ∃ r, ReadBlock p faulty file range r := ReadBlock.exists p faulty file range

/-- A range read in two parts, a reversed one, one past the end, an empty one past the end. -/
example : ReadBlock .release false [1, 2, 3, 4] ⟨1, 4⟩ (.ok [2, 3, 4]) ∧
    ReadBlock .debug false [1, 2, 3, 4] ⟨3, 2⟩ (.error .task) ∧
    ReadBlock .release false [1, 2, 3, 4] ⟨3, 2⟩ (.error .task) ∧
    ReadBlock .debug false [1, 2, 3, 4] ⟨3, 5⟩ (.error .eof) ∧
    ReadBlock .debug false [1, 2, 3, 4] ⟨9, 9⟩ (.ok []) := by
  refine ⟨.read 3 rfl (by decide) _ (.read 1 3 2 (by decide) (by decide) (by decide) (.ok [4])
      (.read 3 1 1 (by decide) (by decide) (by decide) (.ok []) (.full _))), .overflow .overflow rfl,
    .capacity (2 ^ 64 - 1) rfl (by decide), .read 2 rfl (by decide) _
      (.read 3 2 1 (by decide) (by decide) (by decide) (.error .eof) (.eof _ _ (by decide) (by decide))),
    .read 0 rfl (by decide) _ (.full _)⟩

open ReadStream

/-- **C44.** Whatever the order in which reads complete, when the stream has ended it has yielded one
result per op, in the order of the ops, with the op_info of the op and a result `read_block` can have for
its range. -/
theorem C44_results_in_order (p : Profile) (faulty : Bool) (file : Bytes) (ops : List ReadOp) (n : Nat)
    (s : ReadStream) (h : Steps (ReadBlock p faulty file) n (start ops) s) (hend : s.Ended) :
    s.out.length = ops.length ∧
    ∀ (i : Nat) (op : ReadOp), ops[i]? = some op →
      ∃ r, s.out[i]? = some { opInfo := op.opInfo, result := r } ∧ ReadBlock p faulty file op.blockRange r := by
  have hi := (Inv.start ops).steps h
  have he := hi.ended hend
  refine ⟨by rw [hi.outLength, he], fun i op hget => ?_⟩
  have hlt : i < ops.length := by
    rw [List.getElem?_eq_some_iff] at hget; exact hget.1
  exact hi.outResults i op (by omega) hget

/-- **C44.** What has been yielded at any moment is in order too. -/
theorem C44_prefix_in_order (p : Profile) (faulty : Bool) (file : Bytes) (ops : List ReadOp) (n : Nat)
    (s : ReadStream) (h : Steps (ReadBlock p faulty file) n (start ops) s) :
    s.out.length ≤ ops.length ∧
    ∀ i op, i < s.out.length → ops[i]? = some op →
      ∃ r, s.out[i]? = some { opInfo := op.opInfo, result := r } ∧ ReadBlock p faulty file op.blockRange r := by
  have hi := (Inv.start ops).steps h
  have h1 := hi.outgoing
  have h2 := hi.incoming
  have h3 := hi.outLength
  exact ⟨by omega, fun i op hlt hget => hi.outResults i op (by omega) hget⟩

/-- **C44.** At most two reads are pending at any time. -/
theorem C44_at_most_two (p : Profile) (faulty : Bool) (file : Bytes) (ops : List ReadOp) (n : Nat)
    (s : ReadStream) (h : Steps (ReadBlock p faulty file) n (start ops) s) : s.running.length + s.queued.length ≤ 2 :=
  ((Inv.start ops).steps h).room

/-- **C44.** The stream cannot go on for ever, and whatever happened so far it can be carried to its end:
until then a step is always possible. -/
theorem C44_ends (p : Profile) (faulty : Bool) (file : Bytes) (ops : List ReadOp) (n : Nat)
    (s : ReadStream) (h : Steps (ReadBlock p faulty file) n (start ops) s) :
    n ≤ 3 * ops.length ∧ (¬ s.Ended → ∃ t, Step (ReadBlock p faulty file) s t) ∧
    ∃ m t, Steps (ReadBlock p faulty file) m (start ops) t ∧ t.Ended := by
  have hi := (Inv.start ops).steps h
  refine ⟨?_, hi.progress (ReadBlock.exists p faulty file), hi.finishes (ReadBlock.exists p faulty file) h⟩
  have := h.measure
  simp only [ReadStream.measure, start, List.length_nil] at this
  omega

/-- **C44**, for all of these at once and whatever results `read_block` can have, so also for a file that somebody is
writing to. -/
theorem C44_any_reads (reads : BlockRange → Except ReadError Bytes → Prop) (htotal : ∀ range, ∃ r, reads range r)
    (ops : List ReadOp) (n : Nat) (s : ReadStream) (h : Steps reads n (start ops) s) :
    s.out.length ≤ ops.length ∧ (s.Ended → s.out.length = ops.length) ∧
    (∀ i op, i < s.out.length → ops[i]? = some op →
      ∃ r, s.out[i]? = some { opInfo := op.opInfo, result := r } ∧ reads op.blockRange r) ∧
    s.running.length + s.queued.length ≤ 2 ∧ n ≤ 3 * ops.length ∧ (¬ s.Ended → ∃ t, Step reads s t) ∧
    ∃ m t, Steps reads m (start ops) t ∧ t.Ended := by
  have hi := (Inv.start ops).steps h
  have h1 := hi.outgoing
  have h2 := hi.incoming
  have h3 := hi.outLength
  refine ⟨by omega, fun he => by rw [h3, hi.ended he], fun i op hlt hget => hi.outResults i op (by omega) hget, hi.room, ?_,
    hi.progress htotal, hi.finishes htotal h⟩
  have := h.measure
  simp only [ReadStream.measure, start, List.length_nil] at this
  omega

/-- The second read completes first; the first one fails. -/
example : ∃ n s, Steps (ReadBlock .debug false [7, 8, 9]) n
    (start [⟨⟨2, 4⟩, .dataBlock 0⟩, ⟨⟨0, 1⟩, .dataBlock 1⟩]) s ∧ s.Ended ∧
    s.out = [{ opInfo := .dataBlock 0, result := .error .eof }, { opInfo := .dataBlock 1, result := .ok [7] }] := by
  refine ⟨5, _, .step (.step (.step (.step (.step (.refl _) (.fill _ _ _ rfl (by decide)))
    (.fill _ _ _ rfl (by decide))) (.finishLater _ [_] [] 1 _ (.ok [7]) rfl (by decide) ?_))
    (.finishNext _ [] [] _ (.error .eof) rfl ?_)) (.pop _ [] [] _ _ rfl), ⟨rfl, rfl, rfl⟩, rfl⟩
  · exact .read 1 rfl (by decide) _ (.read 0 1 1 (by decide) (by decide) (by decide) (.ok []) (.full _))
  · exact .read 2 rfl (by decide) _
      (.read 2 2 1 (by decide) (by decide) (by decide) (.error .eof) (.eof _ _ (by decide) (by decide)))

/-- The writes of `writeAndNote` are those of `runOps`. -/
theorem writeAndNote_run (p : Profile) (os : Os) (items : List (Bytes × OpInfo)) (w : Writer) :
    (writeAndNote p os items w).2.2 = (runOps p os ((items.map Prod.fst).map .write) w).2 ∧
    (writeAndNote p os items w).2.1 = (runOps p os ((items.map Prod.fst).map .write) w).1.map Prod.snd := by
  induction items generalizing w with
  | nil => exact ⟨rfl, rfl⟩
  | cons x items ih =>
    rcases x with ⟨b, info⟩
    simp only [List.map_cons, writeAndNote, runOps, WriterOp.run]
    exact ⟨(ih _).1, by rw [(ih _).2]⟩

/-- The ops of `writeAndNote` name the blocks. -/
theorem writeAndNote_ops (p : Profile) (os : Os) (items : List (Bytes × OpInfo)) (w : Writer) (pre : Bytes)
    (hpos : w.pos = pre.length) (hlen : pre.length + (items.map Prod.fst).flatten.length < 2 ^ 63) :
    (writeAndNote p os items w).1.length = items.length ∧
    ∀ (i : Nat) (x : Bytes × OpInfo), items[i]? = some x → ∃ op, (writeAndNote p os items w).1[i]? = some op ∧ op.opInfo = x.2 ∧
      op.blockRange.start < 2 ^ 64 ∧ InFile (pre ++ (items.map Prod.fst).flatten) op.blockRange ∧
      bytesOf (pre ++ (items.map Prod.fst).flatten) op.blockRange = x.1 := by
  induction items generalizing w pre with
  | nil => simp [writeAndNote]
  | cons x items ih =>
    rcases x with ⟨b, info⟩
    simp only [List.map_cons, List.flatten_cons, List.length_append] at hlen
    have hw' : (Writer.writeBlock p os b w).2.pos = pre.length + b.length := by
      simp only [Writer.writeBlock, p.add_ok (show w.pos + b.length < 2 ^ 64 by omega), Writer.onFile]
      rw [hpos]
    obtain ⟨h1, h2⟩ := ih (Writer.writeBlock p os b w).2 (pre ++ b) (by rw [hw']; simp)
      (by rw [List.length_append]; omega)
    refine ⟨by simp only [writeAndNote, List.length_cons, h1], ?_⟩
    intro i x hx
    cases i with
    | zero =>
      simp only [List.getElem?_cons_zero, Option.some.injEq] at hx
      subst hx
      refine ⟨⟨⟨w.pos, (Writer.writeBlock p os b w).2.pos⟩, info⟩, rfl, rfl, by dsimp only; omega, ⟨by dsimp only; omega, Or.inr ?_⟩, ?_⟩
      · dsimp only; rw [hw']; simp
      · simp only [bytesOf, hw', hpos]; simp
    | succ i =>
      simp only [List.getElem?_cons_succ] at hx
      obtain ⟨op, h3, h4⟩ := h2 i x hx
      refine ⟨op, by simpa only [writeAndNote, List.getElem?_cons_succ] using h3, ?_⟩
      simpa using h4

/-- **C45.** Blocks written to a new file, flushed and read back with the positions noted at the writes
come back byte for byte, in order, with their op_info, under every schedule of the reads. -/
theorem C45_write_then_read (p q : Profile) (os : Os) (w : Writer) (hw : Writer.new os = .ok w)
    (items : List (Bytes × OpInfo)) (hlen : (items.map Prod.fst).flatten.length < 2 ^ 63)
    (hok : ∀ r ∈ (writeAndNote p os items w).2.1, r = .ok ()) (w' : Writer)
    (hflush : Writer.flush os (writeAndNote p os items w).2.2 = (.ok (), w'))
    (n : Nat) (s : ReadStream)
    (hrun : Steps (ReadBlock q false w'.file.content) n (start (writeAndNote p os items w).1) s) (hend : s.Ended) :
    s.out = items.map (fun x => { opInfo := x.2, result := .ok x.1 }) := by
  obtain ⟨hr1, hr2⟩ := writeAndNote_run p os items w
  have hcontent : w'.file.content = (items.map Prod.fst).flatten := by
    refine ((C40_position_is_length p os w hw (items.map Prod.fst) (by omega) ?_).2.2 w' ?_).1
    · intro x hx
      refine hok _ ?_
      rw [hr2]
      exact List.mem_map_of_mem hx
    · rw [← hr1]; exact hflush
  obtain ⟨ho1, ho2⟩ := writeAndNote_ops p os items w [] (by rw [new_file hw]; rfl) (by simpa using hlen)
  obtain ⟨hs1, hs2⟩ := C44_results_in_order q false _ _ n s hrun hend
  rw [hcontent] at hs2
  simp only [List.nil_append] at ho2
  apply List.ext_getElem?
  intro i
  by_cases hi : i < items.length
  · obtain ⟨op, h1, h2, h3, h4, h5⟩ := ho2 i items[i] (List.getElem?_eq_getElem hi)
    obtain ⟨r, h6, h7⟩ := hs2 i op h1
    have := (C43_read_block q _ hlen _ h3 r h7).1 h4
    rw [h6, List.getElem?_map, List.getElem?_eq_getElem hi, this, h5, h2]
    rfl
  · rw [List.getElem?_eq_none (by omega), List.getElem?_eq_none (by simpa using hi)]

/-- **C45.** When reads can fail, each result is the block written or an error. -/
theorem C45_write_then_read_faulty (p q : Profile) (os : Os) (w : Writer) (hw : Writer.new os = .ok w)
    (items : List (Bytes × OpInfo)) (hlen : (items.map Prod.fst).flatten.length < 2 ^ 63)
    (hok : ∀ r ∈ (writeAndNote p os items w).2.1, r = .ok ()) (w' : Writer)
    (hflush : Writer.flush os (writeAndNote p os items w).2.2 = (.ok (), w'))
    (n : Nat) (s : ReadStream)
    (hrun : Steps (ReadBlock q true w'.file.content) n (start (writeAndNote p os items w).1) s) (hend : s.Ended) :
    s.out.length = items.length ∧ ∀ (i : Nat) (x : Bytes × OpInfo), items[i]? = some x → ∃ y, s.out[i]? = some y ∧ y.opInfo = x.2 ∧
      (y.result = .ok x.1 ∨ ∃ e, y.result = .error e) := by
  obtain ⟨hr1, hr2⟩ := writeAndNote_run p os items w
  have hcontent : w'.file.content = (items.map Prod.fst).flatten := by
    refine ((C40_position_is_length p os w hw (items.map Prod.fst) (by omega) ?_).2.2 w' ?_).1
    · intro x hx
      refine hok _ ?_
      rw [hr2]
      exact List.mem_map_of_mem hx
    · rw [← hr1]; exact hflush
  obtain ⟨ho1, ho2⟩ := writeAndNote_ops p os items w [] (by rw [new_file hw]; rfl) (by simpa using hlen)
  obtain ⟨hs1, hs2⟩ := C44_results_in_order q true _ _ n s hrun hend
  rw [hcontent] at hs2
  simp only [List.nil_append] at ho2
  refine ⟨by omega, fun i x hx => ?_⟩
  obtain ⟨op, h1, h2, h3, h4, h5⟩ := ho2 i x hx
  obtain ⟨r, h6, h7⟩ := hs2 i op h1
  refine ⟨_, h6, h2, ?_⟩
  rcases r with e | bs
  · exact Or.inr ⟨e, rfl⟩
  · obtain ⟨_, h8, _⟩ := C43_no_wrong_bytes q _ hlen _ h3 bs h7
    exact Or.inl (by rw [h8, h5])

/-- The ops noted for two blocks. -/
example : ∃ w, Writer.new Os.reliable = .ok w ∧
    (writeAndNote .debug Os.reliable [([1, 2, 3], .indexBlock), ([4], .dataBlock 5)] w).1 =
      [⟨⟨0, 3⟩, .indexBlock⟩, ⟨⟨3, 4⟩, .dataBlock 5⟩] ∧
    (writeAndNote .debug Os.reliable [([1, 2, 3], .indexBlock), ([4], .dataBlock 5)] w).2.1 = [.ok (), .ok ()] :=
  ⟨_, rfl, by decide +kernel⟩

end Meerkat
