import Verif.Proofs.Agree
import Verif.Props.Segment
import Verif.Props.EncoderSink
import Verif.Model.BlockReader
import Verif.Model.Store

set_option autoImplicit false

/-! # C72: builds with and without overflow checks -/

namespace Meerkat

variable {S : Type}

/-- C72, primitive encoder: in any state and with any sink, a column written by a debug build ends with the panic of an
overflow check, or the release build does exactly the same: same result, same blocks, same encoder. -/
theorem C72_primitive {α : Type} [Element α] (k : Sink S) (bufs : List (PrimitiveBuffer α))
    (e : PrimitiveEnc.Encoder α) (s : S)
    (h : (PrimitiveEnc.encodeColumn .debug k bufs (e, s)).1 ≠ .error (.panic .overflow)) :
    PrimitiveEnc.encodeColumn .release k bufs (e, s) = PrimitiveEnc.encodeColumn .debug k bufs (e, s) :=
  ((PrimitiveEnc.agree_encodeColumn (.refl k) bufs).or (e, s)).resolve_left h

/-- C72, binary encoder. -/
theorem C72_binary (k : Sink S) (bufs : List BinaryBuffer) (e : BinaryEnc.Encoder) (s : S)
    (h : (BinaryEnc.encodeColumn .debug k bufs (e, s)).1 ≠ .error (.panic .overflow)) :
    BinaryEnc.encodeColumn .release k bufs (e, s) = BinaryEnc.encodeColumn .debug k bufs (e, s) :=
  ((BinaryEnc.agree_encodeColumn (.refl k) bufs).or (e, s)).resolve_left h

/-- C72, bitmaps: encoding any bits, then decoding any bytes. -/
theorem C72_bitmap (bits : List Bool) (encoded : Bytes) (decoded : List Nat) :
    (((Rle.Encoder.new.putAll .debug bits) >>= Rle.Encoder.flush .debug) ≠ .error .overflow →
      ((Rle.Encoder.new.putAll .release bits) >>= Rle.Encoder.flush .release) =
      ((Rle.Encoder.new.putAll .debug bits) >>= Rle.Encoder.flush .debug)) ∧
    (Rle.decode .debug encoded decoded ≠ .error .overflow →
      Rle.decode .release encoded decoded = Rle.decode .debug encoded decoded) :=
  ⟨fun h => (Agree.bind (Rle.Encoder.agree_putAll ..) fun e => e.agree_flush).or.resolve_left h,
    fun h => (Rle.agree_decode ..).or.resolve_left h⟩

/-- C72, block reader: for ranges that are not inverted the two builds can return the same results. -/
theorem C72_read_block (faulty : Bool) (file : Bytes) (range : BlockRange) (hr : range.start ≤ range.end)
    (r : Except ReadError Bytes) :
    ReadBlock .release faulty file range r ↔ ReadBlock .debug faulty file range r := by
  have hd : ∀ p : Profile, p.sub 64 range.end range.start = .ok (range.end - range.start) := fun p => Profile.sub_ok p hr
  constructor
  · intro h
    cases h with
    | overflow e he => rw [hd] at he; cases he
    | capacity n hn h1 => exact .capacity n (by rw [hd] at hn ⊢; exact hn) h1
    | read n hn h1 r h2 => exact .read n (by rw [hd] at hn ⊢; exact hn) h1 r h2
    | cancelled hf => exact .cancelled hf
  · intro h
    cases h with
    | overflow e he => rw [hd] at he; cases he
    | capacity n hn h1 => exact .capacity n (by rw [hd] at hn ⊢; exact hn) h1
    | read n hn h1 r h2 => exact .read n (by rw [hd] at hn ⊢; exact hn) h1 r h2
    | cancelled hf => exact .cancelled hf

/-- A call ended with the panic of an overflow check. -/
def SegResult.Overflowed : SegResult → Prop
  | .rejected _ => False
  | .column _ rs => ∃ x ∈ rs, x.2 = .error (.panic .overflow)
  | .closed r => r = .error (.panic .overflow)

theorem agree_runColOps (os : SegmentOs) (ops : List ColOp) : ∀ s,
    (∃ x ∈ (runColOps .debug os ops s).1, x.2 = .error (.panic .overflow)) ∨
    runColOps .release os ops s = runColOps .debug os ops s := by
  induction ops with
  | nil => intro s; exact .inr rfl
  | cons op ops ih =>
    intro s
    simp only [runColOps]
    rcases (op.agree_run os).or s with h | h
    · exact .inl ⟨_, List.mem_cons_self .., h⟩
    · rw [h]
      rcases ih (op.run .debug os s).2 with ⟨x, hx, hx2⟩ | h2
      · exact .inl ⟨x, List.mem_cons_of_mem _ hx, hx2⟩
      · rw [h2]; exact .inr rfl

theorem agree_segOp (os : SegmentOs) (op : SegOp) (s : SegmentWriter) :
    (op.run .debug os s).1.Overflowed ∨ op.run .release os s = op.run .debug os s := by
  cases op with
  | column info ops =>
    simp only [SegOp.run]
    rcases hc : SegmentWriter.newBinaryColumnWriter info s with ⟨x | c, s1⟩
    · exact .inr rfl
    · rcases agree_runColOps os ops (c, s1) with h | h
      · exact .inl h
      · simp only [h]; exact .inr trivial
  | close o =>
    simp only [SegOp.run]
    rcases (agree_segClose os o).or s with h | h
    · exact .inl h
    · rw [h]; exact .inr rfl

theorem writeBlock_profile (p q : Profile) (os : Os) (b : Bytes) (w : Writer) (h : w.pos + b.length < 2 ^ 64) :
    Writer.writeBlock p os b w = Writer.writeBlock q os b w := by
  simp only [Writer.writeBlock, Profile.add_ok _ h]

/-- The headers are too short for the position to overflow. -/
theorem writeHeaders_profile (p q : Profile) (os : SegmentOs) (s : SegmentWriter) (hi : s.indexWriter.pos = 0)
    (hd : s.dataWriter.pos = 0) : SegmentWriter.writeHeaders p os s = SegmentWriter.writeHeaders q os s := by
  simp only [SegmentWriter.writeHeaders, Run.bind_apply, SegmentWriter.onIndex]
  rw [writeBlock_profile p q os.index INDEX_FILE_SIGNATURE s.indexWriter (by rw [hi]; decide)]
  rcases Writer.writeBlock q os.index INDEX_FILE_SIGNATURE s.indexWriter with ⟨x | x, w⟩
  · rfl
  · simp only [SegmentWriter.onData]
    rw [writeBlock_profile p q os.data DATA_FILE_SIGNATURE s.dataWriter (by rw [hd]; decide)]

theorem new_pos {os : Os} {w : Writer} (h : Writer.new os = .ok w) : w.pos = 0 := by
  simp only [Writer.new] at h
  split at h <;> cases h
  rfl

/-- C72, segment writer: whatever the calls and whatever the operating system does, some call of a debug build ends with
the panic of an overflow check, or the release build returns the same results and leaves the same files. -/
theorem C72_segment (os : SegmentOs) (info : SegmentInfo) (ops : List SegOp) :
    (SegmentWriter.new .release os info = SegmentWriter.new .debug os info) ∧
    ∀ s, (∀ x ∈ (runSeg .debug os ops s).1, ¬ x.Overflowed) → runSeg .release os ops s = runSeg .debug os ops s := by
  refine ⟨?_, ?_⟩
  · simp only [SegmentWriter.new]
    rcases hi : Writer.new os.index with x | iw
    · rfl
    rcases hd : Writer.new os.data with x | dw
    · rfl
    simp only [ok_bind]
    rw [writeHeaders_profile .release .debug os _ (by exact new_pos hi) (by exact new_pos hd)]
  · induction ops with
    | nil => intro s _; rfl
    | cons op ops ih =>
      intro s hs
      simp only [runSeg] at hs ⊢
      have h := (agree_segOp os op s).resolve_left (hs _ (List.mem_cons_self ..))
      rw [h, ih _ fun x hx => hs x (List.mem_cons_of_mem _ hx)]

/-- C72, the functions that can be called by themselves: copying any range of a buffer of byte strings, the length of an item,
`has_nulls`, reading a varint, packing lengths, encoding any part of a bitmap, rounding up to a power of two. -/
theorem C72_functions {α : Type} (d b : BinaryBuffer) (pb : PrimitiveBuffer α) (i j v : Nat) (bytes dst : Bytes)
    (lens : List Nat) (e : Rle.Encoder) (bm : Bitmap) (k : Nat) :
    (d.appendFrom .debug b i j v ≠ .error .overflow → d.appendFrom .release b i j v = d.appendFrom .debug b i j v) ∧
    (b.itemLen .debug i ≠ .error .overflow → b.itemLen .release i = b.itemLen .debug i) ∧
    (b.hasNulls .debug ≠ .error .overflow → b.hasNulls .release = b.hasNulls .debug) ∧
    (pb.hasNulls .debug ≠ .error .overflow → pb.hasNulls .release = pb.hasNulls .debug) ∧
    (Varint.decodeVarint .debug bytes ≠ .error .overflow →
      Varint.decodeVarint .release bytes = Varint.decodeVarint .debug bytes) ∧
    (Offsets.encode .debug lens dst ≠ .error .overflow →
      Offsets.encode .release lens dst = Offsets.encode .debug lens dst) ∧
    (e.putFrom .debug bm i v ≠ .error .overflow → e.putFrom .release bm i v = e.putFrom .debug bm i v) ∧
    (Util.roundUptoPowerOf2 .debug i (2 ^ k) ≠ .error .overflow →
      Util.roundUptoPowerOf2 .release i (2 ^ k) = Util.roundUptoPowerOf2 .debug i (2 ^ k)) := by
  refine ⟨(agree_binary_appendFrom d b i j v).or.resolve_left, (agree_itemLen b i).or.resolve_left,
    (agree_binary_hasNulls b).or.resolve_left, (agree_primitive_hasNulls pb).or.resolve_left,
    (Varint.agree_decodeVarint bytes).or.resolve_left, (Offsets.agree_encode lens dst).or.resolve_left,
    (Rle.Encoder.agree_putFrom e bm i v).or.resolve_left, ?_⟩
  have hp : 2 ^ k > 0 ∧ 2 ^ k &&& (2 ^ k - 1) = 0 := ⟨Nat.two_pow_pos k, by
    rw [Nat.and_two_pow_sub_one_eq_mod, Nat.mod_self]⟩
  refine Or.resolve_left (Agree.or ?_)
  simp only [Util.roundUptoPowerOf2, hp]
  simp only [and_self, not_true_eq_false, and_false, if_false]
  exact .bind (Agree.sub ..) fun _ => .bind (Agree.add ..) fun _ => .refl _

/-- An inverted range of two empty items: the debug build panics in an overflow check, the release build copies nothing. And
a factor that is no power of two is refused by an assertion of the debug build only; the code never gives one. -/
example : (BinaryBuffer.ofRows false []).appendFrom .debug (BinaryBuffer.ofRows false [some [], some []]) 2 1 0 =
      .error .overflow ∧
    ((BinaryBuffer.ofRows false []).appendFrom .release (BinaryBuffer.ofRows false [some [], some []]) 2 1 0).isOk = true ∧
    Util.roundUptoPowerOf2 .debug 5 3 = .error .assertion ∧ Util.roundUptoPowerOf2 .release 5 3 = .ok 5 := by
  decide +kernel

/-- What the calls of a history of a directory return. -/
def Store.results (p : Profile) : List Store.Op → Store → List SegResult
  | [], _ => []
  | .on i op :: ops, t =>
    match t.segments[i]? with
    | some (some g) => (op.run p g.os g.writer).1 :: Store.results p ops (Store.run p (.on i op) t)
    | _ => Store.results p ops t
  | op :: ops, t => Store.results p ops (Store.run p op t)

/-- C72, a directory: any number of segments with any operating systems, their calls in any order. If no call of the
debug build ends with the panic of an overflow check, the calls of the release build return the same and leave the same directory
and the same writers. -/
theorem C72_store (ops : List Store.Op) (t : Store) (h : ∀ x ∈ Store.results .debug ops t, ¬ x.Overflowed) :
    Store.results .release ops t = Store.results .debug ops t ∧
    Store.runAll .release ops t = Store.runAll .debug ops t := by
  induction ops generalizing t with
  | nil => exact ⟨rfl, rfl⟩
  | cons op ops ih =>
    have e : ∀ p, Store.runAll p (op :: ops) t = Store.runAll p ops (Store.run p op t) := fun p => rfl
    rw [e, e]
    cases op with
    | create info os =>
      have hc : Store.createSegment .release os info t.dir = Store.createSegment .debug os info t.dir := by
        simp only [Store.createSegment]
        rcases hi : Writer.new os.index with x | iw
        · rfl
        rcases hd : Writer.new os.data with x | dw
        · rfl
        dsimp only
        rw [writeHeaders_profile .release .debug os _ (by exact new_pos hi) (by exact new_pos hd)]
      have hrun : Store.run .release (.create info os) t = Store.run .debug (.create info os) t := by
        simp only [Store.run, hc]
      simp only [Store.results] at h ⊢
      rw [hrun]
      exact ih _ h
    | on i op =>
      rcases hg : t.segments[i]? with _ | (_ | g)
      · have hrun : ∀ p, Store.run p (.on i op) t = t := fun p => by simp only [Store.run, hg]
        simp only [Store.results, hg, hrun] at h ⊢
        exact ih _ h
      · have hrun : ∀ p, Store.run p (.on i op) t = t := fun p => by simp only [Store.run, hg]
        simp only [Store.results, hg, hrun] at h ⊢
        exact ih _ h
      · simp only [Store.results, hg] at h ⊢
        have ha := (agree_segOp g.os op g.writer).resolve_left (h _ (List.mem_cons_self ..))
        have hrun : Store.run .release (.on i op) t = Store.run .debug (.on i op) t := by simp only [Store.run, hg, ha]
        obtain ⟨i1, i2⟩ := ih _ fun x hx => h x (List.mem_cons_of_mem _ hx)
        rw [hrun, ha]
        exact ⟨by rw [i1], i2⟩
    | sync i => exact ih _ h

/-- Two segments written in turn, without an overflow: five calls, all of them good. -/
example : let ops : List Store.Op := [.create exampleInfo .reliable,
      .create { exampleInfo with segmentId := List.replicate 16 9 } .reliable,
      .on 0 (.column (exampleColumn "a") [.write exampleBuffer, .close]),
      .on 1 (.column (exampleColumn "b") [.write exampleBuffer, .close]), .on 0 (.close .insertion), .sync 0,
      .on 1 (.column (exampleColumn "c") [.write exampleBuffer, .close]), .on 1 (.close .insertion)]
    let t : Store := { dir := fun _ => none, segments := [] }
    (Store.results .debug ops t).length = 5 ∧ (∀ x ∈ Store.results .debug ops t, x.Good) ∧
    ((Store.runAll .release ops t).dir (dataFileName exampleInfo.segmentId)).map List.length = some 19 := by
  decide +kernel

/-- A column on which the builds differ: with blocks of 6 bytes the third call of a primitive encoder computes 6 - 8. And
one on which both panic alike: a nullable buffer for a column that is not nullable is refused, whatever the build. -/
example : let b (x : Int32) : PrimitiveBuffer Int32 := .ofRows false [some x]
    let e : PrimitiveEnc.Encoder Int32 := .new 6 false
    (PrimitiveEnc.encodeColumn .debug recorder [b 1, b 2, b 3] (e, [])).1 = .error (.panic .overflow) ∧
    (PrimitiveEnc.encodeColumn .release recorder [b 1, b 2, b 3] (e, [])).1 = .ok () ∧
    (PrimitiveEnc.encodeColumn .debug recorder [.ofRows true [some 1]] (e, [])).1 = .error (.panic .expect) ∧
    (PrimitiveEnc.encodeColumn .release recorder [.ofRows true [some 1]] (e, [])).1 = .error (.panic .expect) := by
  decide +kernel

end Meerkat
