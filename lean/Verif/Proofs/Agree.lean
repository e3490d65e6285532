import Verif.Model.SegmentWriter
import Verif.Spec.Segment
import Verif.Proofs.Varint
import Verif.Proofs.Unwind

set_option autoImplicit false

/-! # The two build profiles agree until the debug build panics because of an overflow -/

namespace Meerkat

/-- The debug build panics because of an overflow, or the release build does the same. -/
structure Agree {α : Type} (d r : Res α) : Prop where
  or : d = .error .overflow ∨ r = d

namespace Agree
variable {α β : Type}

theorem refl (x : Res α) : Agree x x := ⟨.inr rfl⟩

theorem bind {d r : Res α} {f g : α → Res β} (h : Agree d r) (hf : ∀ a, Agree (f a) (g a)) :
    Agree (d >>= f) (r >>= g) := by
  rcases h.or with h | h
  · rw [h]; exact ⟨.inl rfl⟩
  · rw [h]
    rcases d with e | a
    · exact ⟨.inr rfl⟩
    · exact hf a

theorem ite {c : Prop} [Decidable c] {a b a' b' : Res α} (h : c → Agree a a') (h' : ¬ c → Agree b b') :
    Agree (if c then a else b) (if c then a' else b') := by
  split
  · exact h ‹_›
  · exact h' ‹_›

theorem add (w a b : Nat) : Agree (Profile.add .debug w a b) (Profile.add .release w a b) := by
  simp only [Profile.add]
  split
  · exact refl _
  · exact ⟨.inl rfl⟩

theorem sub (w a b : Nat) : Agree (Profile.sub .debug w a b) (Profile.sub .release w a b) := by
  simp only [Profile.sub]
  split
  · exact refl _
  · exact ⟨.inl rfl⟩

theorem foldlM {γ : Type} {f g : γ → α → Res γ} (h : ∀ c a, Agree (f c a) (g c a)) (l : List α) :
    ∀ c, Agree (l.foldlM f c) (l.foldlM g c) := by
  induction l with
  | nil => intro c; exact refl _
  | cons a l ih =>
    intro c
    simp only [List.foldlM_cons]
    exact bind (h c a) ih

end Agree

/-! ## bitmap_rle.rs, offsets.rs, varint.rs, util.rs -/

namespace Rle

theorem Encoder.agree_append (e : Encoder) (c : Byte) : Agree (e.append .debug c) (e.append .release c) := by
  refine .bind ?_ fun _ => .refl _
  simp only [Encoder.appendMatch]
  split
  · exact .refl _
  · exact .ite (fun _ => .bind (Agree.sub ..) fun _ => .refl _) fun _ => .refl _
  · exact .refl _
  · exact .refl _

theorem Encoder.agree_put (e : Encoder) (b : Bool) : Agree (e.put .debug b) (e.put .release b) :=
  .bind (.refl _) fun _ => .ite (fun _ => .bind (agree_append ..) fun _ => .refl _) fun _ => .refl _

theorem Encoder.agree_putAll (e : Encoder) (bs : List Bool) : Agree (e.putAll .debug bs) (e.putAll .release bs) :=
  .foldlM agree_put bs e

theorem Encoder.agree_putFrom (e : Encoder) (bm : Bitmap) (pos n : Nat) :
    Agree (e.putFrom .debug bm pos n) (e.putFrom .release bm pos n) := by
  simp only [Encoder.putFrom]
  generalize hk : bm.len - pos = k
  induction k using Nat.strongRecOn generalizing e pos n with
  | ind k ih =>
    rw [Encoder.putFromLoop, Encoder.putFromLoop]
    refine .ite (fun _ => .refl _) fun _ => ?_
    by_cases hlt : pos < bm.len
    · rw [dif_pos hlt, dif_pos hlt]
      exact .bind (.refl _) fun b => .bind (agree_put ..) fun e' => ih _ (by omega) e' _ _ rfl
    · rw [dif_neg hlt, dif_neg hlt]
      exact .refl _

theorem Encoder.agree_flush (e : Encoder) : Agree (e.flush .debug) (e.flush .release) := by
  simp only [Encoder.flush]
  split
  · exact .bind (agree_append ..) fun _ => .refl _
  · exact .refl _

end Rle

namespace Varint

theorem agree_decodeVarint (buf : Bytes) : Agree (decodeVarint .debug buf) (decodeVarint .release buf) := by
  rw [decode_rest, decode_rest]
  exact .refl _

end Varint

namespace Rle

theorem Decoder.agree_decodeByte (d : Decoder) (b : Byte) : Agree (d.decodeByte .debug b) (d.decodeByte .release b) :=
  .foldlM (f := decodeBit .debug b) (g := decodeBit .release b)
    (fun c m => by
      simp only [decodeBit]
      split
      · exact .bind (.refl _) fun _ => .bind (.refl _) fun _ => .bind (Agree.add ..) fun _ => .refl _
      · exact .bind (.refl _) fun _ => .bind (Agree.add ..) fun _ => .refl _) _ d

theorem Decoder.agree_onesLoop (n : Nat) : ∀ d, Agree (onesLoop .debug n d) (onesLoop .release n d) := by
  induction n with
  | zero => intro d; exact .refl _
  | succ n ih => intro d; exact .bind (.refl _) fun _ => .bind (Agree.add ..) fun _ => ih _

theorem Decoder.agree_bytesLoop (v : Byte) (n : Nat) : ∀ d, Agree (bytesLoop .debug v n d) (bytesLoop .release v n d) := by
  induction n with
  | zero => intro d; exact .refl _
  | succ n ih => intro d; exact .bind (agree_decodeByte ..) fun _ => ih _

theorem Decoder.agree_decodeFrame (d : Decoder) (f : Frame) : Agree (d.decodeFrame .debug f) (d.decodeFrame .release f) := by
  cases f with
  | run len v =>
    exact .ite (fun _ => .bind (Agree.add ..) fun _ => .refl _) fun _ =>
      .ite (fun _ => agree_onesLoop ..) fun _ => agree_bytesLoop ..
  | bitmap bs => exact .foldlM agree_decodeByte bs d

theorem Decoder.agree_readFrame (d : Decoder) : Agree (d.readFrame .debug) (d.readFrame .release) := by
  simp only [readFrame]
  refine .bind (.refl _) fun _ => .bind (Varint.agree_decodeVarint _) fun x => ?_
  rcases x with _ | ⟨h, n⟩ <;> exact .refl _

theorem Decoder.agree_decodeLoop (n : Nat) : ∀ d, Agree (decodeLoop .debug n d) (decodeLoop .release n d) := by
  induction n with
  | zero => intro d; exact .refl _
  | succ n ih =>
    intro d
    exact .ite (fun _ => .bind (agree_readFrame d) fun x => .bind (agree_decodeFrame ..) fun _ => ih _) fun _ => .refl _

theorem agree_decode (e : Bytes) (d : List Nat) : Agree (decode .debug e d) (decode .release e d) :=
  .bind (.bind (Decoder.agree_decodeLoop ..) fun _ => .refl _) fun _ => .refl _

end Rle

namespace Offsets

theorem agree_encode (src : List Nat) (dst : Bytes) : Agree (encode .debug src dst) (encode .release src dst) := by
  refine .bind ?_ fun _ => .refl _
  have h : BLOCK_LEN > 0 ∧ BLOCK_LEN &&& (BLOCK_LEN - 1) = 0 := by decide
  simp only [Util.roundUptoPowerOf2, h]
  simp only [and_self, not_true_eq_false, and_false, if_false]
  exact .bind (Agree.sub ..) fun _ => .bind (Agree.add ..) fun _ => .refl _

end Offsets

/-! ## The buffers -/

theorem agree_itemLen (b : BinaryBuffer) (i : Nat) : Agree (b.itemLen .debug i) (b.itemLen .release i) :=
  .bind (.refl _) fun _ => .bind (.refl _) fun _ => Agree.sub ..

theorem agree_appendFromOffsets (b : BinaryBuffer) (k : Nat) : ∀ i last,
    Agree (BinaryBuffer.appendFromOffsets .debug b k i last) (BinaryBuffer.appendFromOffsets .release b k i last) := by
  induction k with
  | zero => intro i last; exact .refl _
  | succ k ih =>
    intro i last
    exact .bind (agree_itemLen ..) fun _ => .bind (Agree.add ..) fun _ => .bind (ih ..) fun _ => .refl _

theorem agree_binary_appendFrom (d b : BinaryBuffer) (i j v : Nat) :
    Agree (d.appendFrom .debug b i j v) (d.appendFrom .release b i j v) :=
  .bind (.refl _) fun _ => .bind (.refl _) fun _ => .bind (Agree.sub ..) fun _ => .bind (agree_appendFromOffsets ..) fun _ =>
    .refl _

theorem agree_primitive_hasNulls {α : Type} (b : PrimitiveBuffer α) : Agree (b.hasNulls .debug) (b.hasNulls .release) := by
  simp only [PrimitiveBuffer.hasNulls]
  split
  · exact .bind (Agree.sub ..) fun _ => .refl _
  · exact .refl _

theorem agree_binary_hasNulls (b : BinaryBuffer) : Agree (b.hasNulls .debug) (b.hasNulls .release) := by
  simp only [BinaryBuffer.hasNulls]
  split
  · exact .bind (Agree.sub ..) fun _ => .refl _
  · exact .refl _

/-! ## Calls -/

/-- The call of the debug build panics because of an overflow, or that of the release build does the same. -/
structure RunAgree {σ α : Type} (d r : Run σ α) : Prop where
  or : ∀ s, (d s).1 = .error (.panic .overflow) ∨ r s = d s

namespace RunAgree
variable {σ α β : Type}

theorem refl (m : Run σ α) : RunAgree m m := ⟨fun _ => .inr rfl⟩

theorem bind {d r : Run σ α} {f g : α → Run σ β} (h : RunAgree d r) (hf : ∀ a, RunAgree (f a) (g a)) :
    RunAgree (d >>= f) (r >>= g) := by
  refine ⟨fun s => ?_⟩
  rcases h.or s with h | h
  · refine .inl ?_
    show (Run.bind d f s).1 = _
    rcases hd : d s with ⟨x | x, s'⟩
    · rw [hd] at h; simp only [Run.bind, hd]; cases h; rfl
    · rw [hd] at h; cases h
  · show (Run.bind d f s).1 = _ ∨ Run.bind r g s = Run.bind d f s
    rcases hd : d s with ⟨x | x, s'⟩
    · simp only [Run.bind, h, hd]; exact .inr trivial
    · simp only [Run.bind, h, hd]; exact (hf x).or s'

theorem ite {c : Prop} [Decidable c] {a b a' b' : Run σ α} (h : c → RunAgree a a') (h' : ¬ c → RunAgree b b') :
    RunAgree (if c then a else b) (if c then a' else b') := by
  split
  · exact h ‹_›
  · exact h' ‹_›

theorem lift {d r : Res α} (h : Agree d r) : RunAgree (Run.lift d : Run σ α) (Run.lift r) := by
  refine ⟨fun s => ?_⟩
  rcases h.or with h | h
  · rw [h]; exact .inl rfl
  · rw [h]; exact .inr rfl

theorem leaving {d r : Res α} {f g : σ → σ} (h : Agree d r) (hl : d = .error .overflow ∨ f = g) :
    RunAgree (Run.lift d f) (Run.lift r g) := by
  refine ⟨fun s => ?_⟩
  rcases h.or with h | h
  · rw [h]; exact .inl rfl
  · rcases hl with h2 | h2
    · rw [h2]; exact .inl rfl
    · rw [h, h2]; exact .inr rfl

end RunAgree

/-- Sinks of the two builds. -/
def SinkAgree {S : Type} (d r : Sink S) : Prop := ∀ s id data,
  (d.write s id data).1 = .error (.panic .overflow) ∨ r.write s id data = d.write s id data

theorem SinkAgree.refl {S : Type} (k : Sink S) : SinkAgree k k := fun _ _ _ => .inr rfl

theorem SinkAgree.emit {S E : Type} {d r : Sink S} (h : SinkAgree d r) (id : Nat) (data : Bytes) :
    RunAgree (Run.emit (E := E) d id data) (Run.emit r id data) := by
  refine ⟨fun s => ?_⟩
  rcases h s.2 id data with h | h
  · exact .inl h
  · exact .inr (by simp only [Run.emit, h])

section
variable {S : Type} {kd kr : Sink S}

namespace PrimitiveEnc
variable {α : Type} [Element α]

theorem agree_encodeValidity (v : Option Bitmap) (pos n : Nat) (be : Rle.Encoder) :
    Agree (encodeValidity .debug v pos n be) (encodeValidity .release v pos n be) := by
  cases v with
  | none => exact Agree.refl _
  | some v => exact Agree.bind (Rle.Encoder.agree_putFrom ..) fun _ => Agree.bind (Rle.Encoder.agree_flush _) fun _ => Agree.refl _

theorem agree_encodePrimitiveBuffer (b : PrimitiveBuffer α) (st en pos : Nat) (be : Rle.Encoder) :
    Agree (encodePrimitiveBuffer .debug b st en pos be) (encodePrimitiveBuffer .release b st en pos be) :=
  Agree.bind (Agree.sub ..) fun _ => Agree.bind (Agree.refl _) fun _ => Agree.bind (Agree.refl _) fun _ =>
    Agree.bind (agree_encodeValidity ..) fun _ => Agree.refl _

theorem agree_chunk (b : PrimitiveBuffer α) (st m : Nat) : Agree (chunk .debug b st m) (chunk .release b st m) :=
  Agree.bind (Agree.add ..) fun _ => Agree.refl _

theorem agree_writeRange (hk : SinkAgree kd kr) (b : PrimitiveBuffer α) (st en pos : Nat) :
    RunAgree (writeRange .debug kd b st en pos) (writeRange .release kr b st en pos) := by
  refine .bind (.refl _) fun e => .bind (.lift (agree_encodePrimitiveBuffer ..)) fun x => ?_
  obtain ⟨res, data, be⟩ := x
  exact .bind (.refl _) fun _ => .bind (.refl _) fun _ => .bind (.refl _) fun _ => .bind (.lift (Agree.sub ..)) fun _ =>
    .bind (hk.emit ..) fun _ => .refl _

theorem agree_writeRemaining (hk : SinkAgree kd kr) :
    RunAgree (writeRemaining (α := α) .debug kd) (writeRemaining .release kr) :=
  .bind (.refl _) fun _ => agree_writeRange hk ..

theorem agree_encodeLoop (hk : SinkAgree kd kr) (b : PrimitiveBuffer α) (fuel : Nat) : ∀ bp vp,
    RunAgree (encodeLoop .debug kd b fuel bp vp) (encodeLoop .release kr b fuel bp vp) := by
  induction fuel with
  | zero => intro bp vp; exact .refl _
  | succ fuel ih =>
    intro bp vp
    exact .ite (fun _ => .bind (.refl _) fun _ => .bind (.lift (agree_chunk ..)) fun _ => .bind (.lift (Agree.sub ..))
      fun _ => .ite (fun _ => .refl _) fun _ => .bind (agree_writeRange hk ..) fun _ => ih ..) fun _ => .refl _

theorem agree_encode (hk : SinkAgree kd kr) (b : PrimitiveBuffer α) :
    RunAgree (encode .debug kd b) (encode .release kr b) := by
  refine .bind (.refl _) fun _ => .ite (fun _ => .bind (.lift (Agree.sub ..)) fun _ => .bind (.lift (agree_chunk ..))
    fun _ => .bind (.refl _) fun x => ?_) fun _ => agree_encodeLoop hk ..
  obtain ⟨rem, vp⟩ := x
  exact .bind (.refl _) fun _ => .ite (fun _ => .refl _) fun _ => .bind (agree_writeRemaining hk) fun _ =>
    .bind (.refl _) fun _ => .bind (.refl _) fun _ => agree_encodeLoop hk ..

theorem agree_flush (hk : SinkAgree kd kr) : RunAgree (flush (α := α) .debug kd) (flush .release kr) :=
  .bind (.refl _) fun _ => .ite (fun _ => .bind (agree_writeRemaining hk) fun _ => .refl _) fun _ => .refl _

theorem agree_encodeAll (hk : SinkAgree kd kr) (bs : List (PrimitiveBuffer α)) :
    RunAgree (encodeAll .debug kd bs) (encodeAll .release kr bs) := by
  induction bs with
  | nil => exact .refl _
  | cons b bs ih => exact .bind (agree_encode hk b) fun _ => ih

theorem agree_encodeColumn (hk : SinkAgree kd kr) (bs : List (PrimitiveBuffer α)) :
    RunAgree (encodeColumn .debug kd bs) (encodeColumn .release kr bs) :=
  .bind (agree_encodeAll hk bs) fun _ => agree_flush hk

end PrimitiveEnc

namespace BinaryEnc

theorem agree_findPosition (so m : Nat) (os : List Nat) : ∀ pos,
    Agree (findPosition .debug so m os pos) (findPosition .release so m os pos) := by
  induction os with
  | nil => intro pos; exact Agree.refl _
  | cons o os ih => intro pos; exact Agree.bind (Agree.sub ..) fun _ => Agree.ite (fun _ => Agree.refl _) fun _ => ih _

theorem agree_chunk (b : BinaryBuffer) (st m : Nat) : Agree (chunk .debug b st m) (chunk .release b st m) :=
  Agree.bind (Agree.refl _) fun _ => Agree.bind (agree_findPosition ..) fun _ => Agree.bind (Agree.refl _) fun _ =>
    Agree.bind (Agree.sub ..) fun _ => Agree.bind (Agree.sub ..) fun _ => Agree.refl _

theorem agree_itemLens (b : BinaryBuffer) (k : Nat) : ∀ i, Agree (itemLens .debug b k i) (itemLens .release b k i) := by
  induction k with
  | zero => intro i; exact Agree.refl _
  | succ k ih => intro i; exact Agree.bind (agree_itemLen ..) fun _ => Agree.bind (ih _) fun _ => Agree.refl _

theorem agree_encodeBinaryBuffer (b : BinaryBuffer) (c : BinaryChunk) (pos : Nat) (be : Rle.Encoder) :
    Agree (encodeBinaryBuffer .debug b c pos be) (encodeBinaryBuffer .release b c pos be) :=
  Agree.bind (Agree.refl _) fun _ => Agree.bind (Agree.refl _) fun _ => Agree.bind (agree_itemLens ..) fun _ =>
    Agree.bind (Offsets.agree_encode ..) fun _ => Agree.bind (PrimitiveEnc.agree_encodeValidity ..) fun _ => Agree.refl _

theorem agree_writeBlock (hk : SinkAgree kd kr) (b : BinaryBuffer) (c : BinaryChunk) (pos : Nat) :
    RunAgree (writeBlock .debug kd b c pos) (writeBlock .release kr b c pos) :=
  .bind (.refl _) fun _ => .bind (.lift (agree_encodeBinaryBuffer ..)) fun _ => .bind (.refl _) fun _ =>
    .bind (.refl _) fun _ => .bind (.refl _) fun _ => .bind (.lift (Agree.sub ..)) fun _ => .bind (hk.emit ..) fun _ => .refl _

theorem agree_writeRemaining (hk : SinkAgree kd kr) : RunAgree (writeRemaining .debug kd) (writeRemaining .release kr) :=
  .bind (.refl _) fun _ => .bind (.refl _) fun _ => agree_writeBlock hk ..

theorem agree_offsetsRun (b : BinaryBuffer) (k : Nat) : ∀ i last,
    RunAgree (b.appendFromOffsetsRun .debug k i last) (b.appendFromOffsetsRun .release k i last) := by
  induction k with
  | zero => intro i last; exact .refl _
  | succ k ih =>
    intro i last
    refine ⟨fun os => ?_⟩
    simp only [BinaryBuffer.appendFromOffsetsRun]
    rcases (agree_itemLen b i).or with h | h
    · rw [h]; exact .inl rfl
    rw [h]
    rcases b.itemLen .debug i with x | n
    · exact .inr rfl
    simp only
    rcases (Agree.add 32 last n).or with h | h
    · rw [h]; exact .inl rfl
    rw [h]
    rcases Profile.debug.add 32 last n with x | n
    · exact .inr rfl
    · exact (ih ..).or _

theorem agree_appendFromRun (b : BinaryBuffer) (i j v : Nat) :
    RunAgree (b.appendFromRun .debug i j v) (b.appendFromRun .release i j v) := by
  refine ⟨fun d => ?_⟩
  simp only [BinaryBuffer.appendFromRun]
  rcases index b.offsets i with x | so
  · exact .inr rfl
  rcases index b.offsets j with x | eo
  · exact .inr rfl
  simp only
  rcases (Agree.sub 64 j i).or with h | h
  · rw [h]; exact .inl rfl
  rw [h]
  rcases Profile.debug.sub 64 j i with x | n
  · exact .inr rfl
  simp only
  rcases (agree_offsetsRun b (j - i) i ((d.offsets.getLast?).getD 0)).or d.offsets with h | h
  · rcases hr : b.appendFromOffsetsRun .debug (j - i) i ((d.offsets.getLast?).getD 0) d.offsets with ⟨r, os⟩
    rw [hr] at h
    simp only at h
    subst h
    exact .inl rfl
  · rw [h]; exact .inr rfl

theorem agree_appendRemaining (d b : BinaryBuffer) (i j v : Nat) :
    RunAgree (Run.lift (d.appendFrom .debug b i j v) (leaving (S := S) (d.appendFromLeft .debug b i j v)))
      (Run.lift (d.appendFrom .release b i j v) (leaving (d.appendFromLeft .release b i j v))) := by
  refine .leaving (agree_binary_appendFrom ..) ?_
  rcases (agree_appendFromRun b i j v).or d with h | h
  · exact .inl ((BinaryBuffer.appendFromRun_ends ..).panics h)
  · right; rw [BinaryBuffer.appendFromLeft, BinaryBuffer.appendFromLeft, h]

theorem agree_encodeLoop (hk : SinkAgree kd kr) (b : BinaryBuffer) (fuel : Nat) : ∀ bp vp,
    RunAgree (encodeLoop .debug kd b fuel bp vp) (encodeLoop .release kr b fuel bp vp) := by
  induction fuel with
  | zero => intro bp vp; exact .refl _
  | succ fuel ih =>
    intro bp vp
    refine .ite (fun _ => .bind (.refl _) fun _ => .bind (.lift (agree_chunk ..)) fun _ => .ite (fun _ => ?_)
      fun _ => .bind (agree_writeBlock hk ..) fun _ => ih ..) fun _ => .refl _
    exact .bind (agree_appendRemaining ..) fun _ => .refl _

theorem agree_encode (hk : SinkAgree kd kr) (b : BinaryBuffer) :
    RunAgree (encode .debug kd b) (encode .release kr b) := by
  refine .bind (.refl _) fun _ => .ite (fun _ => .bind (.lift (Agree.sub ..)) fun _ => .bind (.lift (agree_chunk ..))
    fun _ => .bind (agree_appendRemaining ..) fun x => ?_) fun _ => agree_encodeLoop hk ..
  obtain ⟨rem, vp⟩ := x
  exact .bind (.refl _) fun _ => .ite (fun _ => .refl _) fun _ => .bind (agree_writeRemaining hk) fun _ =>
    .bind (.refl _) fun _ => .bind (.refl _) fun _ => agree_encodeLoop hk ..

theorem agree_flush (hk : SinkAgree kd kr) : RunAgree (flush .debug kd) (flush .release kr) :=
  .bind (.refl _) fun _ => .ite (fun _ => .bind (agree_writeRemaining hk) fun _ => .refl _) fun _ => .refl _

theorem agree_encodeAll (hk : SinkAgree kd kr) (bs : List BinaryBuffer) :
    RunAgree (encodeAll .debug kd bs) (encodeAll .release kr bs) := by
  induction bs with
  | nil => exact .refl _
  | cons b bs ih => exact .bind (agree_encode hk b) fun _ => ih

theorem agree_encodeColumn (hk : SinkAgree kd kr) (bs : List BinaryBuffer) :
    RunAgree (encodeColumn .debug kd bs) (encodeColumn .release kr bs) :=
  .bind (agree_encodeAll hk bs) fun _ => agree_flush hk

end BinaryEnc

theorem BinaryEncoder.agree_onRaw {α : Type} {d r : Run (BinaryEnc.Encoder × S) α} (h : RunAgree d r)
    (e : BinaryEnc.Encoder) : RunAgree (onRaw e d) (onRaw e r) := by
  refine ⟨fun s => ?_⟩
  rcases h.or (e, s.2) with h | h
  · exact .inl h
  · exact .inr (by simp only [onRaw, h])

theorem BinaryEncoder.agree_encode (hk : SinkAgree kd kr) (b : BinaryBuffer) :
    RunAgree (BinaryEncoder.encode .debug kd b) (BinaryEncoder.encode .release kr b) := by
  refine .bind (.refl _) fun x => ?_
  cases x with
  | raw e => exact agree_onRaw (BinaryEnc.agree_encode hk b) e
  | snappy => exact hk.emit ..

theorem BinaryEncoder.agree_flush (hk : SinkAgree kd kr) :
    RunAgree (BinaryEncoder.flush .debug kd) (BinaryEncoder.flush .release kr) := by
  refine .bind (.refl _) fun x => ?_
  cases x with
  | raw e => exact .bind (agree_onRaw (BinaryEnc.agree_flush hk) e) fun _ => .refl _
  | snappy => exact .refl _

end

/-! ## The segment writer -/

theorem agree_write (os : Os) (b : Bytes) : RunAgree (Writer.writeBlock .debug os b) (Writer.writeBlock .release os b) := by
  refine ⟨fun w => ?_⟩
  simp only [Writer.writeBlock]
  rcases (Agree.add 64 w.pos b.length).or with h | h
  · rw [h]; exact .inl rfl
  · rw [h]; exact .inr rfl

theorem agree_blockSink (os : Os) : SinkAgree (blockSink .debug os) (blockSink .release os) := by
  intro s id data
  simp only [blockSink]
  rcases (agree_write os data).or s.1 with h | h
  · left
    rcases hw : Writer.writeBlock .debug os data s.1 with ⟨x | x, w⟩
    · rw [hw] at h; exact h
    · rw [hw] at h; cases h
  · rw [h]; exact .inr rfl

theorem agree_onIndex {α : Type} {d r : Run Writer α} (h : RunAgree d r) :
    RunAgree (SegmentWriter.onIndex d) (SegmentWriter.onIndex r) := by
  refine ⟨fun s => ?_⟩
  rcases h.or s.indexWriter with h | h
  · exact .inl h
  · exact .inr (by simp only [SegmentWriter.onIndex, h])

theorem agree_onData {α : Type} {d r : Run Writer α} (h : RunAgree d r) :
    RunAgree (SegmentWriter.onData d) (SegmentWriter.onData r) := by
  refine ⟨fun s => ?_⟩
  rcases h.or s.dataWriter with h | h
  · exact .inl h
  · exact .inr (by simp only [SegmentWriter.onData, h])

theorem agree_onSink {α : Type} {d r : Run (BinaryEncoder × (Writer × BlockIndex)) α} (h : RunAgree d r) :
    RunAgree (ColumnWriter.onSink d) (ColumnWriter.onSink r) := by
  refine ⟨fun s => ?_⟩
  rcases h.or (s.1.encoder, (s.2.dataWriter, s.2.blockIndex)) with h | h
  · exact .inl h
  · exact .inr (by simp only [ColumnWriter.onSink, h])

theorem agree_segClose (os : SegmentOs) (o : HashOrder) :
    RunAgree (SegmentWriter.close .debug os o) (SegmentWriter.close .release os o) := ⟨fun s =>
  (RunAgree.bind (agree_onIndex (agree_write ..)) fun _ => RunAgree.bind (agree_onIndex (agree_write ..)) fun _ =>
    RunAgree.refl _ : RunAgree (_ : Run SegmentWriter Unit) _).or s⟩

theorem agree_writeHeaders (os : SegmentOs) :
    RunAgree (SegmentWriter.writeHeaders .debug os) (SegmentWriter.writeHeaders .release os) :=
  .bind (agree_onIndex (agree_write ..)) fun _ => agree_onData (agree_write ..)

theorem ColOp.agree_run (os : SegmentOs) (op : ColOp) : RunAgree (op.run .debug os) (op.run .release os) := by
  cases op with
  | write b => exact agree_onSink (BinaryEncoder.agree_encode (agree_blockSink _) b)
  | close =>
    exact .bind (agree_onSink (BinaryEncoder.agree_flush (agree_blockSink _))) fun _ => .refl _

end Meerkat
