import Verif.Props.EmptyBuffer
import Verif.Spec.Calls
import Verif.Model.Store

set_option autoImplicit false

/-!
# C120: buffers with the same rows are encoded the same
-/

namespace Meerkat
open Spec

/-- The same calls, with buffers of which `R` holds. -/
inductive Spec.SameCalls {β : Type} (R : β → β → Prop) : List (EncCall β) → List (EncCall β) → Prop
  | nil : SameCalls R [] []
  | encode {b b' : β} {cs cs' : List (EncCall β)} : R b b' → SameCalls R cs cs' → SameCalls R (.encode b :: cs) (.encode b' :: cs')
  | flush {cs cs' : List (EncCall β)} : SameCalls R cs cs' → SameCalls R (.flush :: cs) (.flush :: cs')

/-- Two buffers, nullable or not, with the same rows. -/
def Spec.SameRows {α : Type} (b b' : PrimitiveBuffer α) : Prop := ∃ nullable rows, b.Shows nullable rows ∧ b'.Shows nullable rows

def Spec.SameBinaryRows (b b' : BinaryBuffer) : Prop := ∃ nullable rows, b.Shows nullable rows ∧ b'.Shows nullable rows

/-- The same calls of a column writer. -/
inductive Spec.SameColOps : List ColOp → List ColOp → Prop
  | nil : SameColOps [] []
  | write {b b' : BinaryBuffer} {ops ops' : List ColOp} : SameBinaryRows b b' → SameColOps ops ops' →
      SameColOps (.write b :: ops) (.write b' :: ops')
  | close {ops ops' : List ColOp} : SameColOps ops ops' → SameColOps (.close :: ops) (.close :: ops')

/-- The same operation in a directory. -/
inductive Spec.SameOp : Store.Op → Store.Op → Prop
  | same (op : Store.Op) : SameOp op op
  | column (i : Nat) (info : ColumnInfo) {ops ops' : List ColOp} : SameColOps ops ops' →
      SameOp (.on i (.column info ops)) (.on i (.column info ops'))

/-- The same operations. -/
inductive Spec.SameOps : List Store.Op → List Store.Op → Prop
  | nil : SameOps [] []
  | cons {op op' : Store.Op} {ops ops' : List Store.Op} : SameOp op op' → SameOps ops ops' → SameOps (op :: ops) (op' :: ops')

namespace SameRows

/-- The same bits, whatever the bytes behind them. -/
def Bits (m m' : Bitmap) : Prop := m.len = m'.len ∧ ∀ i, m.isSet i = m'.isSet i

def Validity : Option Bitmap → Option Bitmap → Prop
  | none, none => True
  | some m, some m' => Bits m m'
  | _, _ => False

theorem validity_shows {v v' : Option Bitmap} {nullable : Bool} {bits : List Bool} (h : ValidityShows v nullable bits)
    (h' : ValidityShows v' nullable bits) : Validity v v' := by
  cases nullable with
  | false =>
    have h1 : v = none := h
    have h2 : v' = none := h'
    rw [h1, h2]; trivial
  | true =>
    obtain ⟨m, rfl, h1⟩ := (h : ∃ bm, v = some bm ∧ bm.Reads bits)
    obtain ⟨m', rfl, h2⟩ := (h' : ∃ bm, v' = some bm ∧ bm.Reads bits)
    refine ⟨h1.len.trans h2.len.symm, fun i => ?_⟩
    by_cases hi : i < bits.length
    · rw [h1.get i hi, h2.get i hi]
    · rw [h1.oob i (by omega), h2.oob i (by omega)]

theorem putFromLoop_same {m m' : Bitmap} (h : Bits m m') (p : Profile) (n : Nat) : ∀ (e : Rle.Encoder) (pos k : Nat),
    m.len - pos = n → e.putFromLoop p m pos k = e.putFromLoop p m' pos k := by
  induction n with
  | zero =>
    intro e pos k hn
    have := h.1
    rw [Rle.Encoder.putFromLoop, Rle.Encoder.putFromLoop, dif_neg (by omega), dif_neg (by omega)]
  | succ n ih =>
    intro e pos k hn
    have := h.1
    rw [Rle.Encoder.putFromLoop, Rle.Encoder.putFromLoop, dif_pos (by omega), dif_pos (by omega), h.2 pos]
    simp only [fun (e : Rle.Encoder) k => ih e (pos + 1) k (by omega)]

theorem appendFromLoop_same {m m' : Bitmap} (h : Bits m m') (n : Nat) : ∀ (d : Bitmap) (pos k : Nat),
    m.len - pos = n → d.appendFromLoop m pos k = d.appendFromLoop m' pos k := by
  induction n with
  | zero =>
    intro e pos k hn
    have := h.1
    rw [Bitmap.appendFromLoop, Bitmap.appendFromLoop, dif_neg (by omega), dif_neg (by omega)]
  | succ n ih =>
    intro e pos k hn
    have := h.1
    rw [Bitmap.appendFromLoop, Bitmap.appendFromLoop, dif_pos (by omega), dif_pos (by omega), h.2 pos]
    simp only [fun (e : Bitmap) k => ih e (pos + 1) k (by omega)]

theorem appendFromRun_same {m m' : Bitmap} (h : Bits m m') (n : Nat) : ∀ (pos k : Nat) (d : Bitmap),
    m.len - pos = n → m.appendFromRun pos k d = m'.appendFromRun pos k d := by
  induction n with
  | zero =>
    intro pos k d hn
    have := h.1
    rw [Bitmap.appendFromRun, Bitmap.appendFromRun, dif_neg (by omega), dif_neg (by omega)]
  | succ n ih =>
    intro pos k d hn
    have := h.1
    rw [Bitmap.appendFromRun, Bitmap.appendFromRun, dif_pos (by omega), dif_pos (by omega), h.2 pos]
    simp only [fun k d => ih (pos + 1) k d (by omega)]

theorem encodeValidity_same {v v' : Option Bitmap} (h : Validity v v') : ∀ (p : Profile) (pos n : Nat) (be : Rle.Encoder),
    PrimitiveEnc.encodeValidity p v pos n be = PrimitiveEnc.encodeValidity p v' pos n be := by
  intro p pos n be
  cases v <;> cases v'
  · rfl
  · exact h.elim
  · exact h.elim
  · simp only [PrimitiveEnc.encodeValidity, Rle.Encoder.putFrom, putFromLoop_same h p _ _ _ _ rfl]

theorem validityAppendFrom_same {v v' : Option Bitmap} (h : Validity v v') : ∀ (d : Option Bitmap) (pos n : Nat),
    validityAppendFrom d v pos n = validityAppendFrom d v' pos n := by
  intro d pos n
  cases v <;> cases v'
  · rfl
  · exact h.elim
  · exact h.elim
  · simp only [validityAppendFrom, Bitmap.appendFrom, fun d => appendFromLoop_same h _ d pos n rfl]

theorem validityAppendFromRun_same {v v' : Option Bitmap} (h : Validity v v') : ∀ (pos n : Nat) (d : Option Bitmap),
    validityAppendFromRun v pos n d = validityAppendFromRun v' pos n d := by
  intro pos n d
  cases v <;> cases v'
  · rfl
  · exact h.elim
  · exact h.elim
  · cases d
    · rfl
    · simp only [validityAppendFromRun, fun d => appendFromRun_same h _ pos n d rfl]

section
variable {α : Type} [Element α] {S : Type} {vs : List α} {v v' : Option Bitmap}

theorem appendFrom_same (h : Validity v v') (d : PrimitiveBuffer α) (i j pos : Nat) :
    d.appendFrom ⟨vs, v⟩ i j pos = d.appendFrom ⟨vs, v'⟩ i j pos := by
  simp only [PrimitiveBuffer.appendFrom, validityAppendFrom_same h]

theorem appendFromLeft_same (h : Validity v v') (d : PrimitiveBuffer α) (i j pos : Nat) :
    d.appendFromLeft ⟨vs, v⟩ i j pos = d.appendFromLeft ⟨vs, v'⟩ i j pos := by
  simp only [PrimitiveBuffer.appendFromLeft, PrimitiveBuffer.appendFromRun, validityAppendFromRun_same h]

theorem writeRange_same (h : Validity v v') (p : Profile) (k : Sink S) (i j pos : Nat) :
    PrimitiveEnc.writeRange p k ⟨vs, v⟩ i j pos = PrimitiveEnc.writeRange p k ⟨vs, v'⟩ i j pos := by
  simp only [PrimitiveEnc.writeRange, PrimitiveEnc.encodePrimitiveBuffer, encodeValidity_same h]

theorem chunk_same (p : Profile) (i m : Nat) :
    PrimitiveEnc.chunk p (⟨vs, v⟩ : PrimitiveBuffer α) i m = PrimitiveEnc.chunk p ⟨vs, v'⟩ i m := rfl

theorem encodeLoop_same (h : Validity v v') (p : Profile) (k : Sink S) (fuel : Nat) : ∀ pos vpos,
    PrimitiveEnc.encodeLoop p k ⟨vs, v⟩ fuel pos vpos = PrimitiveEnc.encodeLoop p k ⟨vs, v'⟩ fuel pos vpos := by
  induction fuel with
  | zero => intro pos vpos; rfl
  | succ fuel ih =>
    intro pos vpos
    simp only [PrimitiveEnc.encodeLoop, PrimitiveEnc.writeBlock, chunk_same (v := v) (v' := v'), appendFrom_same h, appendFromLeft_same h,
      writeRange_same h, ih, PrimitiveBuffer.len]
    rfl

theorem encode_same (h : Validity v v') (p : Profile) (k : Sink S) :
    PrimitiveEnc.encode p k (⟨vs, v⟩ : PrimitiveBuffer α) = PrimitiveEnc.encode p k ⟨vs, v'⟩ := by
  simp only [PrimitiveEnc.encode, PrimitiveEnc.encodeFuel, chunk_same (v := v) (v' := v'), appendFrom_same h, appendFromLeft_same h,
      encodeLoop_same h, PrimitiveBuffer.len]
  rfl

end

section
variable {S : Type} {data : Bytes} {os : List Nat} {v v' : Option Bitmap}

theorem appendFromOffsets_same (p : Profile) (n : Nat) : ∀ i last,
    BinaryBuffer.appendFromOffsets p ⟨data, os, v⟩ n i last = BinaryBuffer.appendFromOffsets p ⟨data, os, v'⟩ n i last := by
  induction n with
  | zero => intro i last; rfl
  | succ n ih => intro i last; simp only [BinaryBuffer.appendFromOffsets, BinaryBuffer.itemLen, ih]

theorem appendFromOffsetsRun_same (p : Profile) (n : Nat) : ∀ i last,
    BinaryBuffer.appendFromOffsetsRun p ⟨data, os, v⟩ n i last = BinaryBuffer.appendFromOffsetsRun p ⟨data, os, v'⟩ n i last := by
  induction n with
  | zero => intro i last; rfl
  | succ n ih => intro i last; simp only [BinaryBuffer.appendFromOffsetsRun, BinaryBuffer.itemLen, ih]; rfl

theorem itemLens_same (p : Profile) (n : Nat) : ∀ i,
    BinaryEnc.itemLens p ⟨data, os, v⟩ n i = BinaryEnc.itemLens p ⟨data, os, v'⟩ n i := by
  induction n with
  | zero => intro i; rfl
  | succ n ih => intro i; simp only [BinaryEnc.itemLens, BinaryBuffer.itemLen, ih]

theorem binaryAppendFrom_same (h : Validity v v') (p : Profile) (d : BinaryBuffer) (i j pos : Nat) :
    d.appendFrom p ⟨data, os, v⟩ i j pos = d.appendFrom p ⟨data, os, v'⟩ i j pos := by
  simp only [BinaryBuffer.appendFrom, validityAppendFrom_same h, appendFromOffsets_same (v := v) (v' := v')]

theorem binaryAppendFromLeft_same (h : Validity v v') (p : Profile) (d : BinaryBuffer) (i j pos : Nat) :
    d.appendFromLeft p ⟨data, os, v⟩ i j pos = d.appendFromLeft p ⟨data, os, v'⟩ i j pos := by
  simp only [BinaryBuffer.appendFromLeft, BinaryBuffer.appendFromRun, validityAppendFromRun_same h,
    appendFromOffsetsRun_same (v := v) (v' := v')]

theorem writeBlock_same (h : Validity v v') (p : Profile) (k : Sink S) (c : BinaryEnc.BinaryChunk) (pos : Nat) :
    BinaryEnc.writeBlock p k ⟨data, os, v⟩ c pos = BinaryEnc.writeBlock p k ⟨data, os, v'⟩ c pos := by
  simp only [BinaryEnc.writeBlock, BinaryEnc.encodeBinaryBuffer, encodeValidity_same h, itemLens_same (v := v) (v' := v')]

theorem binaryChunk_same (p : Profile) (i m : Nat) :
    BinaryEnc.chunk p ⟨data, os, v⟩ i m = BinaryEnc.chunk p ⟨data, os, v'⟩ i m := rfl

theorem binaryLoop_same (h : Validity v v') (p : Profile) (k : Sink S) (fuel : Nat) : ∀ pos vpos,
    BinaryEnc.encodeLoop p k ⟨data, os, v⟩ fuel pos vpos = BinaryEnc.encodeLoop p k ⟨data, os, v'⟩ fuel pos vpos := by
  induction fuel with
  | zero => intro pos vpos; rfl
  | succ fuel ih =>
    intro pos vpos
    simp only [BinaryEnc.encodeLoop, binaryChunk_same (v := v) (v' := v'), binaryAppendFrom_same h, binaryAppendFromLeft_same h,
      writeBlock_same h, ih]

theorem binaryEncode_same (h : Validity v v') (p : Profile) (k : Sink S) :
    BinaryEnc.encode p k ⟨data, os, v⟩ = BinaryEnc.encode p k ⟨data, os, v'⟩ := by
  simp only [BinaryEnc.encode, binaryChunk_same (v := v) (v' := v'), binaryAppendFrom_same h, binaryAppendFromLeft_same h,
      binaryLoop_same h]

end

end SameRows

/-- C120 for primitive columns: for buffers with the same rows `encode` is the same call, whatever the encoder and the sink are,
and whether it returns, fails or panics. -/
theorem C120_primitive {α : Type} [Element α] {S : Type} (p : Profile) (k : Sink S) (nullable : Bool) (rows : List (Option α))
    (b b' : PrimitiveBuffer α) (hb : b.Shows nullable rows) (hb' : b'.Shows nullable rows) :
    PrimitiveEnc.encode p k b = PrimitiveEnc.encode p k b' := by
  have h := SameRows.validity_shows hb.validity hb'.validity
  have hv := hb.values.trans hb'.values.symm
  cases b; cases b'
  cases hv
  exact SameRows.encode_same h p k

/-- C120 for binary columns. -/
theorem C120_binary {S : Type} (p : Profile) (k : Sink S) (nullable : Bool) (rows : List (Option Bytes))
    (b b' : BinaryBuffer) (hb : b.Shows nullable rows) (hb' : b'.Shows nullable rows) :
    BinaryEnc.encode p k b = BinaryEnc.encode p k b' := by
  have h := SameRows.validity_shows hb.validity hb'.validity
  have h1 := BinaryEnc.items_of_shows hb
  have h2 := BinaryEnc.items_of_shows hb'
  have hd := h1.data.trans h2.data.symm
  have ho := h1.offsets.trans h2.offsets.symm
  cases b; cases b'
  cases hd; cases ho
  exact SameRows.binaryEncode_same h p k

/-- C120 for the writer of a column. -/
theorem C120_column (p : Profile) (os : SegmentOs) (nullable : Bool) (rows : List (Option Bytes))
    (b b' : BinaryBuffer) (hb : b.Shows nullable rows) (hb' : b'.Shows nullable rows) :
    ColumnWriter.write p os b = ColumnWriter.write p os b' := by
  simp only [ColumnWriter.write, BinaryEncoder.encode, C120_binary p _ nullable rows b b' hb hb']

/-- C120 for all calls of a column writer, whatever they return. -/
theorem C120_column_calls (p : Profile) (os : SegmentOs) (ops ops' : List ColOp) (h : SameColOps ops ops') :
    ∀ s, (runColOps p os ops s).2 = (runColOps p os ops' s).2 ∧
      (runColOps p os ops s).1.map Prod.snd = (runColOps p os ops' s).1.map Prod.snd := by
  induction h with
  | nil => intro s; exact ⟨rfl, rfl⟩
  | @write b b' ops ops' hb _ ih =>
    intro s
    obtain ⟨nullable, rows, h1, h2⟩ := hb
    have hw := C120_column p os nullable rows b b' h1 h2
    simp only [runColOps, ColOp.run, hw, List.map_cons]
    exact ⟨(ih _).1, by rw [(ih _).2]⟩
  | close _ ih =>
    intro s
    simp only [runColOps, ColOp.run, List.map_cons]
    exact ⟨(ih _).1, by rw [(ih _).2]⟩

/-- C120 for whole segments, several of them at the same time: the files in the directory are the same, whatever the operating
system does. -/
theorem C120_files (p : Profile) (ops ops' : List Store.Op) (h : SameOps ops ops') :
    ∀ t, Store.runAll p ops t = Store.runAll p ops' t := by
  induction h with
  | nil => intro t; rfl
  | @cons op op' ops ops' hop _ ih =>
    intro t
    have hrun : Store.run p op t = Store.run p op' t := by
      cases hop with
      | same => rfl
      | column i info hc =>
        simp only [Store.run, SegOp.run]
        cases t.segments[i]? with
        | none => rfl
        | some g =>
          cases g with
          | none => rfl
          | some g =>
            rcases hn : SegmentWriter.newBinaryColumnWriter info g.writer with ⟨r, s⟩
            cases r with
            | error e => simp only [hn]
            | ok c => simp only [hn, (C120_column_calls p g.os _ _ hc (c, s)).1]
    have := ih (Store.run p op' t)
    simp only [Store.runAll, List.foldl_cons, hrun] at this ⊢
    exact this

/-- C120 for any calls: it does not matter which buffers of the same rows they get. -/
theorem C120_primitive_calls {α : Type} [Element α] {S : Type} (p : Profile) (k : Sink S) (cs cs' : List (EncCall (PrimitiveBuffer α)))
    (h : SameCalls Spec.SameRows cs cs') : PrimitiveEnc.calls p k cs = PrimitiveEnc.calls p k cs' := by
  induction h with
  | nil => rfl
  | encode hb _ ih =>
    obtain ⟨nullable, rows, h1, h2⟩ := hb
    rw [PrimitiveEnc.calls, PrimitiveEnc.calls, ih, C120_primitive p k nullable rows _ _ h1 h2]
  | flush _ ih => rw [PrimitiveEnc.calls, PrimitiveEnc.calls, ih]

/-- C120 for any calls of the binary encoder. -/
theorem C120_binary_calls {S : Type} (p : Profile) (k : Sink S) (cs cs' : List (EncCall BinaryBuffer))
    (h : SameCalls SameBinaryRows cs cs') : BinaryEnc.calls p k cs = BinaryEnc.calls p k cs' := by
  induction h with
  | nil => rfl
  | encode hb _ ih =>
    obtain ⟨nullable, rows, h1, h2⟩ := hb
    rw [BinaryEnc.calls, BinaryEnc.calls, ih, C120_binary p k nullable rows _ _ h1 h2]
  | flush _ ih => rw [BinaryEnc.calls, BinaryEnc.calls, ih]

/-- Two bitmaps with the same three bits and other bytes behind them: the blocks are the same. With another bit they are not. -/
example :
    let blocks (m : Bitmap) := (PrimitiveEnc.calls .debug recorder [.encode (⟨[1, 2], some m⟩ : PrimitiveBuffer Int32), .flush]
      (PrimitiveEnc.Encoder.new 8 true, [])).2.2
    blocks ⟨[0x05, 0xff, 0], 3⟩ = [(2, [8, 1, 0, 0, 0, 2, 0, 0, 0, 3, 5])] ∧
    blocks ⟨[0x05, 0], 3⟩ = [(2, [8, 1, 0, 0, 0, 2, 0, 0, 0, 3, 5])] ∧
    blocks ⟨[0x06, 0], 3⟩ = [(2, [8, 1, 0, 0, 0, 2, 0, 0, 0, 3, 6])] := by
  decide +kernel

end Meerkat
