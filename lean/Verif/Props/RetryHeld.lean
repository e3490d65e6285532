import Verif.Props.Retry

set_option autoImplicit false

/-!
# C65: repeating `encode` of a binary column that started with rows held back

The rows held back and the first rows of the buffer make one block. If the sink refuses it they stay where they
are; if it refuses a later block they are gone. In both cases the buffer is read from its start again.
-/

namespace Meerkat
open Spec
variable {S : Type}

namespace BinaryEnc
open BinaryBuffer

theorem appendFrom_none (p : Profile) (dst src : BinaryBuffer) (ss : List Bytes) (hs : Items src ss) (i pos : Nat)
    (hi : i ≤ ss.length) (hn : dst.isNullable = src.isNullable) (hfit : dst.data.length < U32_MAX) :
    dst.appendFrom p src i i pos = .ok (dst, if dst.isNullable then pos else 0) := by
  have h1 := offsetsOf_get 0 ss i hi
  have hsl : ∀ o, o ≤ src.data.length → slice src.data o o = .ok [] := by
    intro o ho
    rw [slice, if_pos ⟨Nat.le_refl _, ho⟩]
    simp
  have hle : 0 + (ss.take i).flatten.length ≤ src.data.length := by
    rw [hs.data]
    conv => rhs; rw [← List.take_append_drop i ss]
    rw [List.flatten_append, List.length_append]
    omega
  have hfit' : U32_MAX > dst.data.length := hfit
  simp only [BinaryBuffer.appendFrom, index, hs.offsets, h1, ok_bind, Profile.sub_ok p (Nat.le_refl i), Nat.sub_self,
    appendFromOffsets, hsl _ hle, List.append_nil, if_pos hfit']
  obtain ⟨dd, od, vd⟩ := dst
  simp only [isNullable] at hn ⊢
  cases vd with
  | none =>
    cases hv : src.validity with
    | none => rfl
    | some vs => rw [hv] at hn; cases hn
  | some vd =>
    cases hv : src.validity with
    | none => rw [hv] at hn; cases hn
    | some vs => simp [validityAppendFrom, Bitmap.appendFrom, Bitmap.appendFromLoop]

theorem appendFrom_inv {p : Profile} {dst src d : BinaryBuffer} {i j pos v : Nat} (h : dst.appendFrom p src i j pos = .ok (d, v)) :
    dst.len ≤ d.len ∧ dst.data.length ≤ d.data.length ∧ d.data.length < U32_MAX ∧ dst.isNullable = src.isNullable ∧
      d.isNullable = dst.isNullable := by
  simp only [BinaryBuffer.appendFrom] at h
  rcases h1 : index src.offsets i with x | a
  · rw [h1] at h; cases h
  rw [h1] at h
  rcases h2 : index src.offsets j with x | c
  · rw [h2] at h; cases h
  rw [h2] at h
  simp only [ok_bind] at h
  rcases h3 : p.sub 64 j i with x | n
  · rw [h3] at h; cases h
  rw [h3] at h
  simp only [ok_bind] at h
  rcases h4 : appendFromOffsets p src (j - i) i (dst.offsets.getLast?.getD 0) with x | os
  · rw [h4] at h; cases h
  rw [h4] at h
  simp only [ok_bind] at h
  rcases h5 : slice src.data a c with x | ch
  · rw [h5] at h; cases h
  rw [h5] at h
  simp only [ok_bind] at h
  split at h
  · rename_i hfit
    simp only [isNullable]
    rcases hd : dst.validity with _ | vd <;> rcases hv : src.validity with _ | vs
    · rw [hd, hv] at h; cases h
      exact ⟨by simp only [BinaryBuffer.len, List.length_append]; omega, by simp, hfit, rfl, rfl⟩
    · rw [hd, hv] at h; cases h
    · rw [hd, hv] at h; cases h
    · rw [hd, hv] at h
      simp only [validityAppendFrom] at h
      rcases h6 : vd.appendFrom vs pos n with x | ⟨bm, q⟩
      · rw [h6] at h; cases h
      · rw [h6] at h; cases h
        exact ⟨by simp only [BinaryBuffer.len, List.length_append]; omega, by simp, hfit, rfl, rfl⟩
  · cases h

/-- `encode` with rows held back, once the block is full. -/
theorem encode_held (p : Profile) (k : Sink S) (b : BinaryBuffer) (e : Encoder) (s : S) (hl : 0 < e.remaining.len)
    {room : Nat} (h1 : p.sub 64 e.minBlockSize e.remaining.data.length = .ok room) {c : BinaryChunk}
    (h2 : chunk p b 0 room = .ok c) {rem : BinaryBuffer} {v : Nat}
    (h3 : e.remaining.appendFrom p b c.startPos c.endPos 0 = .ok (rem, v)) (hge : e.minBlockSize ≤ rem.data.length)
    (hr : 0 < rem.len) :
    encode p k b (e, s) = match flush p k ({ e with remaining := rem }, s) with
      | (.ok (), (e', s')) =>
        encodeLoop p k b (b.offsets.length + 1) c.endPos v ({ e' with remaining := e'.remaining.clear }, s')
      | (.error f, st) => (.error f, st) := by
  rw [encode, Run.bind_ok (Run.get_apply _)]
  dsimp only
  rw [if_pos hl, h1, Run.bind_ok (Run.lift_ok _ _), h2, Run.bind_ok (Run.lift_ok _ _), h3, Run.bind_ok (Run.lift_ok _ _),
    Run.bind_ok (Run.set_apply _ _)]
  dsimp only
  rw [if_neg (by omega), flush, Run.bind_ok (Run.get_apply _)]
  dsimp only
  rw [if_pos hr]
  rcases hw : writeRemaining p k ({ e with remaining := rem }, s) with ⟨x | r, e', s'⟩
  · rw [Run.bind_error hw, Run.bind_error hw]
  · rw [Run.bind_ok hw, Run.bind_ok (Run.get_apply _), Run.bind_ok (Run.set_apply _ _), Run.bind_ok hw]
    rfl

theorem flush_frame (p : Profile) (k : Sink S) (e : Encoder) (s : S) :
    (flush p k (e, s)).2.1.remaining = e.remaining ∧ (flush p k (e, s)).2.1.minBlockSize = e.minBlockSize := by
  have hw := writeRemaining_frame p k e s
  rw [flush, Run.bind_ok (Run.get_apply _)]
  dsimp only
  split
  · rcases h : writeRemaining p k (e, s) with ⟨x | r, e', s'⟩
    · rw [Run.bind_error h]; rw [h] at hw; exact hw
    · rw [Run.bind_ok h]; rw [h] at hw; exact hw
  · exact ⟨rfl, rfl⟩

/-- A block the sink refused. -/
theorem writeBlock_io (p : Profile) (k : Sink S) (buf : BinaryBuffer) (c : BinaryChunk) (pos : Nat) (e e1 : Encoder) (s s1 : S)
    (h : writeBlock p k buf c pos (e, s) = (.error .io, (e1, s1))) :
    ∃ id data r, k.write s id data = (.error .io, s1) ∧ p.sub 32 e1.numRows 1 = .ok id ∧
      ∀ l, writeBlock p recorder buf c pos (e, l) = (.ok r, (e1, l ++ [(id, data)])) := by
  simp only [writeBlock, Run.bind_apply, Run.get_apply] at h ⊢
  rcases h1 : encodeBinaryBuffer p buf c pos e.bitmapEncoder with x | res
  · rw [h1] at h; cases (Prod.mk.inj h).1
  · rw [h1] at h
    simp only [Run.lift_ok, Run.set_apply] at h ⊢
    rcases h2 : addRows e.numRows res.result.numRows with x | n
    · rw [h2] at h; cases (Prod.mk.inj h).1
    · rw [h2] at h
      simp only [Run.lift_ok] at h ⊢
      rcases h3 : p.sub 32 n 1 with x | i
      · rw [h3] at h; cases (Prod.mk.inj h).1
      · rw [h3] at h
        simp only [Run.lift_ok] at h ⊢
        rcases hk : k.write s i res.data with ⟨f | u, s'⟩ <;> rw [Run.emit_of hk] at h
        · obtain ⟨h4, h5⟩ := Prod.mk.inj h
          obtain ⟨rfl, rfl⟩ := Prod.mk.inj h5
          exact ⟨i, res.data, res.result, by rw [hk, Except.error.inj h4], h3, fun l => rfl⟩
        · cases (Prod.mk.inj h).1

theorem flush_io (p : Profile) (k : Sink S) (e e1 : Encoder) (s s1 : S) (h : flush p k (e, s) = (.error .io, (e1, s1))) :
    ∃ id data, k.write s id data = (.error .io, s1) ∧ p.sub 32 e1.numRows 1 = .ok id ∧
      ∀ l, flush p recorder (e, l) = (.ok (), (e1, l ++ [(id, data)])) := by
  by_cases hl : e.remaining.len > 0
  · rcases hc : wholeChunk e.remaining with x | c
    · rw [flush, Run.bind_ok (Run.get_apply _)] at h
      dsimp only at h
      rw [if_pos hl, writeRemaining] at h
      simp only [Run.bind_apply, Run.get_apply, hc, Run.lift_error] at h
      cases (Prod.mk.inj h).1
    · rw [flush_apply p k e s hl hc] at h
      rcases hw : writeBlock p k e.remaining c 0 (e, s) with ⟨f | r, e', s'⟩
      · rw [hw] at h
        obtain ⟨h4, h5⟩ := Prod.mk.inj h
        obtain ⟨rfl, rfl⟩ := Prod.mk.inj h5
        rw [Except.error.inj h4] at hw
        obtain ⟨id, data, r, g1, g3, g2⟩ := writeBlock_io p k _ _ _ _ _ _ _ hw
        exact ⟨id, data, g1, g3, fun l => by rw [flush_apply p recorder e l hl hc, g2 l]⟩
      · rw [hw] at h; cases (Prod.mk.inj h).1
  · rw [flush, Run.bind_ok (Run.get_apply _)] at h
    dsimp only at h
    rw [if_neg hl] at h
    cases (Prod.mk.inj h).1

theorem clear_len (b : BinaryBuffer) : b.clear.len = 0 := by
  simp only [BinaryBuffer.len, BinaryBuffer.clear, List.length_take]; omega

theorem chunk_zero (p : Profile) (b : BinaryBuffer) (items : List Bytes) (hb : Items b items) :
    chunk p b 0 0 = .ok ⟨0, 0, 0, 0, 0, 0⟩ := by
  have h := chunk_eq p b [] items (by simpa using hb.offsets) 0
  simp only [List.length_nil, fill, Profile.sub_ok p (Nat.le_refl 0), ok_bind, pure_eq_ok] at h
  rw [h]
  simp

theorem chunk_all (p : Profile) (b : BinaryBuffer) (items : List Bytes) (hb : Items b items) (m : Nat) (hm : items.flatten.length < m) :
    chunk p b 0 m = .ok ⟨0, items.length, 0, items.flatten.length, items.flatten.length, items.length⟩ := by
  have h := chunk_eq p b [] items (by simpa using hb.offsets) m
  have hf : fill m items = none := by
    rcases hf : fill m items with _ | j
    · rfl
    · have := (fill_some hf).2.1
      have h2 : items.flatten.length = (items.take j).flatten.length + (items.drop j).flatten.length := by
        rw [← List.length_append, ← List.flatten_append, List.take_append_drop]
      omega
  rw [hf] at h
  simpa using h

/-- Nothing is left to do after the last item. -/
theorem encodeLoop_end (p : Profile) (k : Sink S) (b : BinaryBuffer) (items : List Bytes) (hb : Items b items) (fuel v : Nat)
    (e : Encoder) (s : S) (hm : 0 < e.minBlockSize) (hn : e.remaining.isNullable = b.isNullable)
    (hfit : e.remaining.data.length < U32_MAX) :
    encodeLoop p k b (fuel + 1) items.length v (e, s) = (.ok (), (e, s)) := by
  have hc := chunk_eq p b items [] (by simpa using hb.offsets) e.minBlockSize
  have hf : fill e.minBlockSize [] = none := by
    cases h : e.minBlockSize with
    | zero => omega
    | succ m => rfl
  rw [hf] at hc
  simp only [List.append_nil, List.flatten_nil, List.length_nil] at hc
  rw [encodeLoop, if_pos (by rw [hb.offsets, offsetsOf_length]; omega), Run.bind_ok (Run.get_apply _)]
  dsimp only
  rw [hc, Run.bind_ok (Run.lift_ok _ _)]
  dsimp only
  rw [if_pos hm, appendFrom_none p _ b items hb items.length v (Nat.le_refl _) hn hfit, Run.bind_ok (Run.lift_ok _ _)]
  rfl

end BinaryEnc

/-- C65, binary `encode` when exactly a block of bytes is held back, which is what is left when the sink refused a block that
was full to the byte: the block is offered again, and then the buffer is encoded from its start, with nothing held back. -/
theorem C65_binary_full (p : Profile) (k : Sink S) (b : BinaryBuffer) (items : List Bytes) (hb : BinaryEnc.Items b items)
    (e : BinaryEnc.Encoder) (s : S) (hl : 0 < e.remaining.len) (hn : e.remaining.isNullable = b.isNullable)
    (hfull : e.remaining.data.length = e.minBlockSize) (hfit : e.remaining.data.length < U32_MAX) :
    BinaryEnc.encode p k b (e, s) = match BinaryEnc.flush p k (e, s) with
      | (.ok (), (e', s')) => BinaryEnc.encode p k b ({ e' with remaining := e'.remaining.clear }, s')
      | (.error f, st) => (.error f, st) := by
  have h1 : p.sub 64 e.minBlockSize e.remaining.data.length = .ok 0 := by
    rw [hfull, Profile.sub_ok p (Nat.le_refl _), Nat.sub_self]
  have h3 : e.remaining.appendFrom p b 0 0 0 = .ok (e.remaining, 0) := by
    rw [BinaryEnc.appendFrom_none p _ b items hb 0 0 (Nat.zero_le _) hn hfit, ite_self]
  rw [BinaryEnc.encode_held p k b e s hl h1 (BinaryEnc.chunk_zero p b items hb) h3 (by omega) hl]
  rcases BinaryEnc.flush p k (e, s) with ⟨f | ⟨⟩, e', s'⟩
  · rfl
  · dsimp only
    rw [BinaryEnc.encode, Run.bind_ok (Run.get_apply _)]
    dsimp only
    rw [if_neg (by rw [BinaryEnc.clear_len]; omega)]

/-- C65, binary `encode` without overflow checks when more than a block of bytes is held back: the whole buffer is added to
what is held back, one block of everything is offered, and nothing is held back any more. -/
theorem C65_binary_overfull (k : Sink S) (b : BinaryBuffer) (items : List Bytes) (hb : BinaryEnc.Items b items)
    (e : BinaryEnc.Encoder) (s : S) (hm : 0 < e.minBlockSize) (hl : 0 < e.remaining.len)
    (hover : e.minBlockSize < e.remaining.data.length) (hfit : e.remaining.data.length < U32_MAX)
    (hsize : items.flatten.length < U32_MAX) :
    BinaryEnc.encode .release k b (e, s) = match e.remaining.appendFrom .release b 0 items.length 0 with
      | .error x => (.error (.panic x),
          ({ e with remaining := e.remaining.appendFromLeft .release b 0 items.length 0 }, s))
      | .ok (rem, _) => match BinaryEnc.flush .release k ({ e with remaining := rem }, s) with
        | (.ok (), (e', s')) => (.ok (), ({ e' with remaining := e'.remaining.clear }, s'))
        | (.error f, st) => (.error f, st) := by
  have hU : U32_MAX = 2 ^ 32 - 1 := rfl
  have h1 : Profile.release.sub 64 e.minBlockSize e.remaining.data.length =
      .ok (e.minBlockSize + 2 ^ 64 - e.remaining.data.length) := by
    simp only [Profile.sub]
    rw [if_neg (by omega)]
    exact congrArg Except.ok (Nat.mod_eq_of_lt (by omega))
  have h2 := BinaryEnc.chunk_all .release b items hb (e.minBlockSize + 2 ^ 64 - e.remaining.data.length) (by omega)
  rcases h3 : e.remaining.appendFrom .release b 0 items.length 0 with x | ⟨rem, v⟩
  · rw [BinaryEnc.encode, Run.bind_ok (Run.get_apply _)]
    dsimp only
    rw [if_pos hl, h1, Run.bind_ok (Run.lift_ok _ _), h2, Run.bind_ok (Run.lift_ok _ _), h3]
    rfl
  · obtain ⟨g1, g2, g3, g4, g5⟩ := BinaryEnc.appendFrom_inv h3
    rw [BinaryEnc.encode_held .release k b e s hl h1 h2 h3 (by omega) (by omega)]
    dsimp only
    rcases hf : BinaryEnc.flush .release k ({ e with remaining := rem }, s) with ⟨f | ⟨⟩, e', s'⟩
    · rfl
    · dsimp only
      rw [hb.offsets, offsetsOf_length]
      obtain ⟨k1, k2⟩ : e'.remaining = rem ∧ e'.minBlockSize = e.minBlockSize := by
        have := BinaryEnc.flush_frame .release k { e with remaining := rem } s
        rw [hf] at this
        exact this
      exact BinaryEnc.encodeLoop_end .release k b items hb _ v _ s' (by rw [k2]; exact hm) (by
        simp only [k1, BinaryBuffer.isNullable, BinaryBuffer.clear, Option.isSome_map] at g4 g5 ⊢; rw [g5, g4]) (by
        simp only [BinaryBuffer.clear, List.length_nil]; omega)

/-- C65, binary `encode` with rows held back, refused by the sink. Either a later block than the first was refused: nothing is
held back any more, and repeating the call offers the blocks of the buffer alone, from its start, with moved row ids. Or the first
block was refused: it is still held back; flushing offers it with the row id moved on; and what repeating the call does depends
on how full it is: full to the byte, see `C65_binary_full`; fuller, a debug build panics and a release build offers one block with
the rows of the buffer that were already in it a second time, see `C65_binary_overfull`. -/
theorem C65_binary_held_partial (p : Profile) (k : Sink S) (b : BinaryBuffer) (items : List Bytes) (hb : BinaryEnc.Items b items)
    (hsize : items.flatten.length < U32_MAX) (e e1 : BinaryEnc.Encoder) (s s1 : S) (he : e.numRows < 2 ^ 32)
    (hm : 0 < e.minBlockSize) (hl : 0 < e.remaining.len)
    (h : BinaryEnc.encode p k b (e, s) = (.error .io, (e1, s1))) :
    ∃ n, 1 ≤ n ∧ e1.numRows = e.numRows + n ∧ e1.minBlockSize = e.minBlockSize ∧
      ((e1.remaining.len = 0 ∧
        ∀ r e0 bs, BinaryEnc.encode p recorder b ({ e with remaining := e1.remaining }, []) = (r, (e0, bs)) →
          e0.numRows + n < 2 ^ 32 →
          ∃ e2, ∀ l, BinaryEnc.encode p recorder b (e1, l) = (r, (e2, l ++ shiftIds n bs))) ∨
      (0 < e1.remaining.len ∧ ∃ id data, k.write s id data = (.error .io, s1) ∧ id + 1 = e.numRows + n ∧
        (∀ l, ∃ e2, BinaryEnc.flush p recorder (e1, l) =
          if id + n + 1 < 2 ^ 32 then (.ok (), (e2, l ++ [(id + n, data)])) else (.error (.panic .expect), (e2, l))) ∧
        ((e1.remaining.data.length = e1.minBlockSize ∧
          ∀ (T : Type) (k' : Sink T) (t : T), BinaryEnc.encode p k' b (e1, t) = match BinaryEnc.flush p k' (e1, t) with
            | (.ok (), (e', t')) => BinaryEnc.encode p k' b ({ e' with remaining := e'.remaining.clear }, t')
            | (.error f, st) => (.error f, st)) ∨
        (e1.minBlockSize < e1.remaining.data.length ∧ p = .debug ∧
          ∀ (T : Type) (k' : Sink T) (t : T), BinaryEnc.encode p k' b (e1, t) = (.error (.panic .overflow), (e1, t))) ∨
        (e1.minBlockSize < e1.remaining.data.length ∧ p = .release ∧
          ∀ (T : Type) (k' : Sink T) (t : T), BinaryEnc.encode p k' b (e1, t) =
            match e1.remaining.appendFrom p b 0 items.length 0 with
            | .error x => (.error (.panic x),
                ({ e1 with remaining := e1.remaining.appendFromLeft p b 0 items.length 0 }, t))
            | .ok (rem, _) => match BinaryEnc.flush p k' ({ e1 with remaining := rem }, t) with
              | (.ok (), (e', t')) => (.ok (), ({ e' with remaining := e'.remaining.clear }, t'))
              | (.error f, st) => (.error f, st))))) := by
  have h0 := h
  rw [BinaryEnc.encode, Run.bind_ok (Run.get_apply _)] at h
  dsimp only at h
  rw [if_pos hl] at h
  rcases h1 : p.sub 64 e.minBlockSize e.remaining.data.length with x | room
  · rw [h1] at h; cases (Prod.mk.inj h).1
  rw [h1, Run.bind_ok (Run.lift_ok _ _)] at h
  rcases h2 : BinaryEnc.chunk p b 0 room with x | c
  · rw [h2] at h; cases (Prod.mk.inj h).1
  rw [h2, Run.bind_ok (Run.lift_ok _ _)] at h
  rcases h3 : e.remaining.appendFrom p b c.startPos c.endPos 0 with x | ⟨rem, v⟩
  · rw [h3] at h; cases (Prod.mk.inj h).1
  rw [h3, Run.bind_ok (Run.lift_ok _ _), Run.bind_ok (Run.set_apply _ _)] at h
  dsimp only at h
  obtain ⟨a1, a2, a3, a4, a5⟩ := BinaryEnc.appendFrom_inv h3
  by_cases hlt : rem.data.length < e.minBlockSize
  · rw [if_pos hlt] at h; cases (Prod.mk.inj h).1
  have hgrow := (C65_binary_refused p k b e e1 s s1 hl h0).1
  rw [BinaryEnc.encode_held p k b e s hl h1 h2 h3 (by omega) (by omega)] at h0
  have hfr := BinaryEnc.flush_frame p k { e with remaining := rem } s
  rcases hf : BinaryEnc.flush p k ({ e with remaining := rem }, s) with ⟨f | ⟨⟩, e', s'⟩
  · rw [hf] at h0 hfr
    dsimp only at h0 hfr
    obtain ⟨h4, h5⟩ := Prod.mk.inj h0
    obtain ⟨rfl, rfl⟩ := Prod.mk.inj h5
    rw [Except.error.inj h4] at hf
    obtain ⟨id, data, g1, g3, g2⟩ := BinaryEnc.flush_io p k _ _ _ _ hf
    obtain ⟨id', data', n, k1, k2, k3, k4⟩ := C65_binary_flush_partial p k { e with remaining := rem } e' he
      (show rem.len > 0 by omega) _ (g2 [])
    simp only [List.nil_append, List.cons.injEq, Prod.mk.injEq, and_true] at k1
    obtain ⟨rfl, rfl⟩ := k1
    obtain ⟨e2, k5, k6⟩ := k4 s .io s' g1
    rw [hf] at k5
    obtain ⟨_, k5⟩ := Prod.mk.inj k5
    obtain ⟨rfl, _⟩ := Prod.mk.inj k5
    have hrow : e'.numRows = e.numRows + n := by
      rw [Profile.sub_ok p (show 1 ≤ e'.numRows by omega)] at g3
      have := Except.ok.inj g3
      simp only at k3
      omega
    obtain ⟨q1, q2⟩ := hfr
    have hl1 : 0 < e'.remaining.len := by rw [q1]; omega
    refine ⟨n, k2, hrow, q2, .inr ⟨hl1, id, data, g1, k3, k6, ?_⟩⟩
    by_cases hfull : e'.remaining.data.length = e'.minBlockSize
    · exact .inl ⟨hfull, fun T k' t => C65_binary_full p k' b items hb e' t hl1 (by rw [q1, a5, a4]) hfull
        (by rw [q1]; exact a3)⟩
    · have hover : e'.minBlockSize < e'.remaining.data.length := by rw [q1, q2] at *; omega
      refine .inr ?_
      cases p with
      | debug => exact .inl ⟨hover, rfl, fun T k' t => C65_binary_stuck_violated k' e' t b hl1 hover⟩
      | release =>
        exact .inr ⟨hover, rfl, fun T k' t => C65_binary_overfull k' b items hb e' t (by rw [q2]; exact hm) hl1 hover
          (by rw [q1]; exact a3) hsize⟩
  · rw [hf] at h0 hfr
    dsimp only at h0 hfr
    obtain ⟨g1, g2, g3⟩ := BinaryEnc.encodeLoop_io p k b _ _ _ _ _ _ _ h0
    have hlen : e1.remaining.len = 0 := by rw [g1]; exact BinaryEnc.clear_len _
    refine ⟨e1.numRows - e.numRows, by omega, by omega, g2.trans hfr.2, .inl ⟨hlen, fun r e0 bs hr hlt => ?_⟩⟩
    have hA : BinaryEnc.Ahead (e1.numRows - e.numRows) { e with remaining := e1.remaining } e1 :=
      ⟨rfl, g2.trans hfr.2, show e1.numRows = e.numRows + (e1.numRows - e.numRows) by omega⟩
    exact shift_ok (BinaryEnc.encode_shift p b hA) hr hlt

/-- What the sink has been given in the end: `[1, 2]` is held back, blocks have 4 bytes, and the sink refuses the block after the
first `n` of the second buffer. -/
def heldRetry (p : Profile) (n : Nat) (c : List Bytes) : Except Fault Unit × List (Nat × Bytes) :=
  let r := (do BinaryEnc.encode p recorder (BinaryBuffer.ofRows false [some [1, 2]])
               retried (fun k => BinaryEnc.encode p k (BinaryBuffer.ofRows false (c.map some))) n)
    (BinaryEnc.Encoder.new 4 false, [])
  (r.1, r.2.2)

/-- The block `1 2 3 4` was refused: offered again, then the rows `3 4` a second time. -/
example : (heldRetry .debug 0 [[3, 4], [5, 6]]).2 = [(3, [4, 1, 2, 3, 4, 2, 2]), (5, [4, 3, 4, 5, 6, 2, 2])] := by decide +kernel

/-- The block `1 2 3 4 5` was refused: a panic, or one block that holds `3 4 5` twice. -/
example : (heldRetry .debug 0 [[3, 4, 5], [6]]).1 = .error (.panic .overflow) ∧
    (heldRetry .release 0 [[3, 4, 5], [6]]).2 = [(5, [9, 1, 2, 3, 4, 5, 3, 4, 5, 6, 2, 2])] := by decide +kernel

/-- The block `5 6 7 8` was refused: the rows `3 4` are written a second time. -/
example : (heldRetry .debug 1 [[3, 4], [5, 6, 7, 8]]).2 = [(1, [4, 1, 2, 3, 4, 2, 2]), (3, [6, 3, 4, 5, 6, 7, 8, 3, 2])] := by
  decide +kernel

end Meerkat
