import Verif.Model.BinarySteps
import Verif.Proofs.EncSteps
import Verif.Proofs.BinaryInv
import Verif.Proofs.Offsets

set_option autoImplicit false

/-! # Counting does not change the binary encoder; bounds on the count -/

namespace Meerkat

theorem Offsets.result_encodeC (p : Profile) (src : List Nat) (dst : Bytes) :
    (Offsets.encodeC p src dst).result = Offsets.encode p src dst := by
  simp only [Offsets.encodeC, Offsets.encode, Counted.result_bind, Counted.result_lift, Counted.result_ticks,
    Counted.result_pure, ok_bind, pure_eq_ok]

namespace BinaryBuffer

theorem result_appendFromOffsetsC (p : Profile) (buf : BinaryBuffer) (k : Nat) : ∀ i last,
    (appendFromOffsetsC p buf k i last).result = appendFromOffsets p buf k i last := by
  induction k with
  | zero => intro i last; rfl
  | succ k ih =>
    intro i last
    simp only [appendFromOffsetsC, appendFromOffsets, Counted.result_bind, Counted.result_tick, Counted.result_lift,
      Counted.result_pure, ok_bind, ih, pure_eq_ok]

theorem result_appendFromC (p : Profile) (b buf : BinaryBuffer) (i j vp : Nat) :
    (b.appendFromC p buf i j vp).result = b.appendFrom p buf i j vp := by
  simp only [appendFromC, appendFrom, Counted.result_bind, Counted.result_lift, Counted.result_ticks, ok_bind,
    result_appendFromOffsetsC]
  congr 1; funext a
  congr 1; funext c
  congr 1; funext n
  congr 1; funext pushed
  congr 1; funext chunk
  split
  · simp only [Counted.result_bind, result_validityAppendFromC, Counted.result_pure, pure_eq_ok]
  · rfl

end BinaryBuffer

namespace BinaryEnc
variable {S : Type}

theorem result_findPositionC (p : Profile) (so ms : Nat) (os : List Nat) : ∀ pos,
    (findPositionC p so ms os pos).result = findPosition p so ms os pos := by
  induction os with
  | nil => intro pos; rfl
  | cons o os ih =>
    intro pos
    simp only [findPositionC, findPosition, Counted.result_bind, Counted.result_tick, Counted.result_lift, ok_bind]
    congr 1; funext d
    split
    · rfl
    · exact ih _

theorem result_chunkC (p : Profile) (b : BinaryBuffer) (i ms : Nat) : (chunkC p b i ms).result = chunk p b i ms := by
  simp only [chunkC, chunk, Counted.result_bind, Counted.result_lift, result_findPositionC, Counted.result_pure, pure_eq_ok]

theorem result_itemLensC (p : Profile) (buf : BinaryBuffer) (k : Nat) : ∀ i,
    (itemLensC p buf k i).result = itemLens p buf k i := by
  induction k with
  | zero => intro i; rfl
  | succ k ih =>
    intro i
    simp only [itemLensC, itemLens, Counted.result_bind, Counted.result_tick, Counted.result_lift, ok_bind, ih,
      Counted.result_pure, pure_eq_ok]

theorem result_encodeBinaryBufferC (p : Profile) (buf : BinaryBuffer) (c : BinaryChunk) (bp : Nat) (be : Rle.Encoder) :
    (encodeBinaryBufferC p buf c bp be).result = encodeBinaryBuffer p buf c bp be := by
  simp only [encodeBinaryBufferC, encodeBinaryBuffer, Counted.result_bind, Counted.result_lift, Counted.result_ticks, ok_bind,
    result_itemLensC, Offsets.result_encodeC, PrimitiveEnc.result_encodeValidityC, Counted.result_pure, pure_eq_ok]

theorem run_writeBlockC (p : Profile) (k : Sink S) (buf : BinaryBuffer) (c : BinaryChunk) (bp : Nat) :
    (writeBlockC p k buf c bp).run = writeBlock p k buf c bp := by
  simp only [writeBlockC, writeBlock, Timed.run_bind, Timed.run_of, Timed.run_lift, result_encodeBinaryBufferC, Timed.run_pure]

theorem run_writeRemainingC (p : Profile) (k : Sink S) : (writeRemainingC p k).run = writeRemaining p k := by
  simp only [writeRemainingC, writeRemaining, Timed.run_bind, Timed.run_of, run_writeBlockC]

theorem run_encodeLoopC (p : Profile) (k : Sink S) (buf : BinaryBuffer) (fuel : Nat) : ∀ bp vp,
    (encodeLoopC p k buf fuel bp vp).run = encodeLoop p k buf fuel bp vp := by
  induction fuel with
  | zero => intro bp vp; rfl
  | succ fuel ih =>
    intro bp vp
    rw [encodeLoopC, encodeLoop]
    split
    · simp only [Timed.run_bind, Timed.run_of, Timed.run_tick, Run.pure_unit_bind, Timed.run_lift, result_chunkC]
      congr 1; funext e
      congr 1; funext c
      split
      · simp only [Timed.run_bind, Timed.run_of, Timed.run_lift, BinaryBuffer.result_appendFromC]
      · simp only [Timed.run_bind, run_writeBlockC, ih]
    · rfl

theorem run_encodeC (p : Profile) (k : Sink S) (buf : BinaryBuffer) : (encodeC p k buf).run = encode p k buf := by
  simp only [encodeC, encode, Timed.run_bind, Timed.run_of]
  congr 1; funext e
  split
  · simp only [Timed.run_bind, Timed.run_of, Timed.run_lift, result_chunkC, BinaryBuffer.result_appendFromC]
    congr 1; funext room
    congr 1; funext c
    congr 1; funext r
    congr 1; funext u
    split
    · rfl
    · simp only [Timed.run_bind, Timed.run_of, run_writeRemainingC, run_encodeLoopC]
  · exact run_encodeLoopC ..

theorem run_flushC (p : Profile) (k : Sink S) : (flushC p k).run = flush p k := by
  simp only [flushC, flush, Timed.run_bind, Timed.run_of]
  congr 1; funext e
  split
  · simp only [Timed.run_bind, run_writeRemainingC, Timed.run_pure]
  · rfl

theorem run_encodeAllC (p : Profile) (k : Sink S) (bufs : List BinaryBuffer) :
    (encodeAllC p k bufs).run = encodeAll p k bufs := by
  induction bufs with
  | nil => rfl
  | cons b bs ih => simp only [encodeAllC, encodeAll, Timed.run_bind, run_encodeC, ih]

theorem run_encodeColumnC (p : Profile) (k : Sink S) (bufs : List BinaryBuffer) :
    (encodeColumnC p k bufs).run = encodeColumn p k bufs := by
  simp only [encodeColumnC, encodeColumn, Timed.run_bind, run_encodeAllC, run_flushC]

end BinaryEnc

/-! ## Bounds -/

/-- Offsets are `u32` values. -/
def BinaryBuffer.Typed (b : BinaryBuffer) : Prop := ∀ o ∈ b.offsets, o < 2 ^ 32

theorem Profile.sub_lt {p : Profile} {w a b d : Nat} (h : p.sub w a b = .ok d) (ha : a < 2 ^ w) : d < 2 ^ w := by
  simp only [Profile.sub] at h
  split at h
  · cases h; omega
  · cases p with
    | debug => cases h
    | release => cases h; exact Nat.mod_lt _ (Nat.pow_pos (by omega))

theorem Profile.add_bound {p : Profile} {w a b d : Nat} (h : p.add w a b = .ok d) : d ≤ a + b ∧ d < 2 ^ w := by
  simp only [Profile.add] at h
  split at h
  · cases h; omega
  · cases p with
    | debug => cases h
    | release => cases h; exact ⟨Nat.mod_le _ _, Nat.mod_lt _ (Nat.pow_pos (by omega))⟩

theorem index_mem {α : Type} {l : List α} {i : Nat} {x : α} (h : index l i = .ok x) : x ∈ l ∧ i < l.length := by
  simp only [index] at h
  split at h
  · rename_i y hy
    cases h
    exact ⟨List.mem_of_getElem? hy, (List.getElem?_eq_some_iff.mp hy).1⟩
  · cases h

theorem BinaryBuffer.itemLen_lt {p : Profile} {b : BinaryBuffer} (hb : b.Typed) {i l : Nat} (h : b.itemLen p i = .ok l) :
    l < 2 ^ 32 := by
  simp only [itemLen] at h
  rcases h1 : index b.offsets (i + 1) with x | hi
  · rw [h1] at h; cases h
  rw [h1, ok_bind] at h
  rcases h2 : index b.offsets i with x | lo
  · rw [h2] at h; cases h
  rw [h2, ok_bind] at h
  exact Profile.sub_lt h (hb _ (index_mem h1).1)

namespace Offsets

theorem round_le {p : Profile} {n r : Nat} (h : Util.roundUptoPowerOf2 p n BLOCK_LEN = .ok r) : r ≤ n + 127 := by
  simp only [Util.roundUptoPowerOf2] at h
  split at h
  · cases h
  · rw [Profile.sub_ok _ (by decide), ok_bind] at h
    rcases ha : p.add 64 n (BLOCK_LEN - 1) with x | s
    · rw [ha] at h; cases h
    rw [ha] at h
    cases h
    exact Nat.le_trans Nat.and_le_left (Profile.add_bound ha).1

theorem steps_encodeC (p : Profile) (src : List Nat) (dst : Bytes) (hsrc : ∀ x ∈ src, x < 2 ^ 32) :
    (encodeC p src dst).steps ≤ src.length + 640 ∧
    (src.length < 2 ^ 63 → ∀ r, encode p src dst = .ok r → r.2.length ≤ dst.length + (encodeC p src dst).steps) := by
  simp only [encodeC, encode]
  rcases hr : Util.roundUptoPowerOf2 p src.length BLOCK_LEN with x | n
  · rw [Counted.steps_bind_error (e := x) (by simp)]
    exact ⟨by simp, fun _ r h => by cases h⟩
  have hn := round_le hr
  rw [Counted.steps_bind_ok (a := n) (by simp), Counted.steps_bind_ok (a := ()) (by simp), ok_bind]
  simp only [Counted.steps_lift, Counted.steps_ticks, Nat.zero_add]
  rcases hb : numBits (resize src n 0) with x | b
  · rw [Counted.steps_bind_error (e := x) (by simp)]
    exact ⟨by simp; omega, fun _ r h => by cases h⟩
  rw [Counted.steps_bind_ok (a := b) (by simp), Counted.steps_bind_ok (a := ()) (by simp), ok_bind]
  simp only [Counted.steps_lift, Counted.steps_ticks, Nat.zero_add]
  simp only [numBits] at hb
  split at hb
  · rename_i hl
    cases hb
    have hn128 : n = 128 := by rw [resize_length] at hl; exact hl
    subst hn128
    have hwid : width (resize src 128 0) ≤ 32 := by
      rw [width_le_iff]
      intro x hx
      simp only [resize, List.mem_append, List.mem_replicate] at hx
      rcases hx with hx | ⟨_, rfl⟩
      · exact hsrc x (List.mem_of_mem_take hx)
      · exact Nat.pow_pos (by omega)
    simp only [width] at hwid
    generalize sigBits (List.foldl (· ||| ·) 0 (resize src 128 0)) = b at hwid ⊢
    have hc : Util.ceil8 (b * 128) = 16 * b := by
      simp only [Util.ceil8]
      rw [if_neg (by omega)]
      omega
    rcases hd : compressChunks b (chunks BLOCK_LEN (resize src 128 0))
        (resize (dst ++ [UInt8.ofNat b]) ((dst ++ [UInt8.ofNat b]).length + Util.ceil8 (b * 128)) 0)
        (dst ++ [UInt8.ofNat b]).length with x | d
    · rw [Counted.steps_bind_error (e := x) (by simp)]
      exact ⟨by simp only [Counted.steps_lift]; omega, fun _ r h => by cases h⟩
    rw [Counted.steps_bind_ok (a := d) (by simp)]
    simp only [Counted.steps_lift, Counted.steps_pure]
    refine ⟨by omega, fun h63 r h => ?_⟩
    rw [ok_bind] at h
    cases h
    have hle : src.length ≤ 128 := by
      rw [roundUp_128 p _ (by omega)] at hr
      have := Except.ok.inj hr
      omega
    simp only [resize_length, List.length_append, List.length_singleton]
    have : Util.ceil8 (b * src.length) ≤ Util.ceil8 (b * 128) := by
      have hm := Nat.mul_le_mul_left b hle
      simp only [Util.ceil8]
      split <;> split <;> omega
    omega
  · cases hb

end Offsets

namespace BinaryBuffer

theorem steps_appendFromOffsetsC (p : Profile) (buf : BinaryBuffer) (k : Nat) : ∀ i last,
    (appendFromOffsetsC p buf k i last).steps ≤ k ∧ ∀ l, appendFromOffsets p buf k i last = .ok l →
      (appendFromOffsetsC p buf k i last).steps = l.length ∧ ∀ o ∈ l, o < 2 ^ 32 := by
  induction k with
  | zero => intro i last; exact ⟨Nat.le_refl _, fun l h => by cases h; exact ⟨rfl, by simp⟩⟩
  | succ k ih =>
    intro i last
    simp only [appendFromOffsetsC, appendFromOffsets, Counted.steps_tick_bind]
    rcases h1 : buf.itemLen p i with x | n
    · rw [Counted.steps_bind_error (e := x) (by simp)]
      exact ⟨by simp, fun l h => by cases h⟩
    rw [Counted.steps_bind_ok (a := n) (by simp), ok_bind]
    rcases h2 : p.add 32 last n with x | m
    · rw [Counted.steps_bind_error (e := x) (by simp)]
      exact ⟨by simp, fun l h => by cases h⟩
    rw [Counted.steps_bind_ok (a := m) (by simp), ok_bind]
    simp only [Counted.steps_lift, Nat.zero_add]
    obtain ⟨i1, i2⟩ := ih (i + 1) m
    rcases h3 : appendFromOffsets p buf k (i + 1) m with x | l
    · rw [Counted.steps_bind_error (e := x) (by rw [result_appendFromOffsetsC, h3])]
      exact ⟨by omega, fun l h => by cases h⟩
    rw [Counted.steps_bind_ok (a := l) (by rw [result_appendFromOffsetsC, h3])]
    obtain ⟨j1, j2⟩ := i2 l h3
    simp only [Counted.steps_pure]
    refine ⟨by omega, fun l' h => ?_⟩
    rw [ok_bind] at h
    cases h
    refine ⟨by rw [List.length_cons]; omega, fun o ho => ?_⟩
    rcases List.mem_cons.mp ho with rfl | ho
    · exact (Profile.add_bound h2).2
    · exact j2 o ho

/-- What `append_from` costs, whether it returns or panics. -/
theorem steps_appendFromC (p : Profile) (b buf : BinaryBuffer) (i j vp : Nat) :
    (b.appendFromC p buf i j vp).steps ≤ buf.offsets.length + buf.data.length + (bitsOf buf.validity - vp) ∧
    ∀ b' pos, b.appendFrom p buf i j vp = .ok (b', pos) → ∃ bits, (bitsOf buf.validity - pos) + bits ≤ bitsOf buf.validity - vp ∧
      (b.appendFromC p buf i j vp).steps ≤ buf.offsets.length + buf.data.length + bits ∧
      b'.weight ≤ b.weight + (b.appendFromC p buf i j vp).steps ∧ (b.Typed → b'.Typed) ∧
      (b.offsets ≠ [] → b'.weight = b.weight + (b.appendFromC p buf i j vp).steps) := by
  simp only [appendFromC, appendFrom]
  rcases h1 : index buf.offsets i with x | so
  · rw [Counted.steps_bind_error (e := x) (by simp)]
    exact ⟨by simp, fun b' pos h => by cases h⟩
  rw [Counted.steps_bind_ok (a := so) (by simp), ok_bind]
  rcases h2 : index buf.offsets j with x | eo
  · rw [Counted.steps_bind_error (e := x) (by simp)]
    exact ⟨by simp, fun b' pos h => by cases h⟩
  rw [Counted.steps_bind_ok (a := eo) (by simp), ok_bind]
  have hj := (index_mem h2).2
  rcases h3 : p.sub 64 j i with x | n
  · rw [Counted.steps_bind_error (e := x) (by simp)]
    exact ⟨by simp, fun b' pos h => by cases h⟩
  rw [Counted.steps_bind_ok (a := n) (by simp), ok_bind]
  simp only [Counted.steps_lift, Nat.zero_add]
  obtain ⟨o1, o2⟩ := steps_appendFromOffsetsC p buf (j - i) i ((b.offsets.getLast?).getD 0)
  rcases h4 : appendFromOffsets p buf (j - i) i ((b.offsets.getLast?).getD 0) with x | l
  · rw [Counted.steps_bind_error (e := x) (by rw [result_appendFromOffsetsC, h4])]
    exact ⟨by omega, fun b' pos h => by cases h⟩
  rw [Counted.steps_bind_ok (a := l) (by rw [result_appendFromOffsetsC, h4]), ok_bind]
  obtain ⟨o3, o4⟩ := o2 l h4
  rcases h5 : slice buf.data so eo with x | chunk
  · rw [Counted.steps_bind_error (e := x) (by simp)]
    exact ⟨by simp only [Counted.steps_lift]; omega, fun b' pos h => by cases h⟩
  have hlen : chunk.length ≤ buf.data.length := by
    have := BinaryEnc.slice_length h5
    rw [slice] at h5
    split at h5
    · omega
    · cases h5
  rw [Counted.steps_bind_ok (a := chunk) (by simp), Counted.steps_bind_ok (a := ()) (by simp), ok_bind]
  simp only [Counted.steps_lift, Counted.steps_ticks, Nat.zero_add]
  obtain ⟨v1, v2⟩ := steps_validityAppendFromC b.validity buf.validity vp n
  split
  · rcases hv : validityAppendFrom b.validity buf.validity vp n with x | ⟨d, pos⟩
    · rw [Counted.steps_bind_error (e := x) (by simp [hv])]
      exact ⟨by omega, fun b' pos h => by cases h⟩
    rw [Counted.steps_bind_ok (a := (d, pos)) (by simp [hv])]
    obtain ⟨k1, k2⟩ := v2 d pos hv
    simp only [Counted.steps_pure]
    refine ⟨by omega, fun b' pos' h => ?_⟩
    rw [ok_bind] at h
    cases h
    have hneq : b.offsets ≠ [] → b.offsets.length ≠ 0 := fun h h0 => h (List.eq_nil_of_length_eq_zero h0)
    refine ⟨_, k1, by omega, ?_, fun ht o ho => ?_, fun hne => ?_⟩
    · simp only [weight, len, List.length_append]
      omega
    · rcases List.mem_append.mp ho with ho | ho
      · exact ht o ho
      · exact o4 o ho
    · have := hneq hne
      simp only [weight, len, List.length_append]
      omega
  · simp only [Counted.steps_lift]
    exact ⟨by omega, fun b' pos h => by cases h⟩

end BinaryBuffer

theorem PrimitiveEnc.validity_bytes (p : Profile) (v : Option Bitmap) (bp n : Nat) (be : Rle.Encoder) (r)
    (h : encodeValidity p v bp n be = .ok r) : r.2.1.length ≤ (encodeValidityC p v bp n be).steps := by
  cases v with
  | none => cases h; simp
  | some v =>
    simp only [encodeValidity, Rle.Encoder.putFrom] at h
    simp only [encodeValidityC]
    rcases hl : be.clear.putFromLoop p v bp n with x | ⟨e1, pos⟩
    · rw [hl] at h; cases h
    rw [hl, ok_bind] at h
    dsimp only at h
    rcases hf : e1.flush p with x | e2
    · rw [hf] at h; cases h
    rw [hf, ok_bind] at h
    cases h
    rw [Counted.steps_bind_ok (a := (e1, pos)) (by simp [hl]), Counted.steps_bind_ok (a := e2) (by simp [hf]),
      Counted.steps_bind_ok (a := ()) (by simp)]
    simp only [Counted.steps_ticks, Counted.steps_pure]
    omega

namespace BinaryEnc
variable {S : Type}

theorem steps_findPositionC (p : Profile) (so ms : Nat) (os : List Nat) : ∀ pos,
    (findPositionC p so ms os pos).steps ≤ os.length ∧ ∀ q o, findPosition p so ms os pos = .ok (some (q, o)) →
      q < pos + os.length ∧ o ∈ os := by
  induction os with
  | nil => intro pos; exact ⟨Nat.le_refl _, fun q o h => by cases h⟩
  | cons x os ih =>
    intro pos
    simp only [findPositionC, findPosition, Counted.steps_tick_bind]
    rcases hd : p.sub 32 x so with y | d
    · rw [Counted.steps_bind_error (e := y) (by simp)]
      exact ⟨by simp, fun q o h => by cases h⟩
    rw [Counted.steps_bind_ok (a := d) (by simp), ok_bind]
    simp only [Counted.steps_lift, Nat.zero_add, List.length_cons]
    split
    · refine ⟨by simp, fun q o h => ?_⟩
      cases h
      exact ⟨by omega, by simp⟩
    · obtain ⟨i1, i2⟩ := ih (pos + 1)
      refine ⟨by omega, fun q o h => ?_⟩
      obtain ⟨j1, j2⟩ := i2 q o h
      exact ⟨by omega, by simp [j2]⟩

theorem steps_chunkC (p : Profile) (b : BinaryBuffer) (i ms : Nat) (hb : b.Typed) :
    (chunkC p b i ms).steps ≤ b.offsets.length ∧
    ∀ c, chunk p b i ms = .ok c → c.startPos = i ∧ c.endPos ≤ b.offsets.length ∧ c.size < 2 ^ 32 := by
  simp only [chunkC, chunk]
  rcases h1 : index b.offsets i with x | so
  · rw [Counted.steps_bind_error (e := x) (by simp)]
    exact ⟨by simp, fun c h => by cases h⟩
  rw [Counted.steps_bind_ok (a := so) (by simp), ok_bind]
  simp only [Counted.steps_lift, Nat.zero_add]
  obtain ⟨f1, f2⟩ := steps_findPositionC p so ms (b.offsets.drop i) 0
  have hl : (b.offsets.drop i).length ≤ b.offsets.length := by simp
  rcases h2 : findPosition p so ms (b.offsets.drop i) 0 with x | found
  · rw [Counted.steps_bind_error (e := x) (by rw [result_findPositionC, h2])]
    exact ⟨by omega, fun c h => by cases h⟩
  rw [Counted.steps_bind_ok (a := found) (by rw [result_findPositionC, h2]), ok_bind]
  rcases h3 : chunkEnd b found with x | ⟨ep, eo⟩
  · rw [Counted.steps_bind_error (e := x) (by simp)]
    exact ⟨by simp only [Counted.steps_lift]; omega, fun c h => by cases h⟩
  rw [Counted.steps_bind_ok (a := (ep, eo)) (by simp), ok_bind]
  have he : ep ≤ b.offsets.length ∧ eo ∈ b.offsets := by
    cases found with
    | some q =>
      simp only [chunkEnd] at h3
      cases h3
      obtain ⟨g1, g2⟩ := f2 _ _ h2
      exact ⟨by omega, List.mem_of_mem_drop g2⟩
    | none =>
      simp only [chunkEnd] at h3
      rcases h4 : index b.offsets (b.offsets.length - 1) with x | last
      · rw [h4] at h3; cases h3
      · rw [h4] at h3
        cases h3
        exact ⟨by omega, (index_mem h4).1⟩
  dsimp only
  rcases h5 : p.sub 32 eo so with x | size
  · rw [Counted.steps_bind_error (e := x) (by simp)]
    exact ⟨by simp only [Counted.steps_lift]; omega, fun c h => by cases h⟩
  rw [Counted.steps_bind_ok (a := size) (by simp), ok_bind]
  rcases h6 : p.sub 64 ep i with x | n
  · rw [Counted.steps_bind_error (e := x) (by simp)]
    exact ⟨by simp only [Counted.steps_lift]; omega, fun c h => by cases h⟩
  rw [Counted.steps_bind_ok (a := n) (by simp), ok_bind]
  simp only [Counted.steps_lift, Counted.steps_pure]
  refine ⟨by omega, fun c h => ?_⟩
  cases h
  exact ⟨rfl, he.1, Profile.sub_lt h5 (hb _ he.2)⟩

theorem steps_itemLensC (p : Profile) (buf : BinaryBuffer) (hb : buf.Typed) (k : Nat) : ∀ i,
    (itemLensC p buf k i).steps ≤ k ∧ ∀ l, itemLens p buf k i = .ok l → ∀ x ∈ l, x < 2 ^ 32 := by
  induction k with
  | zero => intro i; exact ⟨Nat.le_refl _, fun l h => by cases h; simp⟩
  | succ k ih =>
    intro i
    simp only [itemLensC, itemLens, Counted.steps_tick_bind]
    rcases h1 : buf.itemLen p i with x | n
    · rw [Counted.steps_bind_error (e := x) (by simp)]
      exact ⟨by simp, fun l h => by cases h⟩
    rw [Counted.steps_bind_ok (a := n) (by simp), ok_bind]
    simp only [Counted.steps_lift, Nat.zero_add]
    obtain ⟨i1, i2⟩ := ih (i + 1)
    rcases h3 : itemLens p buf k (i + 1) with x | l
    · rw [Counted.steps_bind_error (e := x) (by rw [result_itemLensC, h3])]
      exact ⟨by omega, fun l h => by cases h⟩
    rw [Counted.steps_bind_ok (a := l) (by rw [result_itemLensC, h3])]
    simp only [Counted.steps_pure]
    refine ⟨by omega, fun l' h => ?_⟩
    rw [ok_bind] at h
    cases h
    intro x hx
    rcases List.mem_cons.mp hx with rfl | hx
    · exact BinaryBuffer.itemLen_lt hb h1
    · exact i2 l h3 x hx

/-- What a block costs, whether it is made or not; and every byte of it is counted. -/
theorem steps_encodeBinaryBufferC (p : Profile) (buf : BinaryBuffer) (hb : buf.Typed) (c : BinaryChunk)
    (hc : c.endPos ≤ buf.offsets.length) (hs : c.size < 2 ^ 32) (bp : Nat) (be : Rle.Encoder) :
    (encodeBinaryBufferC p buf c bp be).steps ≤
      buf.data.length + 2 * buf.offsets.length + 700 + 25 * (bitsOf buf.validity - bp) ∧
    ∀ r, encodeBinaryBuffer p buf c bp be = .ok r →
      (∃ bits, (bitsOf buf.validity - r.result.lastValidityPos) + bits ≤ bitsOf buf.validity - bp ∧
        (encodeBinaryBufferC p buf c bp be).steps ≤ buf.data.length + 2 * buf.offsets.length + 700 + 25 * bits) ∧
      (buf.offsets.length < 2 ^ 63 → r.data.length ≤ (encodeBinaryBufferC p buf c bp be).steps) := by
  have hs64 : c.size < 2 ^ 64 := Nat.lt_trans hs (by decide)
  have hvl := Varint.varintBytes_length_le_ten hs64
  simp only [encodeBinaryBufferC, encodeBinaryBuffer]
  rw [Varint.putVarint_ok [] hs64, List.nil_append, ok_bind]
  rw [Counted.steps_bind_ok (a := Varint.varintBytes c.size) (by simp), Counted.steps_bind_ok (a := ()) (by simp)]
  simp only [Counted.steps_lift, Counted.steps_ticks, Nat.zero_add]
  rcases h1 : slice buf.data c.startOffset c.endOffset with x | content
  · rw [Counted.steps_bind_error (e := x) (by simp)]
    exact ⟨by simp only [Counted.steps_lift]; omega, fun r h => by cases h⟩
  have hlen : content.length ≤ buf.data.length := by
    have := slice_length h1
    rw [slice] at h1
    split at h1
    · omega
    · cases h1
  rw [Counted.steps_bind_ok (a := content) (by simp), Counted.steps_bind_ok (a := ()) (by simp), ok_bind]
  simp only [Counted.steps_lift, Counted.steps_ticks, Nat.zero_add]
  obtain ⟨i1, i2⟩ := steps_itemLensC p buf hb (c.endPos - c.startPos) c.startPos
  rcases h2 : itemLens p buf (c.endPos - c.startPos) c.startPos with x | deltas
  · rw [Counted.steps_bind_error (e := x) (by rw [result_itemLensC, h2])]
    exact ⟨by omega, fun r h => by cases h⟩
  rw [Counted.steps_bind_ok (a := deltas) (by rw [result_itemLensC, h2]), ok_bind]
  have hdl := itemLens_length p buf _ _ _ h2
  obtain ⟨o1, o2⟩ := Offsets.steps_encodeC p deltas (Varint.varintBytes c.size ++ content) (i2 deltas h2)
  rcases h3 : Offsets.encode p deltas (Varint.varintBytes c.size ++ content) with x | ⟨ds, data⟩
  · rw [Counted.steps_bind_error (e := x) (by rw [Offsets.result_encodeC, h3])]
    exact ⟨by omega, fun r h => by cases h⟩
  rw [Counted.steps_bind_ok (a := (ds, data)) (by rw [Offsets.result_encodeC, h3]), ok_bind]
  dsimp only
  obtain ⟨v1, v2⟩ := PrimitiveEnc.steps_encodeValidityC p buf.validity bp c.len be
  have v3 := PrimitiveEnc.validity_bytes p buf.validity bp c.len be
  rcases h4 : PrimitiveEnc.encodeValidity p buf.validity bp c.len be with x | ⟨res, v, be'⟩
  · rw [Counted.steps_bind_error (e := x) (by simp [h4])]
    exact ⟨by omega, fun r h => by cases h⟩
  rw [Counted.steps_bind_ok (a := (res, v, be')) (by simp [h4])]
  obtain ⟨bits, k1, k2⟩ := v2 _ h4
  have v3' := v3 _ h4
  dsimp only at k1 v3'
  simp only [Counted.steps_pure]
  refine ⟨by omega, fun r h => ?_⟩
  rw [ok_bind] at h
  cases h
  refine ⟨⟨bits, k1, by omega⟩, fun h63 => ?_⟩
  have o2' := o2 (by omega) _ h3
  simp only [List.length_append] at o2' ⊢
  omega

end BinaryEnc
end Meerkat
