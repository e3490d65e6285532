import Verif.Proofs.BinaryCosts
import Verif.Props.Amplify

set_option autoImplicit false

/-!
# C114: encoding a binary column takes time in proportion to its rows and bytes

It does as long as no call completes more than one block, which is so for the histories with `Spec.Manageable`. A call that
completes several goes through the same values again for each of them.
-/

namespace Meerkat
open BinaryEnc Spec
variable {S : Type}

namespace BinarySteps

theorem bind_ok {σ α β : Type} {m : Timed σ α} {f : α → Timed σ β} {st st' : σ} {a : α}
    (h : m.run st = (.ok a, st')) : (m >>= f) st = ((f a st').1, m.steps st + (f a st').2) := by
  show Timed.bind m f st = _
  unfold Timed.bind Timed.steps
  rcases hm : m st with ⟨⟨r, s1⟩, n⟩
  have h' : (r, s1) = (.ok a, st') := by rw [← h]; show _ = (m st).1; rw [hm]
  cases h'
  rfl

theorem offsetsOf_le (items : List Bytes) (n o : Nat) (h : o ∈ Meerkat.offsetsOf n items) : o ≤ n + items.flatten.length := by
  obtain ⟨i, hi, hg⟩ := List.mem_iff_getElem.mp h
  rw [offsetsOf_length] at hi
  have h1 := offsetsOf_get n items i (by omega)
  rw [List.getElem?_eq_getElem (by rw [offsetsOf_length]; omega), hg] at h1
  have h2 := congrArg (fun l => l.flatten.length) (List.take_append_drop i items)
  simp only [List.flatten_append, List.length_append] at h2
  have := Option.some.inj h1
  omega

theorem typed_ofRows (nullable : Bool) (rows : List (Option Bytes)) (h : byteCount rows ≤ U32_MAX) :
    (BinaryBuffer.ofRows nullable rows).Typed := by
  intro o ho
  have hU : U32_MAX = 2 ^ 32 - 1 := rfl
  have := offsetsOf_le (valuesOf rows) 0 o ho
  rw [byteCount] at h
  omega

theorem typed_new (m : Nat) (nullable : Bool) : (Encoder.new m nullable).remaining.Typed := by
  intro o ho
  rw [show (Encoder.new m nullable).remaining = BinaryBuffer.new nullable from rfl, BinaryBuffer.new_eq] at ho
  exact typed_ofRows nullable [] (Nat.zero_le _) o ho

theorem weight_ofRows (nullable : Bool) (rows : List (Option Bytes)) :
    (BinaryBuffer.ofRows nullable rows).weight = byteCount rows + (valuesOf rows).length + (if nullable then rows.length else 0) := by
  have hl := (holds_ofRows nullable rows).items.len
  simp only [BinaryBuffer.weight, hl, byteCount]
  cases nullable <;> simp [BinaryBuffer.ofRows, bitsOf, validityOfBits, Bitmap.ofBits_len, validityOf]

/-- The bytes of the blocks recorded. -/
def volume (l : List (Nat × Bytes)) : Nat := (l.map fun b => b.2.length).sum

theorem measures_length : Measures recorder List.length volume :=
  fun l id data => by simp [recorder, volume]

end BinarySteps
open BinarySteps

/-- C114, one call of an encoder in any state, whatever the sink does and however the call ends: what is held back and the buffer are
gone through once, and the buffer at most once more for each block that is offered to the sink (`cnt` counts them). Counting the steps
does not change what is done. -/
theorem C114_binary_call_steps (p : Profile) (k : Sink S) (cnt : S → Nat)
    (hcnt : ∀ s id data, cnt (k.write s id data).2 = cnt s + 1) (e : Encoder) (he : ∀ o ∈ e.remaining.offsets, o < 2 ^ 32)
    (buf : BinaryBuffer) (hb : ∀ o ∈ buf.offsets, o < 2 ^ 32) (s : S) :
    (encodeC p k buf).run = encode p k buf ∧ (flushC p k).run = flush p k ∧
    (∃ j, cnt (encode p k buf (e, s)).2.2 = cnt s + j ∧
      (encodeC p k buf).steps (e, s) ≤ 26 * e.remaining.weight + 57 * buf.weight + 1460 + j * (3 * buf.weight + 704)) ∧
    (flushC p k).steps (e, s) ≤ 26 * e.remaining.weight + 702 := by
  have hk : Measures k cnt (fun _ => 0) := fun s id data => ⟨hcnt s id data, Nat.zero_le _⟩
  refine ⟨run_encodeC p k buf, run_flushC p k, ?_, (flush_costs hk p e he s).2.1⟩
  obtain ⟨j, h1, h2, _⟩ := encode_costs hk p buf hb e he s
  rw [← run_encodeC]
  exact ⟨j, h1, h2⟩

/-- C114, a column: the steps in terms of the number of blocks, where no buffer weighs more than `M`. -/
theorem C114_binary_column_steps (p : Profile) (k : Sink S) (cnt : S → Nat)
    (hcnt : ∀ s id data, cnt (k.write s id data).2 = cnt s + 1) (m : Nat) (nullable : Bool) (M : Nat)
    (bufs : List BinaryBuffer) (hb : ∀ b ∈ bufs, (∀ o ∈ b.offsets, o < 2 ^ 32) ∧ b.weight ≤ M) (s : S) :
    (encodeColumnC p k bufs).run = encodeColumn p k bufs ∧
    ∃ blocks, cnt (encodeColumn p k bufs (Encoder.new m nullable, s)).2.2 = cnt s + blocks ∧
      (encodeColumnC p k bufs).steps (Encoder.new m nullable, s) ≤
        57 * (bufs.map BinaryBuffer.weight).sum + 1460 * bufs.length + 702 + blocks * (3 * M + 704) := by
  have hk : Measures k cnt (fun _ => 0) := fun s id data => ⟨hcnt s id data, Nat.zero_le _⟩
  obtain ⟨j, h1, h2, _⟩ := encodeColumn_costs hk p M bufs hb (Encoder.new m nullable) (typed_new m nullable) s
  refine ⟨run_encodeColumnC p k bufs, j, by rw [← run_encodeColumnC]; exact h1, Nat.le_trans h2 ?_⟩
  have h0 : (Encoder.new m nullable).remaining.weight = 0 := by cases nullable <;> rfl
  rw [h0]
  omega

/-- C114, from below: every byte offered to the sink was counted (`vol` counts no more than those bytes, `cnt` the blocks). -/
theorem C114_bytes_counted (p : Profile) (k : Sink S) (cnt vol : S → Nat)
    (hk : ∀ s id data, cnt (k.write s id data).2 = cnt s + 1 ∧ vol (k.write s id data).2 ≤ vol s + data.length)
    (m : Nat) (nullable : Bool) (bufs : List BinaryBuffer) (hb : ∀ b ∈ bufs, ∀ o ∈ b.offsets, o < 2 ^ 32)
    (hlen : (bufs.map fun b => b.offsets.length).sum < 2 ^ 63 - 1) (s : S) :
    vol (encodeColumn p k bufs (Encoder.new m nullable, s)).2.2 ≤
      vol s + (encodeColumnC p k bufs).steps (Encoder.new m nullable, s) := by
  have hM : ∀ l : List BinaryBuffer, ∃ M, ∀ b ∈ l, b.weight ≤ M := by
    intro l
    induction l with
    | nil => exact ⟨0, by simp⟩
    | cons b l ih =>
      obtain ⟨M, h⟩ := ih
      refine ⟨max b.weight M, fun b' hb' => ?_⟩
      rcases List.mem_cons.mp hb' with rfl | hb'
      · omega
      · have := h b' hb'; omega
  obtain ⟨M, hM⟩ := hM bufs
  obtain ⟨j, _, _, h⟩ := encodeColumn_costs (k := k) (cnt := cnt) (vol := vol) hk p M bufs (fun b h => ⟨hb b h, hM b h⟩)
    (Encoder.new m nullable) (typed_new m nullable) s
  rw [← run_encodeColumnC]
  refine h ?_
  have h1 : (Encoder.new m nullable).remaining.offsets.length = 1 := by cases nullable <;> rfl
  rw [h1]
  omega

namespace BinarySteps

theorem bind_steps {σ α β : Type} {m : Timed σ α} {f : α → Timed σ β} {st st' : σ} {a : α}
    (h : m.run st = (.ok a, st')) : (m >>= f).steps st = m.steps st + (f a).steps st' :=
  congrArg Prod.snd (bind_ok h)

theorem column_cons_steps {p : Profile} {k : Sink S} {b : BinaryBuffer} {bs : List BinaryBuffer} {st st' : Encoder × S}
    (h : encode p k b st = (.ok (), st')) :
    (encodeColumnC p k (b :: bs)).steps st = (encodeC p k b).steps st + (encodeColumnC p k bs).steps st' := by
  have h1 : (encodeC p k b).run st = (.ok (), st') := by rw [run_encodeC]; exact h
  have h2 : encodeColumnC p k (b :: bs) st = ((encodeColumnC p k bs st').1, (encodeC p k b).steps st + (encodeColumnC p k bs st').2) := by
    show Timed.bind (encodeC p k b >>= fun _ => encodeAllC p k bs) (fun _ => flushC p k) st = _
    unfold Timed.bind
    rw [bind_ok h1]
    show _ = ((Timed.bind (encodeAllC p k bs) (fun _ => flushC p k) st').1,
      (encodeC p k b).steps st + (Timed.bind (encodeAllC p k bs) (fun _ => flushC p k) st').2)
    unfold Timed.bind
    rcases encodeAllC p k bs st' with ⟨⟨_ | _, s1⟩, n⟩
    · rfl
    · simp only [Nat.add_assoc]
  exact congrArg Prod.snd h2

theorem encode_longer {p : Profile} {src : List Nat} {dst : Bytes} {ds : List Nat} {data : Bytes}
    (h : Offsets.encode p src dst = .ok (ds, data)) : dst.length < data.length := by
  simp only [Offsets.encode] at h
  rcases h1 : Util.roundUptoPowerOf2 p src.length Offsets.BLOCK_LEN with x | n
  · rw [h1] at h; cases h
  rw [h1, ok_bind] at h
  rcases h2 : Offsets.numBits (resize src n 0) with x | b
  · rw [h2] at h; cases h
  rw [h2, ok_bind] at h
  generalize Offsets.compressChunks b _ _ _ = rr at h
  cases rr with
  | error x => cases h
  | ok d =>
    rw [ok_bind] at h
    cases h
    rw [resize_length, List.length_append, List.length_singleton]
    omega

theorem fillStep_length (m : Nat) (held b : List (Option Bytes)) : (fillStep m held b).1.length ≤ 1 := by
  unfold fillStep
  split <;> simp

theorem blocksWith_length (nullable : Bool) (gs : List (List (Option Bytes) × List Bool)) : ∀ n,
    (blocksWith nullable n gs).length = gs.length := by
  induction gs with
  | nil => exact fun n => rfl
  | cons g gs ih => exact fun n => by simp [blocksWith, ih]

theorem column_linear (p : Profile) (nullable : Bool) (m : Nat) (hm : 0 < m) (hm32 : m ≤ U32_MAX)
    (bufs : List (List (Option Bytes))) : ∀ (stale : List Bool) (held : List (Option Bytes)) (e : Encoder)
    (l : List (Nat × Bytes)),
    e.minBlockSize = m → Holds nullable stale e.remaining held → EndsWithValue held →
    byteCount held < m → Accepts nullable held → (∀ b ∈ bufs, Accepts nullable b) →
    (∀ b ∈ bufs, byteCount b ≤ U32_MAX) → Manageable m false stale held bufs →
    e.numRows + held.length + bufs.flatten.length < 2 ^ 32 → e.remaining.Typed →
    (encodeColumnC p recorder (bufs.map (BinaryBuffer.ofRows nullable))).steps (e, l) ≤
      26 * e.remaining.weight + 60 * (bufs.map fun b => (BinaryBuffer.ofRows nullable b).weight).sum + 2164 * bufs.length + 702 := by
  induction bufs with
  | nil =>
    intro stale held e l _ _ _ _ _ _ _ _ _ ht
    have := (flush_costs measures_length p e ht l).2.1
    have h0 : (encodeColumnC p recorder []).steps (e, l) = (flushC p recorder (e, l)).2 := by
      show (Timed.bind (pure ()) (fun _ => flushC p recorder) (e, l)).2 = _
      simp [Timed.bind, pure]
    simp only [List.map_nil, List.sum_nil, List.length_nil, h0]
    exact this
  | cons b bufs ih =>
    intro stale held e l hem hrem hhe hlt hha hba hfit hman hrows ht
    obtain ⟨hg1, hg2, _, hman'⟩ := hman
    rw [List.flatten_cons, List.length_append] at hrows
    obtain ⟨e1, h1, h2, h3, h4⟩ := encode_ok p nullable stale m hm hm32 held b e l hem hrem hhe hlt hha
      (hba b (by simp)) (hfit b (by simp)) hg1 hg2 (by omega)
    have hrl := congrArg List.length (fillStep_rows m held b)
    have hdl := dropTrailingNulls_length_le b
    have hcl := countBits_withBits_le nullable (if held = [] then [] else stale) (fillStep m held b).1
    simp only [List.length_append] at hrl
    have hc := encode_costs measures_length p (BinaryBuffer.ofRows nullable b) (typed_ofRows nullable b (hfit b (by simp))) e ht l
    unfold Timed.Costs at hc
    obtain ⟨j, c1, c2, _, c4⟩ := hc
    have hrun : (encodeC p recorder (BinaryBuffer.ofRows nullable b) (e, l)).1 = _ := (congrFun (run_encodeC p recorder _) (e, l)).trans h1
    rw [hrun] at c1 c4
    obtain ⟨⟨_, k2, _⟩, k4⟩ := c4 () rfl
    dsimp only at c1 k2 k4
    rw [List.length_append, blocksWith_length, withBits, List.length_map] at c1
    have hj := fillStep_length m held b
    have hjm : j * (3 * (BinaryBuffer.ofRows nullable b).weight + 704) ≤ 1 * (3 * (BinaryBuffer.ofRows nullable b).weight + 704) :=
      Nat.mul_le_mul_right _ (by omega)
    have hi := ih _ _ e1 (l ++ blocksWith nullable e.numRows
        (withBits nullable (if held = [] then [] else stale) (fillStep m held b).1)) h2 h3
      (fillStep_ends m hhe).2 (fillStep_small hlt hg1) (fillStep_accepts m hha (hba b (by simp))).2
      (fun b' hb' => hba b' (by simp [hb'])) (fun b' hb' => hfit b' (by simp [hb'])) hman' (by omega) (k2 ht)
    rw [List.map_cons, column_cons_steps h1]
    simp only [List.map_cons, List.sum_cons, List.length_cons]
    have hs : (encodeC p recorder (BinaryBuffer.ofRows nullable b)).steps (e, l) =
      (encodeC p recorder (BinaryBuffer.ofRows nullable b) (e, l)).2 := rfl
    omega

theorem weights_sum (nullable : Bool) (bufs : List (List (Option Bytes))) :
    (bufs.map fun b => (BinaryBuffer.ofRows nullable b).weight).sum ≤ byteCount bufs.flatten + 2 * bufs.flatten.length := by
  induction bufs with
  | nil => simp
  | cons b bufs ih =>
    have h1 := valuesOf_length_le b
    have h2 : byteCount (b ++ bufs.flatten) = byteCount b + byteCount bufs.flatten := by simp [byteCount, valuesOf_append]
    have h3 := weight_ofRows nullable b
    simp only [List.map_cons, List.sum_cons, List.flatten_cons, List.length_append, h2, h3]
    cases nullable <;> simp only [Bool.false_eq_true, if_false, if_true] <;> omega

end BinarySteps

/-- C114, for the histories the encoder handles. -/
theorem C114_binary_column_linear_partial (p : Profile) (nullable : Bool) (m : Nat) (hm : 0 < m) (hm32 : m ≤ U32_MAX)
    (bufs : List (List (Option Bytes))) (bs) (hb : buildBinary nullable bufs = .ok bs) (hlen : bufs.flatten.length < 2 ^ 32)
    (hman : Manageable m false [] [] bufs) :
    (encodeColumnC p recorder bs).run = encodeColumn p recorder bs ∧
    (encodeColumnC p recorder bs).steps (Encoder.new m nullable, []) ≤
      60 * byteCount bufs.flatten + 120 * bufs.flatten.length + 2164 * bufs.length + 702 := by
  obtain ⟨hA, hD, rfl⟩ := buildBinary_ok hb
  have hz : (Encoder.new m nullable).numRows = 0 := rfl
  refine ⟨run_encodeColumnC p recorder _, ?_⟩
  have h := column_linear p nullable m hm hm32 bufs [] [] (Encoder.new m nullable) [] rfl
    (by
      have := holds_ofRows nullable []
      rw [← BinaryBuffer.new_eq] at this
      exact this)
    (.inl rfl) (by simpa [byteCount] using hm) (.inr (by simp)) hA hD hman
    (by rw [hz]; simpa using hlen) (typed_new m nullable)
  have h0 : (Encoder.new m nullable).remaining.weight = 0 := by cases nullable <;> rfl
  have hw := weights_sum nullable bufs
  rw [h0] at h
  omega

namespace BinarySteps

theorem volume_le {q : Profile} {m : Nat} (l : List (Nat × Bytes)) (h : ∀ x ∈ l, ∃ data, blockData q x.2 = some data ∧ m ≤ data.length) :
    l.length * m ≤ volume l := by
  unfold volume
  induction l with
  | nil => simp
  | cons x l ih =>
    obtain ⟨d, h1, h2⟩ := h x (by simp)
    have h3 : d.length ≤ x.2.length := by
      unfold blockData at h1
      split at h1
      · split at h1
        · cases h1
          simp only [List.length_take, List.length_drop]
          omega
        · cases h1
      · cases h1
    have := ih fun y hy => h y (by simp [hy])
    simp only [List.length_cons, List.map_cons, List.sum_cons, Nat.succ_mul]
    omega

end BinarySteps

/-- How far C114 fails: at block size `2^d`, one buffer of `(d + 1) * 2^d` bytes in fewer than `2 * 2^d` values takes at least
`(2^d - 1) * 2^d` steps. -/
theorem C114_binary_steps_amplified (p : Profile) (d : Nat) (hd : d ≤ 26) :
    byteCount ((heap d).map some) = (d + 1) * 2 ^ d ∧ (heap d).length = 2 * 2 ^ d - 1 ∧
    ∃ bs, buildBinary false [(heap d).map some] = .ok bs ∧
      (2 ^ d - 1) * 2 ^ d ≤ (encodeColumnC p recorder bs).steps (Encoder.new (2 ^ d) false, []) := by
  obtain ⟨h1, bs, h2, h3⟩ := C70_binary_overhead_amplified p p d hd
  have hl := heap_length d
  have hp : 2 ^ d ≤ 2 ^ 26 := Nat.pow_le_pow_right (by omega) hd
  refine ⟨h1, by rw [hl, Nat.pow_succ']; , bs, h2, ?_⟩
  rcases hr : encodeColumn p recorder bs (Encoder.new (2 ^ d) false, []) with ⟨r, e, blocks⟩
  obtain ⟨h4, h5⟩ := h3 _ _ _ hr
  obtain ⟨_, hD, rfl⟩ := buildBinary_ok h2
  have h6 := C114_bytes_counted p recorder List.length volume measures_length (2 ^ d) false
    ([(heap d).map some].map (BinaryBuffer.ofRows false))
    (by
      intro b hb
      simp only [List.map_cons, List.map_nil, List.mem_singleton] at hb
      subst hb
      exact typed_ofRows false _ (hD _ (by simp)))
    (by
      have h7 := (holds_ofRows false ((heap d).map some)).offsets
      simp only [List.map_cons, List.map_nil, List.sum_cons, List.sum_nil, h7, offsetsOf_length, PrimitiveEnc.valuesOf_map_some, hl]
      rw [Nat.pow_succ']
      omega) []
  rw [hr] at h6
  have h7 := volume_le _ h5
  have h8 : volume blocks.dropLast ≤ volume blocks := by
    rcases List.eq_nil_or_concat blocks with rfl | ⟨l', x, rfl⟩
    · simp
    · simp [volume]
  rw [List.length_dropLast] at h7
  have h10 : (2 ^ d - 1) * 2 ^ d ≤ (blocks.length - 1) * 2 ^ d := Nat.mul_le_mul_right _ (by omega)
  have h11 : volume [] = 0 := rfl
  rw [h11] at h6
  dsimp only at h6
  omega

/-- C114 fails: at block size 4096 a single buffer takes more steps than that. -/
theorem C114_binary_column_linear_violated :
    ¬ ∀ (p : Profile) (nullable : Bool) (m : Nat) (bufs : List (List (Option Bytes))) (bs), 0 < m → m ≤ U32_MAX →
      buildBinary nullable bufs = .ok bs → bufs.flatten.length < 2 ^ 32 →
      (encodeColumnC p recorder bs).steps (Encoder.new m nullable, []) ≤
        60 * byteCount bufs.flatten + 120 * bufs.flatten.length + 2164 * bufs.length + 702 := by
  intro h
  obtain ⟨h1, h2, bs, h3, h4⟩ := C114_binary_steps_amplified .debug 12 (by omega)
  have h5 := h .debug false (2 ^ 12) [(heap 12).map some] bs (by decide) (by decide) h3
    (by simp only [List.flatten_cons, List.flatten_nil, List.append_nil, List.length_map, h2]; decide)
  simp only [List.flatten_cons, List.flatten_nil, List.append_nil, List.length_map, h1, h2, List.length_cons, List.length_nil] at h5
  have h6 := Nat.le_trans h4 h5
  revert h6
  decide

/-- C114, exactly what holding back costs: a step for each value, each byte and each validity bit copied. -/
theorem C114_append_steps_exact (p : Profile) (b buf b' : BinaryBuffer) (i j vp pos : Nat) (hne : b.offsets ≠ [])
    (h : b.appendFrom p buf i j vp = .ok (b', pos)) : b'.weight = b.weight + (b.appendFromC p buf i j vp).steps := by
  obtain ⟨_, _, _, _, _, h5⟩ := (BinaryBuffer.steps_appendFromC p b buf i j vp).2 b' pos h
  exact h5 hne

/-- C114, exactly what a block costs: the bytes of its size, each byte of data, each length, 129 and 16 for each bit of the packed
lengths (`b` is the byte after the data) and, in a nullable column, each row and twice each byte of the compressed bitmap. -/
theorem C114_block_steps_exact (p : Profile) (buf : BinaryBuffer) (hb : ∀ o ∈ buf.offsets, o < 2 ^ 32) (c : BinaryChunk)
    (hs : c.size < 2 ^ 32) (hc : c.endPos < 2 ^ 63) (bp : Nat) (be : Rle.Encoder) (r : Encoded)
    (h : encodeBinaryBuffer p buf c bp be = .ok r) :
    ∃ head b validity, Varint.putVarint [] c.size = .ok head ∧
      b = r.data.getD (head.length + (c.endOffset - c.startOffset)) 0 ∧ validity <:+ r.data ∧
      (encodeBinaryBufferC p buf c bp be).steps = head.length + (c.endOffset - c.startOffset) + (c.endPos - c.startPos) +
        (129 + 16 * b.toNat) +
        (if buf.validity.isSome then (r.result.lastValidityPos - bp) + 2 * validity.length else validity.length) := by
  simp only [encodeBinaryBuffer] at h
  simp only [encodeBinaryBufferC]
  rw [Varint.putVarint_ok [] (Nat.lt_trans hs (by decide)), List.nil_append, ok_bind] at h
  rw [Varint.putVarint_ok [] (Nat.lt_trans hs (by decide)), List.nil_append]
  rcases h1 : slice buf.data c.startOffset c.endOffset with x | content
  · rw [h1] at h; cases h
  rw [h1, ok_bind] at h
  have hcl := slice_length h1
  rcases h2 : itemLens p buf (c.endPos - c.startPos) c.startPos with x | deltas
  · rw [h2] at h; cases h
  rw [h2, ok_bind] at h
  have hdl := itemLens_length p buf _ _ _ h2
  have hd32 := (steps_itemLensC p buf hb (c.endPos - c.startPos) c.startPos).2 deltas h2
  rcases h3 : Offsets.encode p deltas (Varint.varintBytes c.size ++ content) with x | ⟨ds, data⟩
  · rw [h3] at h; cases h
  rw [h3, ok_bind] at h
  dsimp only at h
  obtain ⟨e1, e2⟩ := Offsets.steps_encodeC_exact p deltas (Varint.varintBytes c.size ++ content) hd32 (by omega) _ h3
  rcases h4 : PrimitiveEnc.encodeValidity p buf.validity bp c.len be with x | ⟨res, v, be'⟩
  · rw [h4] at h; cases h
  rw [h4, ok_bind] at h
  cases h
  have hv := PrimitiveEnc.steps_encodeValidityC_exact p buf.validity bp c.len be _ h4
  dsimp only at e1 e2 hv ⊢
  refine ⟨_, _, v, rfl, rfl, List.suffix_append _ _, ?_⟩
  rw [Counted.steps_bind_ok (a := Varint.varintBytes c.size) (by simp), Counted.steps_bind_ok (a := ()) (by simp),
    Counted.steps_bind_ok (a := content) (by simp [h1]), Counted.steps_bind_ok (a := ()) (by simp),
    Counted.steps_bind_ok (a := deltas) (by rw [result_itemLensC, h2]),
    Counted.steps_bind_ok (a := (ds, data)) (by rw [Offsets.result_encodeC, h3]),
    Counted.steps_bind_ok (a := (res, v, be')) (by simp [h4])]
  simp only [Counted.steps_lift, Counted.steps_ticks, Counted.steps_pure, Nat.zero_add, Nat.add_zero,
    steps_itemLensC_exact p buf _ _ _ h2, e1, hv]
  have hlt : (Varint.varintBytes c.size ++ content).length < data.length := by
    have h5 := BinarySteps.encode_longer h3
    exact h5
  have hg : (data ++ v).getD ((Varint.varintBytes c.size).length + (c.endOffset - c.startOffset)) 0 =
      data.getD (Varint.varintBytes c.size ++ content).length 0 := by
    rw [List.length_append, hcl] at hlt ⊢
    rw [List.getD_eq_getElem?_getD, List.getD_eq_getElem?_getD, List.getElem?_append_left hlt]
  rw [hg, hcl]
  cases hval : buf.validity with
  | none =>
    rw [hval] at h4
    cases h4
    simp only [Option.isSome_none, Bool.false_eq_true, if_false, List.length_nil]
    omega
  | some bm => simp only [Option.isSome_some, if_true]; omega

/-- C114, exactly what looking for the end of a chunk costs: a step for each offset up to the end, or for all from the start when
less than a block is left. -/
theorem C114_chunk_steps_exact (p : Profile) (b : BinaryBuffer) (i ms : Nat) (c : BinaryChunk) (h : chunk p b i ms = .ok c) :
    (chunkC p b i ms).steps = if c.size < ms then b.offsets.length - i else c.endPos + 1 := by
  simp only [chunk] at h
  simp only [chunkC]
  rcases h1 : index b.offsets i with x | so
  · rw [h1] at h; cases h
  rw [h1, ok_bind] at h
  have hi := (index_mem h1).2
  rcases h2 : findPosition p so ms (b.offsets.drop i) 0 with x | found
  · rw [h2] at h; cases h
  rw [h2, ok_bind] at h
  have hf := steps_findPositionC_exact p so ms (b.offsets.drop i) 0 found h2
  rcases h3 : chunkEnd b found with x | ⟨ep, eo⟩
  · rw [h3] at h; cases h
  rw [h3, ok_bind] at h
  dsimp only at h
  rcases h5 : p.sub 32 eo so with x | size
  · rw [h5] at h; cases h
  rw [h5, ok_bind] at h
  rcases h6 : p.sub 64 ep i with x | n
  · rw [h6] at h; cases h
  rw [h6, ok_bind] at h
  cases h
  rw [Counted.steps_bind_ok (a := so) (by simp [h1]), Counted.steps_bind_ok (a := found) (by rw [result_findPositionC, h2]),
    Counted.steps_bind_ok (a := (ep, eo)) (by simp [h3]), Counted.steps_bind_ok (a := size) (by simp [h5]),
    Counted.steps_bind_ok (a := n) (by simp [h6])]
  simp only [Counted.steps_lift, Counted.steps_pure, Nat.zero_add, Nat.add_zero]
  cases found with
  | some q =>
    obtain ⟨q, o⟩ := q
    simp only [chunkEnd] at h3
    cases h3
    obtain ⟨f1, d, f2, f3⟩ := hf
    rw [h5] at f2
    cases f2
    rw [if_neg (by omega)]
    omega
  | none =>
    simp only [chunkEnd] at h3
    rcases h4 : index b.offsets (b.offsets.length - 1) with x | last
    · rw [h4] at h3; cases h3
    rw [h4, ok_bind] at h3
    cases h3
    obtain ⟨f1, f2⟩ := hf
    have hmem : eo ∈ b.offsets.drop i := by
      rw [index] at h4
      split at h4
      · rename_i v hv
        cases h4
        refine List.mem_iff_getElem?.mpr ⟨b.offsets.length - 1 - i, ?_⟩
        rw [List.getElem?_drop, ← hv]
        congr 1
        omega
      · cases h4
    rw [if_pos (f2 _ hmem _ h5), f1, List.length_drop]

/-- Four rows with three values at a block size of four bytes. The block takes 180 steps: an iteration, three offsets looked at, a byte
of header, four bytes, two lengths, 128 places and 32 packed bytes for them, and nine for three rows and their compressed bitmap; what
is held back takes five. -/
example : (match buildBinary true [[some [1, 2], none, some [3, 4], some [5]]] with
    | .ok bs => ((encodeAllC .debug recorder bs).steps (Encoder.new 4 true, []),
        (encodeColumnC .debug recorder bs).steps (Encoder.new 4 true, []))
    | .error _ => (0, 0)) = (185, 338) := by decide +kernel

/-- Of a hundred buffers the last costs no more than the first. -/
example : (match buildBinary false (List.replicate 100 [some [7]]) with
    | .ok bs => (encodeAllC .release recorder bs).steps (Encoder.new 128 false, [])
    | .error _ => 0) = 401 := by decide +kernel

/-- A manageable history, and one which is not, of 32 bytes at block size eight. -/
example : Manageable 4 false [] [] [[some [1, 2], none, some [3, 4], some [5]]] ∧ ¬ Manageable 8 false [] [] [(heap 3).map some] ∧
    (match buildBinary false [(heap 3).map some] with
      | .ok bs => (encodeColumnC .release recorder bs).steps (Encoder.new 8 false, [])
      | .error _ => 0) = 1651 := by decide +kernel

end Meerkat
