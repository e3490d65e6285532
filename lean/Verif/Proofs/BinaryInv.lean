import Verif.Proofs.BinaryColumn

set_option autoImplicit false

/-! # Facts about the binary encoder that hold for every history -/

namespace Meerkat.BinaryEnc
open Spec Varint BinaryBuffer
variable {S : Type}

/-- The data and offsets of the buffer describe `items`. -/
structure Items (b : BinaryBuffer) (items : List Bytes) : Prop where
  data : b.data = items.flatten
  offsets : b.offsets = offsetsOf 0 items

theorem Holds.items {nullable : Bool} {st : List Bool} {b : BinaryBuffer} {rows : List (Option Bytes)}
    (h : Holds nullable st b rows) : Items b (valuesOf rows) := ⟨h.data, h.offsets⟩

theorem Items.len {b : BinaryBuffer} {items : List Bytes} (h : Items b items) : b.len = items.length := by
  simp [BinaryBuffer.len, h.offsets]

theorem Items.clear {b : BinaryBuffer} {items : List Bytes} (h : Items b items) : Items b.clear [] where
  data := rfl
  offsets := by simp [BinaryBuffer.clear, h.offsets, offsetsOf, endOffsets]

/-- `append_from` that returns normally adds exactly the items of the range. -/
theorem Items.appendFrom (p : Profile) {dst src dst' : BinaryBuffer} {ds a mid c : List Bytes} {pos pos' : Nat}
    (hd : Items dst ds) (hs : Items src (a ++ mid ++ c))
    (h : dst.appendFrom p src a.length (a ++ mid).length pos = .ok (dst', pos')) :
    Items dst' (ds ++ mid) ∧ dst'.data.length < U32_MAX := by
  have ho := hs.offsets
  have h1 := offsetsOf_get 0 (a ++ mid ++ c) a.length (by simp)
  have h2 := offsetsOf_get 0 (a ++ mid ++ c) (a ++ mid).length (by simp)
  have e1 : (a ++ mid ++ c).take a.length = a := by simp
  have e2 : (a ++ mid ++ c).take (a ++ mid).length = a ++ mid := by rw [List.take_left]
  rw [e1] at h1; rw [e2] at h2
  have hle : a.length ≤ (a ++ mid).length := by simp
  have hn : (a ++ mid).length - a.length = mid.length := by simp
  have hl : dst.offsets.getLast? = some ds.flatten.length := by
    rw [hd.offsets, offsetsOf_getLast]; simp
  have hsl : slice src.data (0 + a.flatten.length) (0 + (a ++ mid).flatten.length) = .ok mid.flatten := by
    rw [Nat.zero_add, Nat.zero_add, hs.data]; exact slice_flatten_mid a mid c
  simp only [BinaryBuffer.appendFrom, index, ho, h1, h2, ok_bind, Profile.sub_ok p hle, hl, hn,
    Option.getD_some, hsl] at h
  by_cases hfit : U32_MAX > (dst.data ++ mid.flatten).length
  · have hpush := appendFromOffsets_ok p src _ ho mid a c ds.flatten.length rfl
      (by rw [hd.data, List.length_append] at hfit; omega)
    simp only [hpush, ok_bind, if_pos hfit] at h
    rcases hv : validityAppendFrom dst.validity src.validity pos mid.length with x | ⟨v, q⟩
    · rw [hv] at h; cases h
    · rw [hv] at h
      simp only [ok_bind, pure_eq_ok, Except.ok.injEq, Prod.mk.injEq] at h
      obtain ⟨rfl, rfl⟩ := h
      exact ⟨⟨by simp [hd.data], by simp [hd.offsets, offsetsOf_append]⟩, hfit⟩
  · rcases hp : appendFromOffsets p src mid.length a.length ds.flatten.length with x | l
    · rw [hp] at h; cases h
    · rw [hp] at h
      simp only [ok_bind, if_neg hfit] at h
      cases h

/-- `write_block` touches neither the leftovers nor the block size. -/
theorem writeBlock_frame (p : Profile) (k : Sink S) (b : BinaryBuffer) (c : BinaryChunk) (pos : Nat)
    (e : Encoder) (s : S) :
    (writeBlock p k b c pos (e, s)).2.1.remaining = e.remaining ∧
    (writeBlock p k b c pos (e, s)).2.1.minBlockSize = e.minBlockSize := by
  simp only [writeBlock, Run.bind_apply, Run.get_apply]
  cases encodeBinaryBuffer p b c pos e.bitmapEncoder with
  | error x => exact ⟨rfl, rfl⟩
  | ok r =>
    simp only [Run.lift_ok, Run.set_apply]
    cases addRows e.numRows r.result.numRows with
    | error x => exact ⟨rfl, rfl⟩
    | ok n =>
      simp only [Run.lift_ok]
      cases p.sub 32 n 1 with
      | error x => exact ⟨rfl, rfl⟩
      | ok id =>
        simp only [Run.lift_ok, Run.emit]
        cases (k.write s id r.data).1 <;> exact ⟨rfl, rfl⟩

theorem writeRemaining_frame (p : Profile) (k : Sink S) (e : Encoder) (s : S) :
    (writeRemaining p k (e, s)).2.1.remaining = e.remaining ∧
    (writeRemaining p k (e, s)).2.1.minBlockSize = e.minBlockSize := by
  simp only [writeRemaining, Run.bind_apply, Run.get_apply]
  cases wholeChunk e.remaining with
  | error x => exact ⟨rfl, rfl⟩
  | ok c => exact writeBlock_frame p k _ c 0 e s

/-- The loop leaves less than a block behind. -/
theorem encodeLoop_small_from (p : Profile) (k : Sink S) (m : Nat) (src : BinaryBuffer) (items : List Bytes)
    (hs : Items src items) (fuel : Nat) : ∀ (bp vp : Nat) (e : Encoder) (s : S) (e' : Encoder) (s' : S),
    e.minBlockSize = m → 0 < m → Items e.remaining [] →
    encodeLoop p k src fuel bp vp (e, s) = (.ok (), (e', s')) →
    e'.minBlockSize = m ∧ ∃ held, Items e'.remaining held ∧ held.flatten.length < m ∧ ∀ x ∈ held, x ∈ items := by
  induction fuel with
  | zero => intro bp vp e s e' s' _ _ _ h; cases (Prod.mk.inj h).1
  | succ fuel ih =>
    intro bp vp e s e' s' hem hm hrem h
    rw [encodeLoop] at h
    have hol : src.offsets.length = items.length + 1 := by rw [hs.offsets]; simp
    split at h
    · rename_i hlt
      have hsplit : items = items.take bp ++ items.drop bp := (List.take_append_drop bp items).symm
      have hl : (items.take bp).length = bp := by rw [List.length_take]; omega
      have hc := chunk_eq p src (items.take bp) (items.drop bp) (by rw [← hsplit]; exact hs.offsets) m
      rw [hl] at hc
      simp only [Run.bind_apply, Run.get_apply, hem] at h
      cases hf : fill m (items.drop bp) with
      | none =>
        rw [hf] at hc
        simp only [List.take_append_drop] at hc
        have hsm := fill_none hf
        rw [hc] at h
        simp only [Run.lift_ok, if_pos hsm] at h
        rcases ha : e.remaining.appendFrom p src bp items.length vp with x | ⟨rem, q⟩
        · rw [ha] at h; cases (Prod.mk.inj h).1
        · rw [ha] at h
          simp only [Run.lift_ok, Run.bind_apply, Run.set_apply, Prod.mk.injEq, true_and] at h
          have := Items.appendFrom p (a := items.take bp) (mid := items.drop bp) (c := []) hrem
            (by rw [List.append_nil, ← hsplit]; exact hs) (by rw [← hsplit, hl]; exact ha)
          rw [← h.1]
          exact ⟨rfl, items.drop bp, this.1, hsm, fun x hx => List.mem_of_mem_drop hx⟩
      | some j =>
        rw [hf] at hc
        simp only at hc
        have hge := (fill_some hf).2.1
        rw [hc] at h
        rcases hsub : p.sub 64 j bp with x | n
        · rw [hsub] at h; cases (Prod.mk.inj h).1
        · rw [hsub] at h
          simp only [ok_bind, pure_eq_ok, Run.lift_ok] at h
          rw [if_neg (by omega)] at h
          have hfr := writeBlock_frame p k src ⟨bp, j, (items.take bp).flatten.length,
            (items.take bp).flatten.length + ((items.drop bp).take j).flatten.length,
            ((items.drop bp).take j).flatten.length, n⟩ vp e s
          rw [Run.bind_apply] at h
          rcases hw : writeBlock p k src ⟨bp, j, (items.take bp).flatten.length,
            (items.take bp).flatten.length + ((items.drop bp).take j).flatten.length,
            ((items.drop bp).take j).flatten.length, n⟩ vp (e, s) with ⟨r, e1, s1⟩
          rw [hw] at h hfr
          cases r with
          | error x => cases (Prod.mk.inj h).1
          | ok r =>
            simp only at h hfr
            exact ih _ _ e1 s1 e' s' (by rw [hfr.2, hem]) hm (by rw [hfr.1]; exact hrem) h
    · simp only [Run.pure_apply, Prod.mk.injEq, true_and] at h
      rw [← h.1]
      exact ⟨hem, [], hrem, by simpa using hm, fun x hx => nomatch hx⟩

theorem encodeLoop_small (p : Profile) (k : Sink S) (m : Nat) (src : BinaryBuffer) (items : List Bytes)
    (hs : Items src items) (fuel : Nat) (bp vp : Nat) (e : Encoder) (s : S) (e' : Encoder) (s' : S)
    (hem : e.minBlockSize = m) (hm : 0 < m) (hrem : Items e.remaining [])
    (h : encodeLoop p k src fuel bp vp (e, s) = (.ok (), (e', s'))) :
    e'.minBlockSize = m ∧ ∃ held, Items e'.remaining held ∧ held.flatten.length < m := by
  obtain ⟨h1, held, h2, h3, _⟩ := encodeLoop_small_from p k m src items hs fuel bp vp e s e' s' hem hm hrem h
  exact ⟨h1, held, h2, h3⟩

theorem encode_small_from (p : Profile) (k : Sink S) (m : Nat) (hm : 0 < m) (src : BinaryBuffer) (items held : List Bytes)
    (hs : Items src items) (e : Encoder) (s : S) (e' : Encoder) (s' : S) (hem : e.minBlockSize = m)
    (hrem : Items e.remaining held)
    (h : encode p k src (e, s) = (.ok (), (e', s'))) :
    e'.minBlockSize = m ∧ ∃ held', Items e'.remaining held' ∧ held'.flatten.length < m ∧ ∀ x ∈ held', x ∈ held ∨ x ∈ items := by
  simp only [encode, Run.bind_apply, Run.get_apply, hrem.len] at h
  split at h
  · rename_i hpos
    simp only [Run.bind_apply, hem] at h
    rcases hsub : p.sub 64 m e.remaining.data.length with x | room
    · rw [hsub] at h; cases (Prod.mk.inj h).1
    · rw [hsub] at h
      simp only [Run.lift_ok] at h
      have hc := chunk_eq p src [] items hs.offsets room
      simp only [List.length_nil, List.flatten_nil, List.nil_append, Nat.zero_add] at hc
      rcases hch : chunk p src 0 room with x | c
      · rw [hch] at h; cases (Prod.mk.inj h).1
      · have hc' : c.startPos = 0 ∧ c.endPos ≤ items.length := by
          rw [hch] at hc
          cases hf : fill room items with
          | none => rw [hf] at hc; cases hc; exact ⟨rfl, Nat.le_refl _⟩
          | some j =>
            rw [hf] at hc
            simp only [Profile.sub_ok p (Nat.zero_le j), ok_bind, pure_eq_ok, Except.ok.injEq] at hc
            subst hc
            exact ⟨rfl, (fill_some hf).1⟩
        rw [hch] at h
        simp only [Run.lift_ok, hc'.1] at h
        rcases ha : e.remaining.appendFrom p src 0 c.endPos 0 with x | ⟨rem, q⟩
        · rw [ha] at h; cases (Prod.mk.inj h).1
        · have hrem' : Items rem (held ++ items.take c.endPos) :=
            (Items.appendFrom p (a := []) (mid := items.take c.endPos) (c := items.drop c.endPos) hrem
              (by rw [List.nil_append, List.take_append_drop]; exact hs)
              (by rw [List.nil_append, List.length_take, Nat.min_eq_left hc'.2]; exact ha)).1
          rw [ha] at h
          simp only [Run.lift_ok, Run.set_apply] at h
          split at h
          · rename_i hlt
            simp only [Run.pure_apply, Prod.mk.injEq, true_and] at h
            rw [← h.1]
            exact ⟨rfl, _, hrem', by rw [← hrem'.data]; exact hlt,
              fun x hx => (List.mem_append.1 hx).imp id List.mem_of_mem_take⟩
          · simp only [Run.bind_apply] at h
            have hfr := writeRemaining_frame p k ⟨rem, e.encodedData, e.offsetDeltas, e.bitmapEncoder, m, e.numRows⟩ s
            rcases hw : writeRemaining p k (⟨rem, e.encodedData, e.offsetDeltas, e.bitmapEncoder, m, e.numRows⟩, s)
              with ⟨r, e1, s1⟩
            rw [hw] at h hfr
            cases r with
            | error x => cases (Prod.mk.inj h).1
            | ok r =>
              simp only [Run.get_apply, Run.set_apply] at h hfr
              obtain ⟨h1, held', h2, h3, h4⟩ := encodeLoop_small_from p k m src items hs _ _ _ _ _ _ _
                (by exact hfr.2) hm (by simp only [hfr.1]; exact hrem'.clear) h
              exact ⟨h1, held', h2, h3, fun x hx => .inr (h4 x hx)⟩
  · rename_i hpos
    have : held = [] := List.eq_nil_of_length_eq_zero (by omega)
    subst this
    obtain ⟨h1, held', h2, h3, h4⟩ := encodeLoop_small_from p k m src items hs _ _ _ _ _ _ _ hem hm hrem h
    exact ⟨h1, held', h2, h3, fun x hx => .inr (h4 x hx)⟩

theorem encode_small (p : Profile) (k : Sink S) (m : Nat) (hm : 0 < m) (src : BinaryBuffer) (items held : List Bytes)
    (hs : Items src items) (e : Encoder) (s : S) (e' : Encoder) (s' : S) (hem : e.minBlockSize = m)
    (hrem : Items e.remaining held)
    (h : encode p k src (e, s) = (.ok (), (e', s'))) :
    e'.minBlockSize = m ∧ ∃ held', Items e'.remaining held' ∧ held'.flatten.length < m := by
  obtain ⟨h1, held', h2, h3, _⟩ := encode_small_from p k m hm src items held hs e s e' s' hem hrem h
  exact ⟨h1, held', h2, h3⟩

/-- Every history of successful calls leaves less than a block held back. -/
theorem encodeAll_small (p : Profile) (k : Sink S) (m : Nat) (hm : 0 < m) (bufs : List BinaryBuffer) :
    ∀ (held : List Bytes) (e : Encoder) (s : S) (e' : Encoder) (s' : S), (∀ b ∈ bufs, ∃ items, Items b items) →
    e.minBlockSize = m → Items e.remaining held → held.flatten.length < m →
    encodeAll p k bufs (e, s) = (.ok (), (e', s')) →
    e'.minBlockSize = m ∧ ∃ held', Items e'.remaining held' ∧ held'.flatten.length < m := by
  induction bufs with
  | nil =>
    intro held e s e' s' _ hem hrem hlt h
    simp only [encodeAll, Run.pure_apply, Prod.mk.injEq, true_and] at h
    rw [← h.1]
    exact ⟨hem, held, hrem, hlt⟩
  | cons b bufs ih =>
    intro held e s e' s' hall hem hrem hlt h
    obtain ⟨items, hb⟩ := hall b (by simp)
    rw [encodeAll, Run.bind_apply] at h
    rcases hw : encode p k b (e, s) with ⟨r, e1, s1⟩
    rw [hw] at h
    cases r with
    | error x => cases (Prod.mk.inj h).1
    | ok r =>
      obtain ⟨h1, held', h2, h3⟩ := encode_small p k m hm b items held hb e s e1 s1 hem hrem hw
      exact ih held' e1 s1 e' s' (fun b' hb' => hall b' (by simp [hb'])) h1 h2 h3 h

/-! ## Sizes of the blocks -/

theorem offsets_encode_prefix (p : Profile) (xs : List Nat) (dst : Bytes) (hlen : xs.length + 127 < 2 ^ 64) {r}
    (h : Offsets.encode p xs dst = .ok r) :
    1 ≤ xs.length ∧ xs.length ≤ 128 ∧ r.2 = dst ++ Offsets.offsetBytes xs := by
  by_cases hx : xs.length = 0 ∨ 128 < xs.length
  · rw [Offsets.encode_err p xs dst hx hlen] at h; cases h
  · rw [Offsets.encode_ok p xs dst (by omega) (by omega)] at h
    cases h
    exact ⟨by omega, by omega, rfl⟩

theorem itemLens_length (p : Profile) (b : BinaryBuffer) : ∀ (k i : Nat) (l : List Nat),
    itemLens p b k i = .ok l → l.length = k := by
  intro k
  induction k with
  | zero => intro i l h; cases h; rfl
  | succ k ih =>
    intro i l h
    rw [itemLens] at h
    rcases h1 : b.itemLen p i with x | n
    · rw [h1] at h; cases h
    · rw [h1] at h
      rcases h2 : itemLens p b k (i + 1) with x | r
      · rw [ok_bind, h2] at h; cases h
      · rw [ok_bind, h2] at h; cases h
        simp [ih _ _ h2]

/-- The layout of anything `encode_binary_buffer` produces. -/
theorem encodeBinaryBuffer_layout (p : Profile) (b : BinaryBuffer) (c : BinaryChunk) (pos : Nat) (be : Rle.Encoder)
    (hsize : c.size < 2 ^ 64) (hlen : c.endPos < 2 ^ 63) {r : Encoded}
    (h : encodeBinaryBuffer p b c pos be = .ok r) :
    ∃ content deltas validity, slice b.data c.startOffset c.endOffset = .ok content ∧
      itemLens p b (c.endPos - c.startPos) c.startPos = .ok deltas ∧
      1 ≤ deltas.length ∧ deltas.length ≤ 128 ∧
      r.data = varintBytes c.size ++ content ++ Offsets.offsetBytes deltas ++ validity ∧
      (b.validity = none → validity = []) := by
  simp only [encodeBinaryBuffer, putVarint_ok [] hsize, ok_bind, List.nil_append] at h
  rcases h1 : slice b.data c.startOffset c.endOffset with x | content
  · rw [h1] at h; cases h
  · rw [h1] at h
    simp only [ok_bind] at h
    rcases h2 : itemLens p b (c.endPos - c.startPos) c.startPos with x | deltas
    · rw [h2] at h; cases h
    · rw [h2] at h
      simp only [ok_bind] at h
      rcases h3 : Offsets.encode p deltas (varintBytes c.size ++ content) with x | ⟨ds, data⟩
      · rw [h3] at h; cases h
      · have hl := itemLens_length p b _ _ _ h2
        obtain ⟨g1, g2, g3⟩ := offsets_encode_prefix p deltas _ (by omega) h3
        rw [h3] at h
        simp only [ok_bind] at h
        rcases h4 : PrimitiveEnc.encodeValidity p b.validity pos c.len be with x | ⟨res, v, be'⟩
        · rw [h4] at h; cases h
        · rw [h4] at h
          simp only [ok_bind, pure_eq_ok, Except.ok.injEq] at h
          subst h
          simp only at g3
          refine ⟨content, deltas, v, rfl, rfl, g1, g2, by rw [g3], fun hv => ?_⟩
          rw [hv] at h4
          cases h4; rfl

/-- A full chunk that does not start at the beginning of a buffer: `encode_binary_buffer` panics, or its
lengths describe fewer bytes than the block holds. -/
theorem second_chunk_inconsistent (p : Profile) (b : BinaryBuffer) (a c : List Bytes) (hb : Items b (a ++ c))
    (ha : 0 < a.length) (m j : Nat) (hf : fill m c = some j) (hn : (a ++ c).length < 2 ^ 63)
    (hd : (a ++ c).flatten.length < 2 ^ 32)
    (ch : BinaryChunk) (hch : chunk p b a.length m = .ok ch) (pos : Nat) (be : Rle.Encoder) (r : Encoded)
    (h : encodeBinaryBuffer p b ch pos be = .ok r) :
    ∃ content deltas validity, r.data =
        varintBytes content.length ++ content ++ Offsets.offsetBytes deltas ++ validity ∧
      1 ≤ deltas.length ∧ deltas.length ≤ 128 ∧ m ≤ content.length ∧ deltas.sum < m ∧
      content.length < 2 ^ 32 ∧ (b.validity = none → validity = []) := by
  obtain ⟨f1, f2, f3⟩ := fill_some hf
  have hc := chunk_eq p b a c hb.offsets m
  rw [hf, hch] at hc
  simp only at hc
  rcases hsub : p.sub 64 j a.length with x | n
  · rw [hsub] at hc; cases hc
  · rw [hsub] at hc
    simp only [ok_bind, pure_eq_ok, Except.ok.injEq] at hc
    subst hc
    have hfl : (a ++ c).flatten.length = a.flatten.length + c.flatten.length := by
      rw [List.flatten_append, List.length_append]
    have htk : (c.take j).flatten.length ≤ c.flatten.length := by
      conv => rhs; rw [← List.take_append_drop j c]
      rw [List.flatten_append, List.length_append]; omega
    rw [List.length_append] at hn
    obtain ⟨content, deltas, v, h1, h2, h3, h4, h5, h6⟩ := encodeBinaryBuffer_layout p b _ pos be
      (by simp only; omega) (by simp only; omega) h
    simp only at h1 h2 h5
    have hs : content.length = (c.take j).flatten.length := by
      have := slice_flatten_mid a (c.take j) (c.drop j)
      have e : a ++ c.take j ++ c.drop j = a ++ c := by rw [List.append_assoc, List.take_append_drop]
      rw [e, List.flatten_append (L₁ := a) (L₂ := c.take j), List.length_append, ← hb.data, h1] at this
      rw [Except.ok.inj this]
    have hdl : deltas = (c.take (j - a.length)).map List.length := by
      have := itemLens_eq p b _ hb.offsets (c.take (j - a.length)) a (c.drop (j - a.length))
        (by rw [List.append_assoc, List.take_append_drop])
      rw [List.length_take, Nat.min_eq_left (by omega), h2] at this
      exact Except.ok.inj this
    have hdpos : 1 ≤ j - a.length := by
      rw [hdl, List.length_map, List.length_take] at h3; omega
    refine ⟨content, deltas, v, by rw [hs]; exact h5, h3, h4, by omega, ?_, by omega, h6⟩
    have := f3 (j - a.length) (by omega)
    rw [List.length_flatten] at this
    rw [hdl]
    exact this

/-! ## The bound on the loop -/

theorem encodeBinaryBuffer_progress (p : Profile) (b : BinaryBuffer) (c : BinaryChunk) (pos : Nat) (be : Rle.Encoder)
    {r : Encoded} (h : encodeBinaryBuffer p b c pos be = .ok r) : c.startPos < c.endPos := by
  apply Classical.byContradiction
  intro hn
  have h0 : c.endPos - c.startPos = 0 := by omega
  simp only [encodeBinaryBuffer, h0, itemLens] at h
  rcases h1 : putVarint [] c.size with x | d
  · rw [h1] at h; cases h
  · rw [h1] at h
    simp only [ok_bind] at h
    rcases h2 : slice b.data c.startOffset c.endOffset with x | content
    · rw [h2] at h; cases h
    · rw [h2] at h
      simp only [ok_bind, Offsets.encode_err p [] (d ++ content) (.inl rfl) (by decide)] at h
      cases h

theorem writeBlock_progress (p : Profile) (k : Sink S) (b : BinaryBuffer) (c : BinaryChunk) (pos : Nat)
    (e e' : Encoder) (s s' : S) {r : EncodeResult} (h : writeBlock p k b c pos (e, s) = (.ok r, (e', s'))) :
    c.startPos < c.endPos := by
  simp only [writeBlock, Run.bind_apply, Run.get_apply] at h
  cases hr : encodeBinaryBuffer p b c pos e.bitmapEncoder with
  | error x => rw [hr] at h; cases (Prod.mk.inj h).1
  | ok r => exact encodeBinaryBuffer_progress p b c pos _ hr

/-- The bound the model puts on the loop is never what ends it: a larger one gives the same result. -/
theorem encodeLoop_fuel (p : Profile) (k : Sink S) (src : BinaryBuffer) (items : List Bytes) (hs : Items src items)
    (fuel : Nat) : ∀ (fuel' bp vp : Nat) (st : Encoder × S), bp ≤ items.length → items.length + 1 < fuel + bp →
    items.length + 1 < fuel' + bp →
    encodeLoop p k src fuel bp vp st = encodeLoop p k src fuel' bp vp st := by
  have hol : src.offsets.length = items.length + 1 := by rw [hs.offsets]; simp
  induction fuel with
  | zero => intro fuel' bp vp st h0 h1 h2; omega
  | succ fuel ih =>
    intro fuel' bp vp st h0 h1 h2
    cases fuel' with
    | zero => omega
    | succ fuel' =>
      rw [encodeLoop, encodeLoop]
      rw [if_pos (by omega), if_pos (by omega)]
      rw [Run.bind_ok (Run.get_apply st), Run.bind_ok (Run.get_apply st)]
      cases hch : chunk p src bp st.1.minBlockSize with
      | error x => rfl
      | ok c =>
        simp only [Run.bind_apply, Run.lift_ok]
        split
        · rfl
        · rename_i hsz
          rw [Run.bind_apply, Run.bind_apply]
          rcases hw : writeBlock p k src c vp st with ⟨r, st'⟩
          cases r with
          | error x => rfl
          | ok r =>
            have hpr := writeBlock_progress p k src c vp st.1 st'.1 st.2 st'.2 hw
            have hsplit : items = items.take bp ++ items.drop bp := (List.take_append_drop bp items).symm
            have hl : (items.take bp).length = bp := by rw [List.length_take]; omega
            have hc := chunk_eq p src (items.take bp) (items.drop bp) (by rw [← hsplit]; exact hs.offsets)
              st.1.minBlockSize
            rw [hl, hch] at hc
            have hcc : c.startPos = bp ∧ c.endPos ≤ items.length := by
              cases hf : fill st.1.minBlockSize (items.drop bp) with
              | none =>
                rw [hf] at hc
                simp only [List.take_append_drop, Except.ok.injEq] at hc
                subst hc
                exact ⟨rfl, Nat.le_refl _⟩
              | some j =>
                rw [hf] at hc
                simp only at hc
                rcases hsub : p.sub 64 j bp with x | n
                · rw [hsub] at hc; cases hc
                · rw [hsub] at hc
                  simp only [ok_bind, pure_eq_ok, Except.ok.injEq] at hc
                  subst hc
                  have := (fill_some hf).1
                  rw [List.length_drop] at this
                  exact ⟨rfl, by simp only; omega⟩
            exact ih fuel' c.endPos r.lastValidityPos st' hcc.2 (by omega) (by omega)

/-! ## Blocks written by `encode` -/

theorem blockData_layout (q : Profile) (content rest : Bytes) (h : content.length < 2 ^ 64) :
    blockData q (varintBytes content.length ++ content ++ rest) = some content := by
  rw [List.append_assoc, blockData, decode_varintBytes q h]
  simp only [List.drop_left]
  rw [if_pos (by simp only [List.length_append]; omega), List.take_left]

theorem slice_length {α : Type} {l r : List α} {a b : Nat} (h : slice l a b = .ok r) : r.length = b - a := by
  rw [slice] at h
  split at h
  · cases h; rw [List.length_take, List.length_drop]; omega
  · cases h

/-- `write_block` on a chunk records at most one block, holding the bytes of the chunk. -/
theorem writeBlock_blocks (p q : Profile) (b : BinaryBuffer) (c : BinaryChunk) (pos : Nat) (e : Encoder)
    (l : List (Nat × Bytes)) (hsize : c.size < 2 ^ 64) (hlen : c.endPos < 2 ^ 63)
    (hoff : c.endOffset - c.startOffset = c.size) :
    ∃ new, (writeBlock p recorder b c pos (e, l)).2.2 = l ++ new ∧
      ∀ x ∈ new, ∃ d, blockData q x.2 = some d ∧ d.length = c.size := by
  simp only [writeBlock, Run.bind_apply, Run.get_apply]
  cases hr : encodeBinaryBuffer p b c pos e.bitmapEncoder with
  | error x => exact ⟨[], by simp [Run.lift], by simp⟩
  | ok r =>
    simp only [Run.lift_ok, Run.set_apply]
    cases addRows e.numRows r.result.numRows with
    | error x => exact ⟨[], by simp [Run.lift], by simp⟩
    | ok n =>
      simp only [Run.lift_ok]
      cases p.sub 32 n 1 with
      | error x => exact ⟨[], by simp [Run.lift], by simp⟩
      | ok id =>
        refine ⟨[(id, r.data)], rfl, ?_⟩
        intro x hx
        rw [List.mem_singleton] at hx
        subst hx
        obtain ⟨content, deltas, v, h1, h2, h3, h4, h5, _⟩ := encodeBinaryBuffer_layout p b c pos _ hsize hlen hr
        have hcl : content.length = c.size := by rw [slice_length h1]; exact hoff
        refine ⟨content, ?_, hcl⟩
        rw [h5, ← hcl, List.append_assoc _ (Offsets.offsetBytes deltas)]
        exact blockData_layout q content _ (by omega)

/-- Every block recorded by the loop holds at least `m` bytes. -/
theorem encodeLoop_blocks (p q : Profile) (m : Nat) (src : BinaryBuffer) (items : List Bytes)
    (hs : Items src items) (hn : items.length < 2 ^ 63) (hd : items.flatten.length < 2 ^ 64)
    (fuel : Nat) : ∀ (bp vp : Nat) (e : Encoder) (l : List (Nat × Bytes)), e.minBlockSize = m →
    ∃ new, (encodeLoop p recorder src fuel bp vp (e, l)).2.2 = l ++ new ∧
      ∀ x ∈ new, ∃ d, blockData q x.2 = some d ∧ m ≤ d.length := by
  induction fuel with
  | zero => intro bp vp e l _; exact ⟨[], by simp [encodeLoop, Run.lift], by simp⟩
  | succ fuel ih =>
    intro bp vp e l hem
    rw [encodeLoop]
    have hol : src.offsets.length = items.length + 1 := by rw [hs.offsets]; simp
    split
    · rename_i hlt
      have hsplit : items = items.take bp ++ items.drop bp := (List.take_append_drop bp items).symm
      have hl : (items.take bp).length = bp := by rw [List.length_take]; omega
      have hc := chunk_eq p src (items.take bp) (items.drop bp) (by rw [← hsplit]; exact hs.offsets) m
      rw [hl] at hc
      simp only [Run.bind_apply, Run.get_apply, hem]
      cases hf : fill m (items.drop bp) with
      | none =>
        rw [hf] at hc
        simp only [List.take_append_drop] at hc
        have hsm := fill_none hf
        rw [hc]
        simp only [Run.lift_ok, if_pos hsm]
        refine ⟨[], ?_, by simp⟩
        rcases ha : e.remaining.appendFrom p src bp items.length vp with x | ⟨rem, q⟩
        · simp [Run.lift, Run.bind_apply, leaving]
        · simp [Run.lift_ok, Run.bind_apply, Run.set_apply]
      | some j =>
        rw [hf] at hc
        simp only at hc
        have hge := (fill_some hf).2.1
        have hj := (fill_some hf).1
        rw [hc]
        rcases hsub : p.sub 64 j bp with x | n
        · exact ⟨[], by simp [Run.lift, Except.bind, bind], by simp⟩
        · simp only [ok_bind, pure_eq_ok, Run.lift_ok]
          rw [if_neg (by omega)]
          have hsz : ((items.drop bp).take j).flatten.length ≤ items.flatten.length := by
            conv => rhs; rw [hsplit, ← List.take_append_drop j (items.drop bp)]
            simp only [List.flatten_append, List.length_append]; omega
          rw [List.length_drop] at hj
          obtain ⟨new1, hw1, hw2⟩ := writeBlock_blocks p q src ⟨bp, j, (items.take bp).flatten.length,
            (items.take bp).flatten.length + ((items.drop bp).take j).flatten.length,
            ((items.drop bp).take j).flatten.length, n⟩ vp e l (by simp only; omega) (by simp only; omega)
            (by simp only; omega)
          have hfr := writeBlock_frame p recorder src ⟨bp, j, (items.take bp).flatten.length,
            (items.take bp).flatten.length + ((items.drop bp).take j).flatten.length,
            ((items.drop bp).take j).flatten.length, n⟩ vp e l
          rw [Run.bind_apply]
          rcases hw : writeBlock p recorder src ⟨bp, j, (items.take bp).flatten.length,
            (items.take bp).flatten.length + ((items.drop bp).take j).flatten.length,
            ((items.drop bp).take j).flatten.length, n⟩ vp (e, l) with ⟨r, e1, s1⟩
          rw [hw] at hw1 hfr
          simp only at hw1 hw2 hfr
          have hnew1 : ∀ x ∈ new1, ∃ d, blockData q x.2 = some d ∧ m ≤ d.length := by
            intro x hx
            obtain ⟨d, h1, h2⟩ := hw2 x hx
            exact ⟨d, h1, by omega⟩
          cases r with
          | error x => exact ⟨new1, hw1, hnew1⟩
          | ok r =>
            obtain ⟨new2, h1, h2⟩ := ih j r.lastValidityPos e1 s1 (by rw [hfr.2, hem])
            refine ⟨new1 ++ new2, by simp only; rw [h1, hw1, List.append_assoc], ?_⟩
            intro x hx
            rcases List.mem_append.mp hx with hx | hx
            · exact hnew1 x hx
            · exact h2 x hx
    · exact ⟨[], by simp [Run.pure_apply], by simp⟩

theorem writeRemaining_blocks (p q : Profile) (e : Encoder) (l : List (Nat × Bytes)) (held : List Bytes)
    (hrem : Items e.remaining held) (hn : held.length < 2 ^ 63) (hd : held.flatten.length < 2 ^ 64) :
    ∃ new, (writeRemaining p recorder (e, l)).2.2 = l ++ new ∧
      ∀ x ∈ new, ∃ d, blockData q x.2 = some d ∧ d.length = held.flatten.length := by
  have hw : wholeChunk e.remaining = .ok ⟨0, held.length, 0, held.flatten.length, held.flatten.length, held.length⟩ := by
    simp only [wholeChunk, hrem.offsets, offsetsOf_getLast, offsetsOf_length, hrem.len, Nat.add_sub_cancel,
      Nat.zero_add]
  rw [writeRemaining, Run.bind_ok (Run.get_apply _)]
  simp only [Run.bind_apply, hw, Run.lift_ok]
  exact writeBlock_blocks p q _ _ 0 e l (by simp only; omega) (by simp only; omega) (by simp only; omega)

/-- Every block recorded by `encode` holds at least `m` bytes. -/
theorem encode_blocks (p q : Profile) (m : Nat) (src : BinaryBuffer) (items held : List Bytes)
    (hs : Items src items) (hn : held.length + items.length < 2 ^ 63) (hd : items.flatten.length < 2 ^ 64)
    (e : Encoder) (l : List (Nat × Bytes)) (hem : e.minBlockSize = m) (hrem : Items e.remaining held) :
    ∃ new, (encode p recorder src (e, l)).2.2 = l ++ new ∧
      ∀ x ∈ new, ∃ d, blockData q x.2 = some d ∧ m ≤ d.length := by
  simp only [encode, Run.bind_apply, Run.get_apply, hrem.len]
  split
  · rename_i hpos
    simp only [Run.bind_apply, hem]
    rcases hsub : p.sub 64 m e.remaining.data.length with x | room
    · exact ⟨[], by simp [Run.lift], by simp⟩
    · simp only [Run.lift_ok]
      have hc := chunk_eq p src [] items hs.offsets room
      simp only [List.length_nil, List.flatten_nil, List.nil_append, Nat.zero_add] at hc
      rcases hch : chunk p src 0 room with x | c
      · exact ⟨[], by simp [Run.lift], by simp⟩
      · have hc' : c.startPos = 0 ∧ c.endPos ≤ items.length := by
          rw [hch] at hc
          cases hf : fill room items with
          | none => rw [hf] at hc; cases hc; exact ⟨rfl, Nat.le_refl _⟩
          | some j =>
            rw [hf] at hc
            simp only [Profile.sub_ok p (Nat.zero_le j), ok_bind, pure_eq_ok, Except.ok.injEq] at hc
            subst hc
            exact ⟨rfl, (fill_some hf).1⟩
        simp only [Run.lift_ok, hc'.1]
        rcases ha : e.remaining.appendFrom p src 0 c.endPos 0 with x | ⟨rem, pos⟩
        · exact ⟨[], by simp [Run.lift, leaving], by simp⟩
        · obtain ⟨hrem', hU⟩ := Items.appendFrom p (a := []) (mid := items.take c.endPos) (c := items.drop c.endPos)
              hrem (by rw [List.nil_append, List.take_append_drop]; exact hs)
              (by rw [List.nil_append, List.length_take, Nat.min_eq_left hc'.2]; exact ha)
          simp only [Run.lift_ok, Run.set_apply]
          split
          · exact ⟨[], by simp [Run.pure_apply], by simp⟩
          · rename_i hge
            have hdl : rem.data.length = (held ++ items.take c.endPos).flatten.length := by rw [hrem'.data]
            have hU2 : U32_MAX = 2 ^ 32 - 1 := rfl
            simp only [Run.bind_apply]
            have hfr := writeRemaining_frame p recorder ⟨rem, e.encodedData, e.offsetDeltas, e.bitmapEncoder, m, e.numRows⟩ l
            obtain ⟨new1, g1, g2⟩ := writeRemaining_blocks p q
              ⟨rem, e.encodedData, e.offsetDeltas, e.bitmapEncoder, m, e.numRows⟩ l _ hrem'
              (by rw [List.length_append, List.length_take]; omega) (by rw [← hdl]; omega)
            rcases hw : writeRemaining p recorder (⟨rem, e.encodedData, e.offsetDeltas, e.bitmapEncoder, m, e.numRows⟩, l)
              with ⟨r, e1, s1⟩
            rw [hw] at hfr g1
            have hnew1 : ∀ x ∈ new1, ∃ d, blockData q x.2 = some d ∧ m ≤ d.length := by
              intro x hx
              obtain ⟨d, h1, h2⟩ := g2 x hx
              exact ⟨d, h1, by omega⟩
            cases r with
            | error x => exact ⟨new1, g1, hnew1⟩
            | ok r =>
              simp only [Run.get_apply, Run.set_apply] at hfr g1 ⊢
              obtain ⟨new2, h1, h2⟩ := encodeLoop_blocks p q m src items hs (by omega) hd
                (src.offsets.length + 1) c.endPos pos
                ⟨e1.remaining.clear, e1.encodedData, e1.offsetDeltas, e1.bitmapEncoder, e1.minBlockSize, e1.numRows⟩
                s1 hfr.2
              refine ⟨new1 ++ new2, by rw [h1, g1, List.append_assoc], ?_⟩
              intro x hx
              rcases List.mem_append.mp hx with hx | hx
              · exact hnew1 x hx
              · exact h2 x hx
  · exact encodeLoop_blocks p q m src items hs (by omega) hd _ _ _ _ _ hem

/-- The held back items come from the previous ones and the buffer, unless the call fails. -/
theorem encodeLoop_items (p : Profile) (k : Sink S) (src : BinaryBuffer) (items : List Bytes)
    (hs : Items src items) (fuel : Nat) : ∀ (bp vp : Nat) (st : Encoder × S) (held : List Bytes),
    Items st.1.remaining held → (encodeLoop p k src fuel bp vp st).1 = .ok () →
      ∃ held', Items (encodeLoop p k src fuel bp vp st).2.1.remaining held' ∧
      (held'.length ≤ held.length + items.length) := by
  induction fuel with
  | zero => intro bp vp st held hrem; exact fun _ => ⟨held, hrem, by omega⟩
  | succ fuel ih =>
    intro bp vp st held hrem
    rw [encodeLoop]
    have hol : src.offsets.length = items.length + 1 := by rw [hs.offsets]; simp
    split
    · rename_i hlt
      have hsplit : items = items.take bp ++ items.drop bp := (List.take_append_drop bp items).symm
      have hl : (items.take bp).length = bp := by rw [List.length_take]; omega
      have hc := chunk_eq p src (items.take bp) (items.drop bp) (by rw [← hsplit]; exact hs.offsets)
        st.1.minBlockSize
      rw [hl] at hc
      rw [Run.bind_ok (Run.get_apply st), Run.bind_apply]
      cases hch : chunk p src bp st.1.minBlockSize with
      | error x => exact fun _ => ⟨held, hrem, by omega⟩
      | ok c =>
        simp only [Run.lift_ok]
        split
        · rename_i hsz
          cases hf : fill st.1.minBlockSize (items.drop bp) with
          | none =>
            rw [hf, hch] at hc
            simp only [List.take_append_drop, Except.ok.injEq] at hc
            subst hc
            simp only [Run.bind_apply]
            rcases ha : st.1.remaining.appendFrom p src bp items.length vp with x | ⟨rem, pos⟩
            · exact fun h => nomatch h
            · have := Items.appendFrom p (a := items.take bp) (mid := items.drop bp) (c := []) hrem
                (by rw [List.append_nil, ← hsplit]; exact hs) (by rw [← hsplit, hl]; exact ha)
              exact fun _ => ⟨held ++ items.drop bp, this.1, by rw [List.length_append, List.length_drop]; omega⟩
          | some j =>
            exfalso
            rw [hf, hch] at hc
            simp only at hc
            rcases hsub : p.sub 64 j bp with x | n
            · rw [hsub] at hc; cases hc
            · rw [hsub] at hc
              simp only [ok_bind, pure_eq_ok, Except.ok.injEq] at hc
              subst hc
              have := (fill_some hf).2.1
              simp only at hsz
              omega
        · rw [Run.bind_apply]
          have hfr := writeBlock_frame p k src c vp st.1 st.2
          rcases hw : writeBlock p k src c vp st with ⟨r, st'⟩
          rw [show (st.1, st.2) = st from rfl, hw] at hfr
          cases r with
          | error x => exact fun h => nomatch h
          | ok r => exact ih c.endPos r.lastValidityPos st' held (by rw [hfr.1]; exact hrem)
    · exact fun _ => ⟨held, hrem, by omega⟩

theorem encode_items (p : Profile) (k : Sink S) (src : BinaryBuffer) (items held : List Bytes)
    (hs : Items src items) (st : Encoder × S) (hrem : Items st.1.remaining held) :
    (encode p k src st).1 = .ok () →
    ∃ held', Items (encode p k src st).2.1.remaining held' ∧ held'.length ≤ held.length + items.length := by
  rw [encode, Run.bind_ok (Run.get_apply st)]
  split
  · rw [Run.bind_apply]
    rcases hsub : p.sub 64 st.1.minBlockSize st.1.remaining.data.length with x | room
    · exact fun _ => ⟨held, hrem, by omega⟩
    · have hc := chunk_eq p src [] items hs.offsets room
      simp only [List.length_nil, List.flatten_nil, List.nil_append, Nat.zero_add] at hc
      simp only [Run.lift_ok, Run.bind_apply]
      rcases hch : chunk p src 0 room with x | c
      · exact fun _ => ⟨held, hrem, by omega⟩
      · have hc' : c.startPos = 0 ∧ c.endPos ≤ items.length := by
          rw [hch] at hc
          cases hf : fill room items with
          | none => rw [hf] at hc; cases hc; exact ⟨rfl, Nat.le_refl _⟩
          | some j =>
            rw [hf] at hc
            simp only [Profile.sub_ok p (Nat.zero_le j), ok_bind, pure_eq_ok, Except.ok.injEq] at hc
            subst hc
            exact ⟨rfl, (fill_some hf).1⟩
        simp only [Run.lift_ok, hc'.1]
        rcases ha : st.1.remaining.appendFrom p src 0 c.endPos 0 with x | ⟨rem, pos⟩
        · exact fun h => nomatch h
        · obtain ⟨hrem', _⟩ := Items.appendFrom p (a := []) (mid := items.take c.endPos) (c := items.drop c.endPos)
              hrem (by rw [List.nil_append, List.take_append_drop]; exact hs)
              (by rw [List.nil_append, List.length_take, Nat.min_eq_left hc'.2]; exact ha)
          have hlen : (held ++ items.take c.endPos).length ≤ held.length + items.length := by
            rw [List.length_append, List.length_take]; omega
          simp only [Run.lift_ok, Run.set_apply]
          split
          · exact fun _ => ⟨_, hrem', hlen⟩
          · simp only [Run.bind_apply]
            have hfr := writeRemaining_frame p k ⟨rem, st.1.encodedData, st.1.offsetDeltas, st.1.bitmapEncoder,
              st.1.minBlockSize, st.1.numRows⟩ st.2
            rcases hw : writeRemaining p k (⟨rem, st.1.encodedData, st.1.offsetDeltas, st.1.bitmapEncoder,
              st.1.minBlockSize, st.1.numRows⟩, st.2) with ⟨r, e1, s1⟩
            rw [hw] at hfr
            cases r with
            | error x => exact fun h => nomatch h
            | ok r =>
              simp only [Run.get_apply, Run.set_apply] at hfr ⊢
              intro h
              obtain ⟨held', g1, g2⟩ := encodeLoop_items p k src items hs (src.offsets.length + 1) c.endPos pos
                (⟨e1.remaining.clear, e1.encodedData, e1.offsetDeltas, e1.bitmapEncoder, e1.minBlockSize, e1.numRows⟩,
                  s1) [] (by simp only [hfr.1]; exact hrem'.clear) h
              exact ⟨held', g1, by simp at g2; omega⟩
  · exact encodeLoop_items p k src items hs _ _ _ st held hrem

/-- Every block recorded by `encode` calls holds at least `m` bytes, however the last call ends. -/
theorem encodeAll_blocks (p q : Profile) (m : Nat) (hm : 0 < m) (bufs : List (List Bytes)) (srcs : List BinaryBuffer)
    (hsrc : srcs.length = bufs.length ∧ ∀ x ∈ srcs.zip bufs, Items x.1 x.2)
    (hd : ∀ b ∈ bufs, b.flatten.length < 2 ^ 64) :
    ∀ (held : List Bytes) (e : Encoder) (l : List (Nat × Bytes)), e.minBlockSize = m → Items e.remaining held →
    held.length + bufs.flatten.length < 2 ^ 63 →
    ∃ new, (encodeAll p recorder srcs (e, l)).2.2 = l ++ new ∧
      ∀ x ∈ new, ∃ d, blockData q x.2 = some d ∧ m ≤ d.length := by
  induction srcs generalizing bufs with
  | nil => intro held e l _ _ _; exact ⟨[], by simp [encodeAll, Run.pure_apply], by simp⟩
  | cons src srcs ih =>
    intro held e l hem hrem hn
    cases bufs with
    | nil => simp at hsrc
    | cons items bufs =>
      have hs : Items src items := hsrc.2 (src, items) (by simp)
      rw [List.flatten_cons, List.length_append] at hn
      obtain ⟨new1, g1, g2⟩ := encode_blocks p q m src items held hs (by omega) (hd items (by simp)) e l hem hrem
      have hi := encode_items p recorder src items held hs (e, l) hrem
      rw [encodeAll, Run.bind_apply]
      rcases hw : encode p recorder src (e, l) with ⟨r, e1, s1⟩
      rw [hw] at g1 hi
      cases r with
      | error x => exact ⟨new1, g1, g2⟩
      | ok r =>
        obtain ⟨held', g3, g4⟩ := hi rfl
        obtain ⟨hm1, _⟩ := encode_small p recorder m hm src items held hs e l e1 s1 hem hrem hw
        obtain ⟨new2, h1, h2⟩ := ih bufs ⟨by simpa using hsrc.1, fun x hx => hsrc.2 x (by simp [hx])⟩
          (fun b hb => hd b (by simp [hb])) held' e1 s1 hm1 g3 (by omega)
        refine ⟨new1 ++ new2, by simp only at g1 ⊢; rw [h1, g1, List.append_assoc], ?_⟩
        intro x hx
        rcases List.mem_append.mp hx with hx | hx
        · exact g2 x hx
        · exact h2 x hx

/-- Rows brought together in the leftover buffer have fewer bytes than a buffer filled from another may have. -/
theorem gathered_fits (p : Profile) {nullable : Bool} {st : List Bool} {dst d : BinaryBuffer} {held b : List (Option Bytes)}
    {j q : Nat} (hrem : Holds nullable st dst held)
    (ha : dst.appendFrom p (ofRows nullable b) 0 (valuesOf (takeVals j b)).length 0 = .ok (d, q)) :
    byteCount (held ++ takeVals j b) < U32_MAX := by
  have hi := hrem.items.appendFrom p (a := []) (mid := (valuesOf b).take j) (c := (valuesOf b).drop j)
    (src := ofRows nullable b) (pos := 0) (dst' := d) (pos' := q)
    (by rw [List.nil_append, List.take_append_drop]; exact (holds_ofRows _ _).items)
    (by rw [← ha, ← takeVals_values]; rfl)
  have h2 := hi.2
  rw [hi.1.data, ← takeVals_values, ← valuesOf_append] at h2
  exact h2

/-- So in a call that returns, the group completed from the rows held back has. -/
theorem encode_gathered (p : Profile) (k : Sink S) {nullable : Bool} {st : List Bool} {m j : Nat} {held b : List (Option Bytes)}
    {e : Encoder} {s : S} {s' : Encoder × S} (hem : e.minBlockSize = m) (hrem : Holds nullable st e.remaining held)
    (hhe : EndsWithValue held) (hnil : held ≠ []) (hlt : byteCount held < m)
    (hf : fill (m - byteCount held) (valuesOf b) = some j)
    (h : encode p k (ofRows nullable b) (e, s) = (.ok (), s')) : byteCount (held ++ takeVals j b) < U32_MAX := by
  have hl0 : e.remaining.len > 0 := by
    rw [hrem.len]
    rcases Nat.eq_zero_or_pos (valuesOf held).length with h | h
    · exact absurd ((ends_nil_iff hhe).mp h) hnil
    · exact h
  have hdata : e.remaining.data.length = byteCount held := by rw [hrem.data, byteCount]
  rw [encode, Run.bind_ok (Run.get_apply _)] at h
  simp only [if_pos hl0, hem, hdata] at h
  rw [Profile.sub_ok p (by omega), Run.bind_ok (Run.lift_ok _ _), chunk_first p nullable b _ j hf,
    Run.bind_ok (Run.lift_ok _ _)] at h
  have hcp : (chunkOf [] (takeVals j b)).endPos = (valuesOf (takeVals j b)).length := rfl
  have hsp : (chunkOf [] (takeVals j b)).startPos = 0 := rfl
  simp only [hcp, hsp] at h
  cases ha : e.remaining.appendFrom p (ofRows nullable b) 0 (valuesOf (takeVals j b)).length 0 with
  | error x => rw [ha, Run.bind_apply] at h; cases (Prod.mk.inj h).1
  | ok d => exact gathered_fits p hrem ha

end Meerkat.BinaryEnc
