import Verif.Proofs.BinaryInv
import Verif.Proofs.EncoderHistory

set_option autoImplicit false

/-! # Blocks of non-nullable binary columns that no count of items makes readable -/

namespace Meerkat.BinaryEnc
open Spec Varint BinaryBuffer

/-! ## Sums of what is read -/

theorem sum_range_map_zero (n : Nat) (u : Nat → Nat) (h : ∀ i, u i = 0) : ((List.range n).map u).sum = 0 := by
  induction n with
  | zero => rfl
  | succ n ih => rw [List.range_succ, List.map_append, List.sum_append, ih]; simp [h]

theorem sum_range_succ_map (n : Nat) (u : Nat → Nat) :
    ((List.range (n + 1)).map u).sum = u 0 + ((List.range n).map (fun i => u (i + 1))).sum := by
  rw [List.range_succ_eq_map, List.map_cons, List.sum_cons, List.map_map]
  rfl

theorem sum_range_le (ds : List Nat) : ∀ (n : Nat) (u : Nat → Nat), (∀ i, u i ≤ ds.getD i 0) →
    ((List.range n).map u).sum ≤ ds.sum := by
  induction ds with
  | nil =>
    intro n u h
    rw [sum_range_map_zero n u (fun i => by have := h i; simpa using this)]
    exact Nat.zero_le _
  | cons d ds ih =>
    intro n u h
    cases n with
    | zero => exact Nat.zero_le _
    | succ n =>
      rw [sum_range_succ_map, List.sum_cons]
      have h0 := h 0
      have := ih n (fun i => u (i + 1)) (fun i => by have := h (i + 1); simpa using this)
      simp only [List.getD_cons_zero] at h0
      omega

/-- Values no larger than those of a list have its sum only when they are those of the list. -/
theorem sum_range_eq (ds : List Nat) : ∀ (n : Nat) (u : Nat → Nat), (∀ i, u i ≤ ds.getD i 0) →
    ds.sum ≤ ((List.range n).map u).sum → ∀ i, (if i < n then u i else 0) = ds.getD i 0 := by
  induction ds with
  | nil =>
    intro n u h _ i
    have := h i
    simp only [List.getD_nil, Nat.le_zero_eq] at this ⊢
    split <;> simp [this]
  | cons d ds ih =>
    intro n u h hs i
    cases n with
    | zero =>
      have hz : ∀ (l : List Nat) (j : Nat), l.sum ≤ 0 → l.getD j 0 = 0 := by
        intro l
        induction l with
        | nil => intro j _; simp
        | cons a l ih =>
          intro j hj
          rw [List.sum_cons] at hj
          cases j with
          | zero => rw [List.getD_cons_zero]; omega
          | succ j => rw [List.getD_cons_succ]; exact ih j (by omega)
      rw [if_neg (by omega)]
      exact (hz _ i (by simpa using hs)).symm
    | succ n =>
      rw [sum_range_succ_map, List.sum_cons] at hs
      have h0 := h 0
      simp only [List.getD_cons_zero] at h0
      have htl : ∀ i, u (i + 1) ≤ ds.getD i 0 := fun i => by have := h (i + 1); simpa using this
      have hle := sum_range_le ds n (fun i => u (i + 1)) htl
      cases i with
      | zero => rw [if_pos (by omega), List.getD_cons_zero]; omega
      | succ i =>
        have := ih n (fun i => u (i + 1)) htl (by omega) i
        rw [List.getD_cons_succ, ← this]
        by_cases hi : i < n
        · rw [if_pos hi, if_pos (by omega)]
        · rw [if_neg hi, if_neg (by omega)]

theorem le_sum_of_mem {ds : List Nat} {x : Nat} (h : x ∈ ds) : x ≤ ds.sum := by
  induction ds with
  | nil => simp at h
  | cons d ds ih =>
    rw [List.sum_cons]
    rcases List.mem_cons.mp h with rfl | h
    · omega
    · have := ih h; omega

theorem cut_sum {ls : List Nat} {bs : Bytes} {items : List Bytes} (h : cut ls bs = some items) :
    ls.sum = bs.length := by
  induction ls generalizing bs items with
  | nil =>
    rw [cut] at h
    split at h
    · rename_i hb; subst hb; rfl
    · cases h
  | cons l ls ih =>
    rw [cut] at h
    split at h
    · rename_i hle
      cases hc : cut ls (bs.drop l) with
      | none => rw [hc] at h; cases h
      | some r =>
        have := ih hc
        rw [List.length_drop] at this
        rw [List.sum_cons]; omega
    · cases h

theorem natOfBits_le {f g : Nat → Bool} {b : Nat} (h : ∀ c, c < b → f c = true → g c = true) :
    natOfBits f b ≤ natOfBits g b := by
  induction b with
  | zero => exact Nat.le_refl _
  | succ b ih =>
    have := ih (fun c hc => h c (by omega))
    have hp : 0 < 2 ^ b := Nat.two_pow_pos b
    rw [natOfBits, natOfBits]
    cases hf : f b with
    | false => simp only [Bool.false_eq_true, if_false]; split <;> omega
    | true => rw [h b (by omega) hf]; simp only [if_true]; omega

theorem natOfBits_lt {f g : Nat → Bool} {b c : Nat} (h : ∀ c, c < b → f c = true → g c = true) (hc : c < b)
    (hf : f c = false) (hg : g c = true) : natOfBits f b < natOfBits g b := by
  induction b with
  | zero => omega
  | succ b ih =>
    rw [natOfBits, natOfBits]
    have hp : 0 < 2 ^ b := Nat.two_pow_pos b
    by_cases hcb : c = b
    · subst hcb
      have := natOfBits_le (fun d (hd : d < c) => h d (by omega))
      rw [hf, hg]
      simp only [Bool.false_eq_true, if_false, if_true]
      omega
    · have := ih (fun d hd => h d (by omega)) (by omega)
      cases hf' : f b with
      | false => simp only [Bool.false_eq_true, if_false]; split <;> omega
      | true => rw [h b (by omega) hf']; simp only [if_true]; omega

/-! ## Reading lengths from the bytes the offset encoder keeps -/

/-- The bytes kept of the packed lengths. -/
def kept (xs : List Nat) : Bytes :=
  (Offsets.pack (Offsets.width xs) (xs ++ List.replicate (128 - xs.length) 0)).take
    ((xs.length * Offsets.width xs + 7) / 8)

theorem kept_length (xs : List Nat) (h128 : xs.length ≤ 128) :
    (kept xs).length = (xs.length * Offsets.width xs + 7) / 8 := by
  rw [kept, List.length_take, Offsets.pack_length, Nat.min_eq_left]
  have h : xs.length * Offsets.width xs ≤ 128 * Offsets.width xs := Nat.mul_le_mul_right _ h128
  omega

theorem offsetBytes_kept (xs : List Nat) : Offsets.offsetBytes xs = UInt8.ofNat (Offsets.width xs) :: kept xs := by
  rw [Offsets.offsetBytes, kept, Util.ceil8_eq, Nat.mul_comm]

/-- A set bit found at the position of bit `c` of length `i` is that bit. -/
theorem kept_bit (xs : List Nat) (h128 : xs.length ≤ 128) (pl i c : Nat) (hc : c < Offsets.width xs)
    (h : (((kept xs).take pl).getD (bytePos (Offsets.width xs) i c) 0).toNat.testBit
      (((i / 4) * Offsets.width xs + c) % 8) = true) :
    (xs.getD i 0).testBit c = true ∧
      bytePos (Offsets.width xs) i c < (xs.length * Offsets.width xs + 7) / 8 := by
  have hlt : bytePos (Offsets.width xs) i c < ((kept xs).take pl).length := by
    apply Classical.byContradiction
    intro hn
    rw [List.getD_eq_getElem?_getD, List.getElem?_eq_none (by omega)] at h
    simp at h
  have hlt2 : bytePos (Offsets.width xs) i c < (xs.length * Offsets.width xs + 7) / 8 := by
    rw [List.length_take, kept_length xs h128] at hlt
    omega
  refine ⟨?_, hlt2⟩
  have h16 : bytePos (Offsets.width xs) i c < 16 * Offsets.width xs := by
    have hm : xs.length * Offsets.width xs ≤ 128 * Offsets.width xs := Nat.mul_le_mul_right _ h128
    omega
  have hpl : bytePos (Offsets.width xs) i c < pl := by
    rw [List.length_take] at hlt; omega
  rw [List.getD_eq_getElem?_getD, List.getElem?_take_of_lt hpl, kept, List.getElem?_take_of_lt hlt2] at h
  simp only [Offsets.pack, List.getElem?_map, List.getElem?_range h16, Option.map_some, Option.getD_some] at h
  rw [Offsets.byteOf_testBit _ (Nat.mod_lt _ (by omega)), Offsets.packBit_bytePos _ _ _ _ hc] at h
  by_cases hi : i < xs.length
  · rw [List.getD_eq_getElem?_getD, List.getElem?_append_left hi] at h
    rw [List.getD_eq_getElem?_getD]; exact h
  · rw [List.getD_eq_getElem?_getD, List.getElem?_append_right (by omega)] at h
    rw [List.getElem?_replicate] at h
    split at h <;> simp at h

/-- What is read as length `i` from part of the kept bytes. -/
def readLen (xs : List Nat) (pl i : Nat) : Nat :=
  natOfBits (fun c => (((kept xs).take pl).getD (bytePos (Offsets.width xs) i c) 0).toNat.testBit
    (((i / 4) * Offsets.width xs + c) % 8)) (Offsets.width xs)

theorem unpack_kept (xs : List Nat) (n pl : Nat) :
    unpack (Offsets.width xs) n ((kept xs).take pl) = (List.range n).map (readLen xs pl) := rfl

theorem readLen_le (xs : List Nat) (h128 : xs.length ≤ 128) (pl i : Nat) : readLen xs pl i ≤ xs.getD i 0 := by
  have h := natOfBits_le (b := Offsets.width xs)
    (fun c hc (h : (((kept xs).take pl).getD (bytePos (Offsets.width xs) i c) 0).toNat.testBit
      (((i / 4) * Offsets.width xs + c) % 8) = true) => (kept_bit xs h128 pl i c hc h).1)
  rw [natOfBits_testBit] at h
  exact Nat.le_trans h (Nat.mod_le ..)

/-- A length with a set bit in the dropped bytes is read too small. -/
theorem readLen_lost (xs : List Nat) (h128 : xs.length ≤ 128) (pl i c : Nat)
    (hbit : (xs.getD i 0).testBit c = true) (hi : i < xs.length)
    (hlost : (xs.length * Offsets.width xs + 7) / 8 ≤ bytePos (Offsets.width xs) i c) :
    readLen xs pl i < xs.getD i 0 := by
  have hx : xs.getD i 0 < 2 ^ Offsets.width xs := by
    rw [List.getD_eq_getElem?_getD, List.getElem?_eq_getElem hi]
    exact ((Offsets.width_eq_iff xs _).mp rfl).1 _ (List.getElem_mem ..)
  have hcb : c < Offsets.width xs := by
    apply Classical.byContradiction
    intro hn
    rw [Nat.testBit_lt_two_pow (Nat.lt_of_lt_of_le hx (Nat.pow_le_pow_right (by decide) (by omega)))] at hbit
    cases hbit
  have hbf : (((kept xs).take pl).getD (bytePos (Offsets.width xs) i c) 0).toNat.testBit
      (((i / 4) * Offsets.width xs + c) % 8) = false := by
    cases hb : (((kept xs).take pl).getD (bytePos (Offsets.width xs) i c) 0).toNat.testBit
      (((i / 4) * Offsets.width xs + c) % 8) with
    | false => rfl
    | true => have := (kept_bit xs h128 pl i c hcb hb).2; omega
  have h := natOfBits_lt (b := Offsets.width xs) (c := c)
    (fun c hc (h : (((kept xs).take pl).getD (bytePos (Offsets.width xs) i c) 0).toNat.testBit
      (((i / 4) * Offsets.width xs + c) % 8) = true) => (kept_bit xs h128 pl i c hc h).1) hcb hbf hbit
  rw [natOfBits_testBit, Nat.mod_eq_of_lt hx] at h
  exact h

/-! ## Unreadable blocks -/

/-- No number of items makes the block of a non-nullable column readable. -/
def Unreadable (q : Profile) (block : Bytes) : Prop := ∀ n, readBinary q false n block = none

theorem unreadable_of (q : Profile) (content : Bytes) (lens : List Nat) (hsize : content.length < 2 ^ 32)
    (h128 : lens.length ≤ 128) (hle : lens.sum ≤ content.length)
    (hbad : lens.sum < content.length ∨ ¬ ReadableLengths lens) :
    Unreadable q (varintBytes content.length ++ content ++ Offsets.offsetBytes lens) := by
  intro n
  have hw : Offsets.width lens ≤ 32 := by
    apply Offsets.width_le_32
    intro x hx
    have : x ≤ lens.sum := le_sum_of_mem hx
    omega
  have htn : (UInt8.ofNat (Offsets.width lens)).toNat = Offsets.width lens := by
    rw [UInt8.toNat_ofNat']; omega
  have hsplit : splitBlock q n (varintBytes content.length ++ content ++ Offsets.offsetBytes lens) =
      some (content, Offsets.width lens, (kept lens).take ((n * Offsets.width lens + 7) / 8),
        (kept lens).drop ((n * Offsets.width lens + 7) / 8)) := by
    rw [splitBlock, List.append_assoc, decode_varintBytes q (by omega)]
    simp only [List.drop_left, List.take_left]
    rw [← List.drop_drop, List.drop_left, List.drop_left, offsetBytes_kept]
    simp only [htn]
  rw [readBinary, hsplit]
  simp only [unpack_kept]
  cases hc : cut ((List.range n).map (readLen lens ((n * Offsets.width lens + 7) / 8))) content with
  | none => rfl
  | some items =>
    exfalso
    have hs := cut_sum hc
    have hsl := sum_range_le lens n _ (readLen_le lens h128 ((n * Offsets.width lens + 7) / 8))
    rcases hbad with hbad | hbad
    · omega
    · apply hbad
      refine ⟨Offsets.width lens, (Offsets.width_eq_iff lens _).mp rfl, fun i c hi hbit => ?_⟩
      apply Classical.byContradiction
      intro hn
      have hlost := readLen_lost lens h128 ((n * Offsets.width lens + 7) / 8) i c hbit hi (by omega)
      have heq := sum_range_eq lens n _ (readLen_le lens h128 ((n * Offsets.width lens + 7) / 8)) (by omega) i
      split at heq <;> omega

/-- A block of rows whose lengths lose a bit. -/
theorem unreadable_blockBytes (q : Profile) (rows : List (Option Bytes)) (hsize : byteCount rows < 2 ^ 32)
    (h128 : (valuesOf rows).length ≤ 128) (hr : ¬ ReadableLengths ((valuesOf rows).map List.length)) :
    Unreadable q (blockBytes false rows) := by
  have h := unreadable_of q (valuesOf rows).flatten ((valuesOf rows).map List.length) hsize (by simpa using h128)
    (by rw [List.length_flatten]; exact Nat.le_refl _) (.inr hr)
  simpa [blockBytes, byteCount] using h

/-! ## Runs that write an unreadable block -/

/-- `write_block` never returns normally for more than 128 items. -/
theorem writeBlock_over {S : Type} (p : Profile) (k : Sink S) (b : BinaryBuffer) (c : BinaryChunk) (pos : Nat)
    (e : Encoder) (s : S) (hsize : c.size < 2 ^ 64) (hlen : c.endPos < 2 ^ 63) (hover : 128 < c.endPos - c.startPos)
    (r : EncodeResult) (st : Encoder × S) : writeBlock p k b c pos (e, s) ≠ (.ok r, st) := by
  intro h
  simp only [writeBlock, Run.bind_apply, Run.get_apply] at h
  cases hr : encodeBinaryBuffer p b c pos e.bitmapEncoder with
  | error x => rw [hr] at h; cases (Prod.mk.inj h).1
  | ok r =>
    obtain ⟨content, deltas, v, _, h2, _, h4, _⟩ := encodeBinaryBuffer_layout p b c pos _ hsize hlen hr
    have := itemLens_length p b _ _ _ h2
    omega

/-- What `write_block` records when it returns normally. -/
theorem writeBlock_written (p : Profile) (b : BinaryBuffer) (c : BinaryChunk) (pos : Nat) (e e' : Encoder)
    (l l' : List (Nat × Bytes)) (r : EncodeResult)
    (h : writeBlock p recorder b c pos (e, l) = (.ok r, (e', l'))) :
    ∃ r' id, encodeBinaryBuffer p b c pos e.bitmapEncoder = .ok r' ∧ l' = l ++ [(id, r'.data)] := by
  simp only [writeBlock, Run.bind_apply, Run.get_apply] at h
  cases hr : encodeBinaryBuffer p b c pos e.bitmapEncoder with
  | error x => rw [hr] at h; cases (Prod.mk.inj h).1
  | ok r1 =>
    rw [hr] at h
    simp only [Run.lift_ok, Run.set_apply] at h
    cases ha : addRows e.numRows r1.result.numRows with
    | error x => rw [ha] at h; cases (Prod.mk.inj h).1
    | ok n =>
      rw [ha] at h
      simp only [Run.lift_ok] at h
      cases hs : p.sub 32 n 1 with
      | error x => rw [hs] at h; cases (Prod.mk.inj h).1
      | ok id =>
        rw [hs] at h
        simp only [Run.lift_ok, Run.emit_recorder, Run.pure_apply, Prod.mk.injEq] at h
        exact ⟨r1, id, rfl, h.2.2.symm⟩

/-- A call that returns normally has left an unreadable block with the recorder. -/
def Spoils (q : Profile) (r : Except Fault Unit × (Encoder × List (Nat × Bytes))) : Prop :=
  ∀ e l, r = (.ok (), (e, l)) → ∃ x ∈ l, Unreadable q x.2

/-- Blocks already recorded stay. -/
theorem grows {m : Run (Encoder × List (Nat × Bytes)) Unit} (h : Follows recorder m m) {e e' : Encoder}
    {l l' : List (Nat × Bytes)} {r : Except Fault Unit} (hr : m (e, l) = (r, (e', l'))) :
    ∃ bs, l' = l ++ bs := by
  obtain ⟨bs, r1, e1, h1, _⟩ := h e
  rw [h1 l] at hr
  simp only [Prod.mk.injEq] at hr
  exact ⟨bs, hr.2.2.symm⟩

theorem spoils_bind {q : Profile} {m : Run (Encoder × List (Nat × Bytes)) Unit}
    {f : Unit → Run (Encoder × List (Nat × Bytes)) Unit} {st : Encoder × List (Nat × Bytes)}
    (hf : Follows recorder (f ()) (f ())) (h : Spoils q (m st)) : Spoils q ((m >>= f) st) := by
  intro e l hr
  rw [Run.bind_apply] at hr
  rcases hm : m st with ⟨r, e1, l1⟩
  rw [hm] at hr
  cases r with
  | error x => cases (Prod.mk.inj hr).1
  | ok u =>
    obtain ⟨x, hx, hu⟩ := h e1 l1 hm
    obtain ⟨bs, rfl⟩ := grows hf hr
    exact ⟨x, List.mem_append_left _ hx, hu⟩

/-- A full chunk that does not start at the beginning of its buffer. -/
theorem encodeLoop_spoils (p q : Profile) (m fuel : Nat) (b : BinaryBuffer) (a c : List Bytes)
    (hb : Items b (a ++ c)) (hv : b.validity = none) (ha : 0 < a.length) (j : Nat) (hf : fill m c = some j)
    (hn : (a ++ c).length < 2 ^ 63) (hd : (a ++ c).flatten.length < 2 ^ 32) (pos : Nat) (e : Encoder)
    (l : List (Nat × Bytes)) (hem : e.minBlockSize = m) :
    Spoils q (encodeLoop p recorder b (fuel + 1) a.length pos (e, l)) := by
  intro e' l' h
  have hol : b.offsets.length = (a ++ c).length + 1 := by rw [hb.offsets]; simp
  rw [encodeLoop, if_pos (by rw [hol, List.length_append]; omega), Run.bind_ok (Run.get_apply _)] at h
  simp only [hem] at h
  cases hch : chunk p b a.length m with
  | error x =>
    rw [hch] at h
    simp only [Run.bind_apply, Run.lift_error] at h
    cases (Prod.mk.inj h).1
  | ok ch =>
    have hc := chunk_eq p b a c hb.offsets m
    rw [hf, hch] at hc
    simp only at hc
    rw [hch] at h
    simp only [Run.bind_apply, Run.lift_ok] at h
    have hfull : ¬ ch.size < m := by
      rcases hsub : p.sub 64 j a.length with x | n
      · rw [hsub] at hc; cases hc
      · rw [hsub] at hc
        simp only [ok_bind, pure_eq_ok, Except.ok.injEq] at hc
        subst hc
        have := (fill_some hf).2.1
        simp only; omega
    rw [if_neg hfull, Run.bind_apply] at h
    rcases hw : writeBlock p recorder b ch pos (e, l) with ⟨r, e1, l1⟩
    rw [hw] at h
    cases r with
    | error x => cases (Prod.mk.inj h).1
    | ok r =>
      simp only at h
      obtain ⟨r', id, h1, rfl⟩ := writeBlock_written p b ch pos e e1 l l1 r hw
      obtain ⟨content, deltas, v, g1, g2, g3, g4, g5, g6, g7⟩ := second_chunk_inconsistent p b a c hb ha m j hf hn hd
        ch hch pos _ r' h1
      obtain ⟨bs, rfl⟩ := grows (encodeLoop_follows p recorder b fuel _ _) h
      refine ⟨(id, r'.data), by simp, ?_⟩
      rw [g1, g7 hv, List.append_nil]
      exact unreadable_of q content deltas g6 g3 (by omega) (.inl (by omega))

/-- A call outside what `Manageable` allows. -/
theorem encode_spoils (p q : Profile) (m : Nat) (hm : 0 < m) (hm32 : m ≤ U32_MAX)
    (stale : List Bool) (held b : List (Option Bytes)) (e : Encoder) (l : List (Nat × Bytes))
    (hem : e.minBlockSize = m) (hrem : Holds false stale e.remaining held) (hhe : EndsWithValue held)
    (hlt : byteCount held < m) (hha : Accepts false held) (hba : Accepts false b)
    (hfit : byteCount b ≤ U32_MAX) (hrows : e.numRows + held.length + b.length < 2 ^ 32)
    (hbad : ¬ (((fillStep m held b).1 ≠ [] → byteCount (fillStep m held b).2 < m) ∧
      ∀ g ∈ (fillStep m held b).1, GroupFits held g)) :
    Spoils q (encode p recorder (ofRows false b) (e, l)) := by
  have hU : U32_MAX = 2 ^ 32 - 1 := rfl
  have hval := fillStep_values (b := b) hlt
  have hacc := fillStep_accepts m hha hba
  have hends := fillStep_ends m (b := b) hhe
  have hvl := valuesOf_length_le b
  have hvlh := valuesOf_length_le held
  have hol : (ofRows false b).offsets.length = (valuesOf b).length + 1 := by simp [ofRows]
  have hitems := (holds_ofRows false b).items
  -- the rest of the buffer after the first block
  have hrest : ∀ j, fill (m - byteCount held) (valuesOf b) = some j → 0 < j →
      ¬ byteCount (dropTrailingNulls (b.drop (takeVals j b).length)) < m → ∀ fuel pos e1 l1, e1.minBlockSize = m →
      Spoils q (encodeLoop p recorder (ofRows false b) (fuel + 1) (valuesOf (takeVals j b)).length pos (e1, l1)) := by
    intro j hf hj hge fuel pos e1 l1 he1
    have hsplit := takeVals_append_drop j b
    have hv2 : valuesOf b = valuesOf (takeVals j b) ++ valuesOf (b.drop (takeVals j b).length) := by
      rw [← valuesOf_append, hsplit]
    cases hx : fill m (valuesOf (b.drop (takeVals j b).length)) with
    | none =>
      exfalso
      have := fill_none hx
      rw [byteCount_dropTrailingNulls, byteCount] at hge
      omega
    | some k =>
      have hlen : (valuesOf (takeVals j b)).length = j := by
        rw [takeVals_values, List.length_take, Nat.min_eq_left (fill_some hf).1]
      exact encodeLoop_spoils p q m fuel (ofRows false b) _ _ (by rw [← hv2]; exact hitems) rfl (by omega) k hx
        (by rw [← hv2]; omega) (by rw [← hv2]; unfold byteCount at hfit; omega) pos e1 l1 he1
  by_cases hnil : held = []
  · subst hnil
    have hl0 : ¬ e.remaining.len > 0 := by rw [hrem.len]; simp
    rw [encode, Run.bind_ok (Run.get_apply _)]
    simp only [if_neg hl0]
    simp only [fillStep, show m - byteCount [] = m from rfl] at hval hacc hends hbad hrest
    cases hf : fill m (valuesOf b) with
    | none => rw [hf] at hbad; exact absurd ⟨by simp, by simp⟩ hbad
    | some j =>
      simp only [hf, List.nil_append, List.mem_singleton, forall_eq] at hval hacc hends hbad hrest
      have hj := fill_some hf
      have hjp := fill_pos hf hm
      have hsplit := takeVals_append_drop j b
      have hbc : byteCount (takeVals j b) ≤ byteCount b := by
        have := congrArg byteCount hsplit
        rw [byteCount_append] at this; omega
      have hlen1 : (takeVals j b).length ≤ b.length := (takeVals_prefix j b).length_le
      have hge : ¬ (chunkOf [] (takeVals j b)).size < m := by
        simp only [chunkOf]; omega
      intro e' l' h
      rw [encodeLoop, if_pos (by omega), Run.bind_ok (Run.get_apply _)] at h
      simp only [hem, chunk_first p false b m j hf] at h
      rw [Run.bind_ok (Run.lift_ok _ _), if_neg hge, Run.bind_apply] at h
      rcases hw : writeBlock p recorder (ofRows false b) (chunkOf [] (takeVals j b)) 0 (e, l) with ⟨r, e1, l1⟩
      rw [hw] at h
      cases r with
      | error x => cases (Prod.mk.inj h).1
      | ok r =>
        simp only at h
        have h128 : (valuesOf (takeVals j b)).length ≤ 128 := by
          apply Classical.byContradiction
          intro hn
          exact writeBlock_over p recorder _ _ 0 e l (by simp only [chunkOf]; omega)
            (by simp only [chunkOf, List.nil_append]; have := valuesOf_length_le (takeVals j b); omega)
            (by simp only [chunkOf, List.nil_append, valuesOf_nil, List.length_nil]; omega) _ _ hw
        have hfr := writeBlock_frame p recorder (ofRows false b) (chunkOf [] (takeVals j b)) 0 e l
        rw [hw] at hfr
        have hnot : ¬ byteCount (dropTrailingNulls (b.drop (takeVals j b).length)) < m := by
          intro hn
          exact hbad ⟨fun _ => hn, h128, fun h => absurd rfl h⟩
        exact hrest j rfl hjp hnot (valuesOf b).length r.lastValidityPos e1 l1 (by rw [← hem]; exact hfr.2) e' l'
          (by rw [hol] at h; exact h)
  · have hl0 : e.remaining.len > 0 := by
      rw [hrem.len]
      rcases Nat.eq_zero_or_pos (valuesOf held).length with h | h
      · exact absurd ((ends_nil_iff hhe).mp h) hnil
      · exact h
    have hdata : e.remaining.data.length = byteCount held := by rw [hrem.data, byteCount]
    intro e' l' h
    have hgat := fun j hf => encode_gathered p recorder (j := j) hem hrem hhe hnil hlt hf h
    rw [encode, Run.bind_ok (Run.get_apply _)] at h
    simp only [if_pos hl0, hem, hdata] at h
    rw [Profile.sub_ok p (by omega), Run.bind_ok (Run.lift_ok _ _)] at h
    simp only [fillStep] at hval hacc hends hbad
    cases hf : fill (m - byteCount held) (valuesOf b) with
    | none => rw [hf] at hbad; exact absurd ⟨by simp, by simp⟩ hbad
    | some j =>
      simp only [hf, List.mem_singleton, forall_eq] at hval hacc hends hbad
      have hj := fill_some hf
      have hjp := fill_pos hf (by omega)
      have hov := hgat j hf
      have hsplit := takeVals_append_drop j b
      have hlen1 : (takeVals j b).length ≤ b.length := (takeVals_prefix j b).length_le
      have hbc : byteCount (takeVals j b) ≤ byteCount b := by
        have := congrArg byteCount hsplit
        rw [byteCount_append] at this; omega
      obtain ⟨dst', ha, hh⟩ := hrem.appendFrom p (pre := []) (mid := takeVals j b)
        (post := b.drop (takeVals j b).length)
        (src := ofRows false b) (by rw [List.nil_append, hsplit]; exact holds_ofRows _ _) 0
        (takeVals_ends j b hj.1)
        hov (fun h => by cases h)
      rw [List.nil_append] at ha
      have hd2 : ¬ dst'.data.length < m := by
        rw [hh.data]
        show ¬ byteCount (held ++ takeVals j b) < m
        omega
      have hcp : (chunkOf [] (takeVals j b)).endPos = (valuesOf (takeVals j b)).length := rfl
      have hsp : (chunkOf [] (takeVals j b)).startPos = (valuesOf ([] : List (Option Bytes))).length := rfl
      rw [chunk_first p false b _ j hf, Run.bind_ok (Run.lift_ok _ _)] at h
      simp only [hcp, hsp, ha] at h
      rw [Run.bind_ok (Run.lift_ok _ _)] at h
      simp only at h
      rw [Run.bind_ok (Run.set_apply _ _)] at h
      simp only [if_neg hd2] at h
      rw [Run.bind_apply] at h
      have hbh : byteCount (held ++ takeVals j b) < 2 ^ 64 := by rw [byteCount_append]; omega
      have hfr := writeRemaining_frame p recorder ⟨dst', e.encodedData, e.offsetDeltas, e.bitmapEncoder, m, e.numRows⟩ l
      rcases hw : writeRemaining p recorder
        (⟨dst', e.encodedData, e.offsetDeltas, e.bitmapEncoder, m, e.numRows⟩, l) with ⟨r, e1, l1⟩
      rw [hw] at h hfr
      cases r with
      | error x => cases (Prod.mk.inj h).1
      | ok r =>
        simp only at h hfr
        have h128 : (valuesOf (held ++ takeVals j b)).length ≤ 128 := by
          apply Classical.byContradiction
          intro hn
          rw [writeRemaining, Run.bind_ok (Run.get_apply _)] at hw
          simp only [wholeChunk_eq hh] at hw
          rw [Run.bind_ok (Run.lift_ok _ _)] at hw
          exact writeBlock_over p recorder _ _ 0 _ l (by simp only [chunkOf]; omega)
            (by
              simp only [chunkOf, List.nil_append]
              have := valuesOf_length_le (held ++ takeVals j b)
              rw [List.length_append (as := held)] at this; omega)
            (by simp only [chunkOf, List.nil_append, valuesOf_nil, List.length_nil]; omega) _ _ hw
        have hnot : ¬ byteCount (dropTrailingNulls (b.drop (takeVals j b).length)) < m := by
          intro hn
          exact hbad ⟨fun _ => hn, h128, fun _ => hov⟩
        rw [Run.bind_ok (Run.get_apply _), Run.bind_ok (Run.set_apply _ _)] at h
        exact hrest j hf hjp hnot _ _ { e1 with remaining := e1.remaining.clear } l1 hfr.2 e' l' h

/-- A whole column outside what `Manageable` allows. -/
theorem encodeColumn_spoils (p q : Profile) (m : Nat) (hm : 0 < m) (hm32 : m ≤ U32_MAX)
    (bufs : List (List (Option Bytes))) : ∀ (stale : List Bool) (held : List (Option Bytes)) (e : Encoder)
    (l : List (Nat × Bytes)),
    e.minBlockSize = m → Holds false stale e.remaining held → EndsWithValue held →
    byteCount held < m → Accepts false held → (∀ b ∈ bufs, Accepts false b) →
    (∀ b ∈ bufs, byteCount b ≤ U32_MAX) → ¬ Manageable m false stale held bufs →
    e.numRows + held.length + bufs.flatten.length < 2 ^ 32 →
    Spoils q (encodeColumn p recorder (bufs.map (ofRows false)) (e, l)) := by
  have hU : U32_MAX = 2 ^ 32 - 1 := rfl
  induction bufs with
  | nil =>
    intro stale held e l hem hrem hhe hlt hha _ _ hman hrows e' l' h
    exfalso
    have hman : 128 < (valuesOf held).length := Nat.not_le.mp fun h => hman ⟨h, nofun⟩
    simp only [encodeColumn, List.map_nil, encodeAll, Run.bind_apply, Run.pure_apply, flush, Run.get_apply,
      hrem.len] at h
    rw [if_pos (by omega), Run.bind_apply] at h
    rcases hw : writeRemaining p recorder (e, l) with ⟨r, st⟩
    rw [hw] at h
    cases r with
    | error x => cases (Prod.mk.inj h).1
    | ok r =>
      rw [writeRemaining, Run.bind_ok (Run.get_apply _)] at hw
      simp only [wholeChunk_eq hrem] at hw
      rw [Run.bind_ok (Run.lift_ok _ _)] at hw
      exact writeBlock_over p recorder _ _ 0 _ l (by simp only [chunkOf]; omega)
        (by simp only [chunkOf, List.nil_append]; have := valuesOf_length_le held; omega)
        (by simp only [chunkOf, List.nil_append, valuesOf_nil, List.length_nil]; omega) _ _ hw
  | cons b bufs ih =>
    intro stale held e l hem hrem hhe hlt hha hba hfit hman hrows
    rw [List.flatten_cons, List.length_append] at hrows
    by_cases hgood : ((fillStep m held b).1 ≠ [] → byteCount (fillStep m held b).2 < m) ∧
      ∀ g ∈ (fillStep m held b).1, GroupFits held g
    · obtain ⟨hg1, hg2⟩ := hgood
      obtain ⟨e1, h1, h2, h3, h4⟩ := encode_ok p false stale m hm hm32 held b e l hem hrem hhe hlt hha
        (hba b (by simp)) (hfit b (by simp)) hg1 hg2 (by omega)
      have hrl := congrArg List.length (fillStep_rows m held b)
      have hdl := dropTrailingNulls_length_le b
      have hcl := countBits_withBits_le false (if held = [] then [] else stale) (fillStep m held b).1
      simp only [List.length_append] at hrl
      have := ih _ _ e1 (l ++ blocksWith false e.numRows
        (withBits false (if held = [] then [] else stale) (fillStep m held b).1)) h2 h3
        (fillStep_ends m hhe).2 (fillStep_small hlt hg1) (fillStep_accepts m hha (hba b (by simp))).2
        (fun b' hb' => hba b' (by simp [hb'])) (fun b' hb' => hfit b' (by simp [hb']))
        (fun hm' => hman ⟨hg1, hg2, nofun, hm'⟩) (by omega)
      simp only [encodeColumn, List.map_cons, encodeAll, Run.bind_apply, h1] at this ⊢
      exact this
    · have hs := encode_spoils p q m hm hm32 stale held b e l hem hrem hhe hlt hha (hba b (by simp))
        (hfit b (by simp)) (by omega) hgood
      have h1 := spoils_bind (f := fun _ => encodeAll p recorder (bufs.map (ofRows false)))
        (encodeAll_follows p recorder _) hs
      have h2 := spoils_bind (f := fun _ => flush p recorder) (flush_follows p recorder) h1
      exact h2

end Meerkat.BinaryEnc
