import Verif.Props.AnyCalls

set_option autoImplicit false

/-!
# C117: a nullable column without nulls takes at most eight bytes more for each block
-/

namespace Meerkat
open Spec

namespace AllValid
open Rle Rle.Encoder

theorem byteBits_full : byteBits 255 = List.replicate 8 true := by decide

theorem byteBits_length (c : UInt8) : (byteBits c).length = 8 := by simp [byteBits]

theorem bytesBits_length (bs : Bytes) : (bytesBits bs).length = 8 * bs.length := by
  induction bs with
  | nil => rfl
  | cons c bs ih =>
    simp only [bytesBits, List.flatMap_cons, List.length_append, byteBits_length, List.length_cons] at ih ⊢
    omega

/-- Ones filled up with zeros to whole bytes. -/
theorem ones (bytes : Bytes) : ∀ n pad, pad < 8 → bytesBits bytes = List.replicate n true ++ List.replicate pad false →
    ∃ q tail, bytes = List.replicate q 255 ++ tail ∧ (tail = [] ∨ ∃ k, k ≠ 255 ∧ tail = [k]) := by
  induction bytes with
  | nil => exact fun _ _ _ _ => ⟨0, [], rfl, .inl rfl⟩
  | cons c cs ih =>
    intro n pad hp h
    by_cases hc : c = 255
    · subst hc
      have h8 : 8 ≤ n := by
        refine Nat.le_of_not_lt fun hn => ?_
        have h1 := congrArg (·[n]?) h
        have hl := congrArg List.length h
        simp only [bytesBits_length, List.length_cons, List.length_append, List.length_replicate] at hl
        simp only [bytesBits, List.flatMap_cons, byteBits_full] at h1
        rw [List.getElem?_append_left (by simpa using hn), List.getElem?_append_right (by simp)] at h1
        simp only [List.length_replicate, Nat.sub_self, List.getElem?_replicate] at h1
        rw [if_pos hn] at h1
        split at h1 <;> simp at h1
      have h2 : bytesBits cs = List.replicate (n - 8) true ++ List.replicate pad false := by
        have h1 := h
        rw [show n = 8 + (n - 8) by omega, ← List.replicate_append_replicate, List.append_assoc] at h1
        simp only [bytesBits, List.flatMap_cons, byteBits_full] at h1
        exact List.append_cancel_left h1
      obtain ⟨q, tail, h3, h4⟩ := ih (n - 8) pad hp h2
      exact ⟨q + 1, tail, by rw [h3, List.replicate_succ, List.cons_append], h4⟩
    · refine ⟨0, c :: cs, rfl, .inr ⟨c, hc, ?_⟩⟩
      cases cs with
      | nil => rfl
      | cons d ds =>
        exfalso
        apply hc
        have hl := congrArg List.length h
        simp only [bytesBits_length, List.length_cons, List.length_append, List.length_replicate] at hl
        have h1 := congrArg (List.take 8) h
        simp only [bytesBits, List.flatMap_cons] at h1
        rw [List.take_left' (byteBits_length c), List.take_append_of_le_length (by simp; omega), List.take_replicate,
          Nat.min_eq_left (by omega)] at h1
        exact byteBits_inj (h1.trans byteBits_full.symm)

theorem good_two (q : Nat) (hq : q < 3) (tail : Bytes) (ht : tail = [] ∨ ∃ k, k ≠ 255 ∧ tail = [k])
    (hne : List.replicate q 255 ++ tail ≠ []) : (RlePiece.literal (List.replicate q 255 ++ tail)).Good := by
  refine ⟨hne, fun pre b post h => ?_⟩
  have hl := congrArg List.length h
  simp only [List.length_append, List.length_replicate, List.length_cons] at hl
  rcases ht with rfl | ⟨k, hk, rfl⟩
  · simp at hl; omega
  · simp only [List.length_cons, List.length_nil] at hl
    have hp : pre = [] := List.length_eq_zero_iff.1 (by omega)
    have hs : post = [] := List.length_eq_zero_iff.1 (by omega)
    obtain rfl : q = 2 := by omega
    subst hp hs
    simp [List.replicate_succ] at h
    exact hk (h.2 ▸ h.1.symm)

theorem length (validity : Bytes) (h : IsValidity true validity) : validity.length ≤ 8 := by
  obtain ⟨rows, hlen, ⟨bytes, pad, hp, hb, hc⟩, hall⟩ := h
  have hrows : rows = List.replicate rows.length true := by
    refine List.eq_replicate_iff.2 ⟨rfl, fun b hb => ?_⟩
    cases b with
    | true => rfl
    | false => exact absurd hb (hall rfl)
  rw [hrows] at hb
  obtain ⟨q, tail, h1, h2⟩ := ones bytes _ _ hp hb
  have hl := congrArg List.length hb
  simp only [bytesBits_length, h1, List.length_append, List.length_replicate] at hl
  have key : ∀ fs : List Frame, Divided (fs.map Frame.piece) → expandAll fs = bytes → validity = bytesAll fs := by
    intro fs hd he
    exact compressed_unique hc ⟨fs.map Frame.piece, hd, by rw [pieces_bytes, he], frames_written fs⟩
  by_cases hq : 3 ≤ q
  · have hv := Varint.varintBytes_length_le (v := 2 * q) (k := 5) (by omega) (by omega)
    rcases h2 with rfl | ⟨k, hk, rfl⟩
    · rw [key [.run q 255] hq (by simp [expandAll, Frame.expand, h1])]
      simp [bytesAll, Frame.bytes]
      omega
    · rw [key [.run q 255, .bitmap [k]]
        ⟨hq, ⟨.inl ⟨q, 255, rfl⟩, ?_⟩, good_one k⟩ (by simp [expandAll, Frame.expand, h1])]
      · have hv1 := Varint.varintBytes_length_le (v := 2 * 1 + 1) (k := 1) (by omega) (by omega)
        simp [bytesAll, Frame.bytes] at hv1 ⊢
        omega
      · simp only [Frame.piece, RlePiece.bytes, List.head?_cons]
        rw [List.getLast?_replicate, if_neg (by omega)]
        simpa using fun h => hk h.symm
  · by_cases hne : List.replicate q 255 ++ tail = []
    · rw [key [] trivial (by rw [h1, hne]; rfl)]
      simp [bytesAll]
    · rw [key [.bitmap (List.replicate q 255 ++ tail)] (good_two q (by omega) tail h2 hne) (by simp [expandAll, Frame.expand, h1])]
      have ht : tail.length ≤ 1 := by rcases h2 with rfl | ⟨k, _, rfl⟩ <;> simp
      have hv := Varint.varintBytes_length_le (v := 2 * (List.replicate q (255 : UInt8) ++ tail).length + 1) (k := 1) (by omega)
        (by simp; omega)
      simp [bytesAll, Frame.bytes] at hv ⊢
      omega

theorem matched (xs ys : List (Nat × Bytes)) (h : Matched (WithValidity true) xs ys) :
    Matched (fun x y => y.1 ≤ x.1 ∧ ∃ validity, x.2 = y.2 ++ validity ∧ validity.length ≤ 8) xs ys ∧
      (xs.map (·.2.length)).sum ≤ (ys.map (·.2.length)).sum + 8 * ys.length := by
  revert h
  refine Matched.induct (P := fun xs ys =>
    Matched (fun x y => y.1 ≤ x.1 ∧ ∃ validity, x.2 = y.2 ++ validity ∧ validity.length ≤ 8) xs ys ∧
      (xs.map (·.2.length)).sum ≤ (ys.map (·.2.length)).sum + 8 * ys.length) ⟨.nil, by simp⟩ ?_ xs ys
  intro x y xs ys hxy _ ih
  obtain ⟨h1, v, h2, h3⟩ := hxy
  have hl := length v h3
  refine ⟨.cons ⟨h1, v, h2, hl⟩ ih.1, ?_⟩
  have := ih.2
  simp only [List.map_cons, List.sum_cons, List.length_cons, h2, List.length_append]
  omega

end AllValid

/-- C117, primitive encoder: when the calls for a column without nulls that is declared nullable return, those for the same
column not declared nullable return too, with as many blocks; each block of the first is one of the second followed by eight
bytes at most. -/
theorem C117_primitive {α : Type} [Element α] (p : Profile) (m : Nat) (hm : 0 < m) (bufs : List (List (Option α)))
    (hsome : ∀ rows ∈ bufs, none ∉ rows) (bs) (hb : buildAll true bufs = .ok bs) (e blocks)
    (hrun : PrimitiveEnc.encodeColumn p recorder bs (PrimitiveEnc.Encoder.new m true, []) = (.ok (), (e, blocks))) :
    ∃ bs' e' blocks', buildAll false bufs = .ok bs' ∧
      PrimitiveEnc.encodeColumn p recorder bs' (PrimitiveEnc.Encoder.new m false, []) = (.ok (), (e', blocks')) ∧
      Matched (fun x y => y.1 ≤ x.1 ∧ ∃ validity, x.2 = y.2 ++ validity ∧ validity.length ≤ 8) blocks blocks' ∧
      (blocks.map (·.2.length)).sum ≤ (blocks'.map (·.2.length)).sum + 8 * blocks'.length := by
  obtain ⟨bs', h1, h2⟩ := PrimitiveEnc.buildAll_without true true bufs (fun _ => hsome) bs hb
  rw [withoutNulls_same bufs hsome] at h1
  obtain ⟨_, ⟨e', blocks'⟩, h3, _, h4⟩ := PrimitiveEnc.encodeColumn_without m hm p h2 (PrimitiveEnc.Encoder.new m true, [])
    (PrimitiveEnc.Encoder.new m false, [])
    ⟨⟨⟨rfl, rfl, fun _ => AllSet.ofNew true⟩, rfl, rfl, Nat.le_refl _⟩, .nil⟩ () _ hrun
  exact ⟨bs', e', blocks', h1, h3, AllValid.matched _ _ h4.2⟩

/-- C117, binary encoder. -/
theorem C117_binary (p : Profile) (m : Nat) (hm : 0 < m) (bufs : List (List (Option Bytes)))
    (hsome : ∀ rows ∈ bufs, none ∉ rows) (bs) (hb : buildBinary true bufs = .ok bs) (e blocks)
    (hrun : BinaryEnc.encodeColumn p recorder bs (BinaryEnc.Encoder.new m true, []) = (.ok (), (e, blocks))) :
    ∃ bs' e' blocks', buildBinary false bufs = .ok bs' ∧
      BinaryEnc.encodeColumn p recorder bs' (BinaryEnc.Encoder.new m false, []) = (.ok (), (e', blocks')) ∧
      Matched (fun x y => y.1 ≤ x.1 ∧ ∃ validity, x.2 = y.2 ++ validity ∧ validity.length ≤ 8) blocks blocks' ∧
      (blocks.map (·.2.length)).sum ≤ (blocks'.map (·.2.length)).sum + 8 * blocks'.length := by
  obtain ⟨bs', h1, h2⟩ := BinaryEnc.buildBinary_without true true bufs (fun _ => hsome) bs hb
  rw [withoutNulls_same bufs hsome] at h1
  obtain ⟨_, ⟨e', blocks'⟩, h3, _, h4⟩ := BinaryEnc.encodeColumn_without m hm p h2 (BinaryEnc.Encoder.new m true, [])
    (BinaryEnc.Encoder.new m false, [])
    ⟨⟨⟨rfl, rfl, rfl, fun _ => AllSet.ofNew true⟩, rfl, rfl, Nat.le_refl _, Nat.zero_le _⟩, .nil⟩ () _ hrun
  exact ⟨bs', e', blocks', h1, h3, AllValid.matched _ _ h4.2⟩

/-- The same method, given the same rows as a nullable column and as one that is not; no row is null. -/
def EncCall.PrimitiveDeclared {α : Type} : EncCall (PrimitiveBuffer α) → EncCall (PrimitiveBuffer α) → Prop :=
  EncCall.Alike fun b b' => ∃ rows, none ∉ rows ∧ (PrimitiveBuffer.new true).pushAll rows = .ok b ∧
    (PrimitiveBuffer.new false).pushAll rows = .ok b'

/-- The same for binary columns. -/
def EncCall.BinaryDeclared : EncCall BinaryBuffer → EncCall BinaryBuffer → Prop :=
  EncCall.Alike fun b b' => ∃ rows, none ∉ rows ∧ (BinaryBuffer.new true).pushAll rows = .ok b ∧
    (BinaryBuffer.new false).pushAll rows = .ok b'

theorem AllValid.filter_same {α : Type} {rows : List (Option α)} (h : none ∉ rows) : rows.filter Option.isSome = rows := by
  rw [List.filter_eq_self]
  intro x hx
  cases x with
  | none => exact absurd hx h
  | some v => rfl

/-- C117, primitive encoder, for `encode` and `flush` in any order. -/
theorem C117_primitive_calls {α : Type} [Element α] (p : Profile) (m : Nat) (hm : 0 < m)
    (cs cs' : List (EncCall (PrimitiveBuffer α))) (h : Matched EncCall.PrimitiveDeclared cs cs') (e blocks)
    (hrun : PrimitiveEnc.calls p recorder cs (PrimitiveEnc.Encoder.new m true, []) = (.ok (), (e, blocks))) :
    ∃ e' blocks', PrimitiveEnc.calls p recorder cs' (PrimitiveEnc.Encoder.new m false, []) = (.ok (), (e', blocks')) ∧
      Matched (fun x y => y.1 ≤ x.1 ∧ ∃ validity, x.2 = y.2 ++ validity ∧ validity.length ≤ 8) blocks blocks' ∧
      (blocks.map (·.2.length)).sum ≤ (blocks'.map (·.2.length)).sum + 8 * blocks'.length := by
  have key : RunI (PrimitiveEnc.StatesV true m) (PrimitiveEnc.StatesV true m) (fun _ _ => True)
      (PrimitiveEnc.calls (α := α) p recorder cs) (PrimitiveEnc.calls p recorder cs') := by
    clear hrun
    revert h
    refine Matched.induct (P := fun cs cs' => RunI (PrimitiveEnc.StatesV true m) (PrimitiveEnc.StatesV true m) (fun _ _ => True)
      (PrimitiveEnc.calls (α := α) p recorder cs) (PrimitiveEnc.calls p recorder cs')) ?_ ?_ cs cs'
    · exact .pure trivial
    · intro x y xs ys hxy _ ih
      match x, y, hxy with
      | .encode b, .encode b', ⟨rows, h0, h1, h2⟩ =>
        obtain ⟨b2, h3, h4⟩ := PrimitiveEnc.pushAll_without true rows (fun _ => h0) (.new true) (.new false) b
          ⟨rfl, rfl, fun _ => AllSet.ofNew true⟩ h1
        rw [AllValid.filter_same h0, h2] at h3
        cases h3
        exact .bind (PrimitiveEnc.encode_without m hm p h4) fun _ _ _ => ih
      | .flush, .flush, _ => exact .bind (PrimitiveEnc.flush_without m p) fun _ _ _ => ih
  obtain ⟨_, ⟨e', blocks'⟩, h3, _, h4⟩ := key (PrimitiveEnc.Encoder.new m true, []) (PrimitiveEnc.Encoder.new m false, [])
    ⟨⟨⟨rfl, rfl, fun _ => AllSet.ofNew true⟩, rfl, rfl, Nat.le_refl _⟩, .nil⟩ () _ hrun
  exact ⟨e', blocks', h3, AllValid.matched _ _ h4.2⟩

/-- C117, binary encoder, for calls in any order. -/
theorem C117_binary_calls (p : Profile) (m : Nat) (hm : 0 < m)
    (cs cs' : List (EncCall BinaryBuffer)) (h : Matched EncCall.BinaryDeclared cs cs') (e blocks)
    (hrun : BinaryEnc.calls p recorder cs (BinaryEnc.Encoder.new m true, []) = (.ok (), (e, blocks))) :
    ∃ e' blocks', BinaryEnc.calls p recorder cs' (BinaryEnc.Encoder.new m false, []) = (.ok (), (e', blocks')) ∧
      Matched (fun x y => y.1 ≤ x.1 ∧ ∃ validity, x.2 = y.2 ++ validity ∧ validity.length ≤ 8) blocks blocks' ∧
      (blocks.map (·.2.length)).sum ≤ (blocks'.map (·.2.length)).sum + 8 * blocks'.length := by
  have key : RunI (BinaryEnc.StatesV true m 0) (BinaryEnc.StatesV true m 0) (fun _ _ => True)
      (BinaryEnc.calls p recorder cs) (BinaryEnc.calls p recorder cs') := by
    clear hrun
    revert h
    refine Matched.induct (P := fun cs cs' => RunI (BinaryEnc.StatesV true m 0) (BinaryEnc.StatesV true m 0) (fun _ _ => True)
      (BinaryEnc.calls p recorder cs) (BinaryEnc.calls p recorder cs')) ?_ ?_ cs cs'
    · exact .pure trivial
    · intro x y xs ys hxy _ ih
      match x, y, hxy with
      | .encode b, .encode b', ⟨rows, h0, h1, h2⟩ =>
        obtain ⟨b2, h3, h4⟩ := BinaryEnc.pushAll_without true rows (fun _ => h0) (.new true) (.new false) b
          ⟨rfl, rfl, rfl, fun _ => AllSet.ofNew true⟩ h1
        rw [AllValid.filter_same h0, h2] at h3
        cases h3
        exact .bind (BinaryEnc.encode_without m hm p h4) fun _ _ _ => ih
      | .flush, .flush, _ => exact .bind (BinaryEnc.flush_without m p) fun _ _ _ => ih
  obtain ⟨_, ⟨e', blocks'⟩, h3, _, h4⟩ := key (BinaryEnc.Encoder.new m true, []) (BinaryEnc.Encoder.new m false, [])
    ⟨⟨⟨rfl, rfl, rfl, fun _ => AllSet.ofNew true⟩, rfl, rfl, Nat.le_refl _, Nat.zero_le _⟩, .nil⟩ () _ hrun
  exact ⟨e', blocks', h3, AllValid.matched _ _ h4.2⟩

/-- Forty `i32` in blocks of thirty: a run of three bytes and a literal, four bytes more; ten: three bytes more. -/
example :
    let bufs : List (List (Option Int32)) := [(List.range 40).map fun i => some (Int32.ofNat i)]
    (∀ rows ∈ bufs, none ∉ rows) ∧
    (intBlocks .debug true 120 bufs).map (·.map (·.2.length)) = some [125, 44] ∧
    (intBlocks .debug false 120 bufs).map (·.map (·.2.length)) = some [121, 41] ∧
    (intBlocks .debug true 120 bufs).map (·.map fun b => b.2.drop (b.2.length - 4)) =
      some [[6, 255, 3, 63], [0, 5, 255, 3]] := by
  decide +kernel

end Meerkat
