import Verif.Proofs.Alike
import Verif.Model.BigEndian
import Verif.Props.PrimitiveEnc
import Verif.Props.BinaryEnc

set_option autoImplicit false

/-!
# C100, C101: what the values of a column have to do with its blocks

C100: nothing but their bytes. C101: the bytes of primitive values are those of the machine.
-/

namespace Meerkat
open Spec

namespace Spec.Matched

theorem mapM {α β γ δ : Type} {R : α → β → Prop} {Q : γ → δ → Prop} {f : α → Res γ} {g : β → Res δ}
    (hf : ∀ x y, R x y → ResR Q (f x) (g y)) (xs : List α) (ys : List β) (h : Matched R xs ys) :
    ResR (Matched Q) (xs.mapM f) (ys.mapM g) := by
  revert h
  refine induct (P := fun xs ys => ResR (Matched Q) (xs.mapM f) (ys.mapM g)) (.ok nil) ?_ xs ys
  intro x y xs ys hxy _ ih
  rw [List.mapM_cons, List.mapM_cons]
  exact .bind (hf _ _ hxy) fun a b hab => .bind ih fun as bs habs => .ok (cons hab habs)

theorem foldlM {α β γ δ : Type} {R : α → β → Prop} {Q : γ → δ → Prop} {f : γ → α → Res γ} {g : δ → β → Res δ}
    (hf : ∀ a b x y, Q a b → R x y → ResR Q (f a x) (g b y)) (xs : List α) (ys : List β) (h : Matched R xs ys) :
    ∀ a b, Q a b → ResR Q (xs.foldlM f a) (ys.foldlM g b) := by
  revert h
  refine induct (P := fun xs ys => ∀ a b, Q a b → ResR Q (xs.foldlM f a) (ys.foldlM g b)) (fun a b h => .ok h) ?_ xs ys
  intro x y xs ys hxy _ ih a b hab
  rw [List.foldlM_cons, List.foldlM_cons]
  exact .bind (hf _ _ _ _ hab hxy) fun a b h => ih a b h

theorem eq {α : Type} (xs ys : List α) (h : Matched Eq xs ys) : xs = ys :=
  induct (P := fun xs ys => xs = ys) rfl (fun _ _ _ _ h _ ih => by rw [h, ih]) xs ys h

theorem flatMap_length {α β : Type} {R : α → β → Prop} {f : α → Bytes} {g : β → Bytes}
    (hR : ∀ x y, R x y → (f x).length = (g y).length) (xs : List α) (ys : List β) (h : Matched R xs ys) :
    (xs.flatMap f).length = (ys.flatMap g).length :=
  induct (P := fun xs ys => (xs.flatMap f).length = (ys.flatMap g).length) rfl
    (fun x y xs ys h _ ih => by simp only [List.flatMap_cons, List.length_append, hR x y h, ih]) xs ys h

end Spec.Matched

theorem BlockAlike.length {α β : Type} {R : α → β → Prop} {f : α → Bytes} {g : β → Bytes}
    (hR : ∀ x y, R x y → (f x).length = (g y).length) (bs bs' : List (Nat × Bytes))
    (h : Matched (BlockAlike R f g) bs bs') :
    bs.map (fun b => (b.1, b.2.length)) = bs'.map (fun b => (b.1, b.2.length)) :=
  Matched.induct (P := fun bs bs' : List (Nat × Bytes) => bs.map (fun b => (b.1, b.2.length)) = bs'.map (fun b => (b.1, b.2.length))) rfl
    (fun x y xs ys h _ ih => by
      obtain ⟨h1, a, vs, ws, c, h2, h3, h4⟩ := h
      simp only [List.map_cons, ih, h1, h3, h4, List.length_append, Matched.flatMap_length hR vs ws h2]) bs bs' h

section
open PrimitiveEnc
variable {α β : Type} [Element α] [Element β] {R : α → β → Prop}

omit [Element α] [Element β] in
theorem PrimitiveEnc.push_alike (b : PrimitiveBuffer α) (b' : PrimitiveBuffer β) (x : Option α) (y : Option β)
    (h : BufR R b b') (hxy : RowAlike R x y) : ResR (BufR R) (b.push x) (b'.push y) := by
  match x, y, hxy with
  | none, none, _ =>
    simp only [PrimitiveBuffer.push, PrimitiveBuffer.appendNull, h.validity]
    refine .bind (.refl _) fun v v' hv => ?_
    subst hv
    exact .ok ⟨h.values, rfl⟩
  | some x, some y, hxy =>
    simp only [PrimitiveBuffer.push, PrimitiveBuffer.append, h.validity]
    refine .bind (.refl _) fun v v' hv => ?_
    subst hv
    exact .ok ⟨h.values.append (.single hxy), rfl⟩

omit [Element α] [Element β] in
theorem PrimitiveEnc.buildAll_alike (nullable : Bool) (bufs : List (List (Option α))) (bufs' : List (List (Option β)))
    (h : Matched (Matched (RowAlike R)) bufs bufs') :
    ResR (Matched (BufR R)) (buildAll nullable bufs) (buildAll nullable bufs') := by
  unfold buildAll
  exact Matched.mapM (R := Matched (RowAlike R)) (fun xs ys h => Matched.foldlM PrimitiveEnc.push_alike xs ys h (PrimitiveBuffer.new nullable)
    (PrimitiveBuffer.new nullable) ⟨.nil, rfl⟩) _ _ h

/-- C100, primitive encoder: two columns with nulls in the same places, whatever their values, and even of different types of
the same size, are encoded alike. Their buffers can both be built or not; the calls return or fail the same; there are as many
blocks, with the same row ids and the same lengths; and these differ only in the bytes of the values, which stand in the same
places. `R` is any relation between the values of the two columns; it holds between the values of the blocks. -/
theorem C100_primitive_alike (hs : Element.size α = Element.size β) (p : Profile) (nullable : Bool) (m : Nat)
    (bufs : List (List (Option α))) (bufs' : List (List (Option β))) (h : Matched (Matched (RowAlike R)) bufs bufs') (bs)
    (hb : buildAll nullable bufs = .ok bs) :
    ∃ bs' r e e' blocks blocks', buildAll nullable bufs' = .ok bs' ∧
      encodeColumn p recorder bs (Encoder.new m nullable, []) = (r, (e, blocks)) ∧
      encodeColumn p recorder bs' (Encoder.new m nullable, []) = (r, (e', blocks')) ∧
      Matched (BlockAlike R Element.bytes Element.bytes) blocks blocks' ∧
      blocks.map (fun b => (b.1, b.2.length)) = blocks'.map (fun b => (b.1, b.2.length)) := by
  have h1 := PrimitiveEnc.buildAll_alike nullable bufs bufs' h
  rw [hb] at h1
  generalize hb' : buildAll nullable bufs' = r' at h1
  cases h1 with
  | @ok _ bs' h1 =>
    obtain ⟨h2, h3⟩ := encodeColumn_alike hs p h1 (Encoder.new m nullable, []) (Encoder.new m nullable, [])
      ⟨⟨⟨.nil, rfl⟩, rfl, rfl, rfl⟩, .nil⟩
    rcases g : encodeColumn p recorder bs (Encoder.new m nullable, []) with ⟨r, e, blocks⟩
    rcases g' : encodeColumn p recorder bs' (Encoder.new m nullable, []) with ⟨r', e', blocks'⟩
    rw [g, g'] at h2 h3
    have h2 : r = r' := h2.to_eq
    subst h2
    exact ⟨bs', r, e, e', blocks, blocks', rfl, rfl, g', h3.2,
      BlockAlike.length (fun x y _ => by rw [Element.bytes_length, Element.bytes_length, hs]) _ _ h3.2⟩

end

section
open BinaryEnc

theorem BinaryEnc.push_alike (b b' : BinaryBuffer) (x y : Option Bytes) (h : BufR b b') (hxy : RowAlike SameLength x y) :
    ResR BufR (b.push x) (b'.push y) := by
  match x, y, hxy with
  | none, none, _ =>
    simp only [BinaryBuffer.push, BinaryBuffer.appendNull, h.validity]
    refine .bind (.refl _) fun v v' hv => ?_
    subst hv
    exact .ok ⟨h.data, h.offsets, rfl⟩
  | some x, some y, hxy =>
    have hd := h.data.append (show Matched (fun _ _ => True) x y from ⟨hxy, fun _ _ _ _ _ => trivial⟩)
    simp only [BinaryBuffer.push, BinaryBuffer.append, h.validity, hd.1, h.offsets]
    split
    · refine .bind (.refl _) fun v v' hv => ?_
      subst hv
      exact .ok ⟨hd, rfl, rfl⟩
    · exact .error _

theorem BinaryEnc.buildBinary_alike (nullable : Bool) (bufs bufs' : List (List (Option Bytes)))
    (h : Matched (Matched (RowAlike SameLength)) bufs bufs') :
    ResR (Matched BufR) (buildBinary nullable bufs) (buildBinary nullable bufs') :=
  Matched.mapM (fun xs ys h => Matched.foldlM BinaryEnc.push_alike xs ys h (BinaryBuffer.new nullable)
    (BinaryBuffer.new nullable) ⟨.nil, rfl, rfl⟩) _ _ h

/-- C100, binary encoder: two columns with nulls in the same places and values of the same lengths are encoded alike. The blocks
differ only in the bytes of the values. -/
theorem C100_binary_alike (p : Profile) (nullable : Bool) (m : Nat)
    (bufs bufs' : List (List (Option Bytes))) (h : Matched (Matched (RowAlike SameLength)) bufs bufs') (bs)
    (hb : buildBinary nullable bufs = .ok bs) :
    ∃ bs' r e e' blocks blocks', buildBinary nullable bufs' = .ok bs' ∧
      encodeColumn p recorder bs (Encoder.new m nullable, []) = (r, (e, blocks)) ∧
      encodeColumn p recorder bs' (Encoder.new m nullable, []) = (r, (e', blocks')) ∧
      Matched (BlockAlike (fun _ _ => True) (fun x => [x]) (fun x => [x])) blocks blocks' ∧
      blocks.map (fun b => (b.1, b.2.length)) = blocks'.map (fun b => (b.1, b.2.length)) := by
  have h1 := BinaryEnc.buildBinary_alike nullable bufs bufs' h
  rw [hb] at h1
  generalize hb' : buildBinary nullable bufs' = r' at h1
  cases h1 with
  | @ok _ bs' h1 =>
    obtain ⟨h2, h3⟩ := encodeColumn_alike p h1 (Encoder.new m nullable, []) (Encoder.new m nullable, [])
      ⟨⟨⟨.nil, rfl, rfl⟩, rfl, rfl, rfl⟩, .nil⟩
    rcases g : encodeColumn p recorder bs (Encoder.new m nullable, []) with ⟨r, e, blocks⟩
    rcases g' : encodeColumn p recorder bs' (Encoder.new m nullable, []) with ⟨r', e', blocks'⟩
    rw [g, g'] at h2 h3
    have h2 : r = r' := h2.to_eq
    subst h2
    exact ⟨bs', r, e, e', blocks, blocks', rfl, rfl, g', h3.2,
      BlockAlike.length (R := fun _ _ : Byte => True) (f := fun x => [x]) (g := fun x => [x]) (fun x y _ => rfl) _ _ h3.2⟩

end

/-! Not vacuous: columns of different types with a null, encoded as three blocks of the same shape. -/
example : Matched (Matched (RowAlike fun (_ : Int64) (_ : UInt64) => True)) [[some 1, none, some 2], [some 3]]
    [[some 9, none, some 0], [some 7]] :=
  .cons (.cons trivial (.cons trivial (.single trivial))) (.single (.single trivial))
example (p : Profile) : ((do
    let bs ← buildAll true [[some (1 : Int64), none, some 2], [some 3]]
    pure (PrimitiveEnc.encodeColumn p recorder bs (PrimitiveEnc.Encoder.new 16 true, [])).2.2) : Res (List (Nat × Bytes))).toOption =
    some [(2, [16, 1, 0, 0, 0, 0, 0, 0, 0, 2, 0, 0, 0, 0, 0, 0, 0, 3, 5]), (3, [8, 3, 0, 0, 0, 0, 0, 0, 0, 3, 1])] := by cases p <;> decide +kernel
example (p : Profile) : ((do
    let bs ← buildAll true [[some (9 : UInt64), none, some 0], [some 7]]
    pure (PrimitiveEnc.encodeColumn p recorder bs (PrimitiveEnc.Encoder.new 16 true, [])).2.2) : Res (List (Nat × Bytes))).toOption =
    some [(2, [16, 9, 0, 0, 0, 0, 0, 0, 0, 0, 0, 0, 0, 0, 0, 0, 0, 3, 5]), (3, [8, 7, 0, 0, 0, 0, 0, 0, 0, 3, 1])] := by cases p <;> decide +kernel

/-! ## C101: the byte order of the machine -/

theorem Spec.Matched.map_both {α β γ : Type} {R : α → β → Prop} {f : γ → α} {g : γ → β} (h : ∀ x, R (f x) (g x)) (xs : List γ) :
    Matched R (xs.map f) (xs.map g) := by
  induction xs with
  | nil => exact .nil
  | cons x xs ih => exact .cons (h x) ih

section
open PrimitiveEnc
variable {α : Type} [Element α]

/-- The value that has these bytes the other way round. -/
def swapBytes (x : α) : α := Element.ofBytes (Element.bytes x).reverse

/-- Every string of as many bytes as a value is the bytes of a value. -/
def EveryPattern (α : Type) [Element α] : Prop :=
  ∀ b : Bytes, b.length = Element.size α → Element.bytes (Element.ofBytes b : α) = b

/-- The buffers, in the memory of a big endian machine. -/
def onBigEndian (bufs : List (List (Option α))) : List (List (Option (BigEndian α))) :=
  bufs.map (List.map (Option.map BigEndian.mk))

theorem leBytes_leNat (b : Bytes) : leBytes b.length (leNat b) = b := by
  induction b with
  | nil => rfl
  | cons x b ih =>
    have h1 : (x.toNat + 256 * leNat b) / 256 = leNat b := by have := x.toNat_lt; omega
    have h2 : UInt8.ofNat (x.toNat + 256 * leNat b) = x := by
      apply UInt8.toNat_inj.mp
      rw [UInt8.toNat_ofNat']
      have := x.toNat_lt
      omega
    simp only [List.length_cons, leNat, leBytes, h1, h2, ih]

theorem leNat_lt (b : Bytes) : leNat b < 256 ^ b.length := by
  induction b with
  | nil => simp [leNat]
  | cons x b ih =>
    have := x.toNat_lt
    simp only [leNat, List.length_cons, Nat.pow_succ]
    omega

/-- The element types in use have every pattern. -/
theorem everyPattern : EveryPattern Int32 ∧ EveryPattern Int64 ∧ EveryPattern UInt64 := by
  refine ⟨fun b h => ?_, fun b h => ?_, fun b h => ?_⟩
  · have h4 : b.length = 4 := h
    have := leNat_lt b
    rw [h4] at this
    have : (UInt32.ofNat (leNat b)).toNat = leNat b := by rw [UInt32.toNat_ofNat']; omega
    show leBytes 4 (UInt32.ofNat (leNat b)).toNat = b
    rw [this, ← h4, leBytes_leNat]
  · have h8 : b.length = 8 := h
    have := leNat_lt b
    rw [h8] at this
    have : (UInt64.ofNat (leNat b)).toNat = leNat b := by rw [UInt64.toNat_ofNat']; omega
    show leBytes 8 (UInt64.ofNat (leNat b)).toNat = b
    rw [this, ← h8, leBytes_leNat]
  · have h8 : b.length = 8 := h
    have := leNat_lt b
    rw [h8] at this
    have : (UInt64.ofNat (leNat b)).toNat = leNat b := by rw [UInt64.toNat_ofNat']; omega
    show leBytes 8 (UInt64.ofNat (leNat b)).toNat = b
    rw [this, ← h8, leBytes_leNat]

theorem swapBytes_bytes (hα : EveryPattern α) (x : α) : Element.bytes (swapBytes x) = (Element.bytes x).reverse :=
  hα _ (by rw [List.length_reverse, Element.bytes_length])

theorem blocks_eq {β : Type} [Element β] (bs bs' : List (Nat × Bytes))
    (h : Matched (BlockAlike (fun (x : α) (y : β) => Element.bytes x = Element.bytes y) Element.bytes Element.bytes) bs bs') :
    bs = bs' := by
  refine Matched.eq _ _ (h.mono ?_)
  rintro ⟨i, x⟩ ⟨j, y⟩ ⟨h1, a, vs, ws, c, h2, h3, h4⟩
  have : vs.flatMap Element.bytes = ws.flatMap Element.bytes :=
    Matched.induct (P := fun (vs : List α) (ws : List β) => vs.flatMap Element.bytes = ws.flatMap Element.bytes) rfl
      (fun x y xs ys h _ ih => by rw [List.flatMap_cons, List.flatMap_cons, h, ih]) vs ws h2
  simp only at h1 h3 h4
  rw [h1, h3, h4, this]

/-- C101, exactly: a big endian machine writes for a column the blocks that a little endian machine writes for the column in which
the bytes of every value are the other way round, and fails when that one does. -/
theorem C101_byte_order_exact (hα : EveryPattern α) (p : Profile) (nullable : Bool) (m : Nat)
    (bufs : List (List (Option α))) (bs) (hb : buildAll nullable (bufs.map (List.map (Option.map swapBytes))) = .ok bs) :
    ∃ bs' r e e' blocks, buildAll nullable (onBigEndian bufs) = .ok bs' ∧
      encodeColumn p recorder bs (Encoder.new m nullable, []) = (r, (e, blocks)) ∧
      encodeColumn p recorder bs' (Encoder.new m nullable, []) = (r, (e', blocks)) := by
  obtain ⟨bs', r, e, e', blocks, blocks', h1, h2, h3, h4, -⟩ :=
    C100_primitive_alike (α := α) (β := BigEndian α) (R := fun x y => Element.bytes x = Element.bytes y) rfl p nullable m _
      (onBigEndian bufs) (.map_both (fun rows => .map_both (fun x => by
        cases x with
        | none => trivial
        | some x => exact swapBytes_bytes hα x) rows) bufs) bs hb
  rw [← blocks_eq _ _ h4] at h3
  exact ⟨bs', r, e, e', blocks, h1, h2, h3⟩

/-- C101, block by block: the machines write blocks in the same number, with the same row ids and lengths, and two of them are the
same if and only if every value in them has the same bytes read from either end. -/
theorem C101_byte_order_blocks (p : Profile) (nullable : Bool) (m : Nat) (bufs : List (List (Option α))) (bs)
    (hb : buildAll nullable bufs = .ok bs) :
    ∃ bs' r e e' blocks blocks', buildAll nullable (onBigEndian bufs) = .ok bs' ∧
      encodeColumn p recorder bs (Encoder.new m nullable, []) = (r, (e, blocks)) ∧
      encodeColumn p recorder bs' (Encoder.new m nullable, []) = (r, (e', blocks')) ∧
      Matched (fun x y => x.1 = y.1 ∧ ∃ (before : Bytes) (vals : List α) (after : Bytes),
        x.2 = before ++ vals.flatMap Element.bytes ++ after ∧
        y.2 = before ++ vals.flatMap (fun v => (Element.bytes v).reverse) ++ after ∧
        (x.2 = y.2 ↔ ∀ v ∈ vals, (Element.bytes v).reverse = Element.bytes v)) blocks blocks' := by
  obtain ⟨bs', r, e, e', blocks, blocks', h1, h2, h3, h4, -⟩ :=
    C100_primitive_alike (α := α) (β := BigEndian α) (R := fun x y => y.val = x) rfl p nullable m bufs
      (onBigEndian bufs) (by
        refine .map_right fun rows => .map_right fun x => ?_
        cases x with
        | none => trivial
        | some x => rfl) bs hb
  refine ⟨bs', r, e, e', blocks, blocks', h1, h2, h3, h4.mono ?_⟩
  rintro ⟨i, x⟩ ⟨j, y⟩ ⟨g1, a, vs, ws, c, g2, g3, g4⟩
  have hw : ws.flatMap Element.bytes = vs.flatMap (fun v => (Element.bytes v).reverse) :=
    Matched.induct (P := fun (vs : List α) (ws : List (BigEndian α)) =>
      ws.flatMap Element.bytes = vs.flatMap (fun v => (Element.bytes v).reverse)) rfl
      (fun x y xs ys h _ ih => by rw [List.flatMap_cons, List.flatMap_cons, ih, ← h]; rfl) vs ws g2
  simp only at g1 g3 g4
  rw [hw] at g4
  refine ⟨g1, a, vs, c, g3, g4, ?_⟩
  simp only [g3, g4, List.append_cancel_right_eq, List.append_cancel_left_eq]
  clear g2 g3 g4 hw
  induction vs with
  | nil => simp
  | cons v vs ih =>
    simp only [List.flatMap_cons, List.forall_mem_cons]
    rw [← ih]
    constructor
    · intro h
      obtain ⟨h1, h2⟩ := List.append_inj h (by simp)
      exact ⟨h1.symm, h2⟩
    · rintro ⟨h1, h2⟩
      rw [h1, h2]

/-- C101 as far as it holds: the blocks are the same if every value has the same bytes read from either end. -/
theorem C101_byte_order_partial (p : Profile) (nullable : Bool) (m : Nat) (bufs : List (List (Option α)))
    (hsame : ∀ rows ∈ bufs, ∀ v, some v ∈ rows → (Element.bytes v).reverse = Element.bytes v) (bs)
    (hb : buildAll nullable bufs = .ok bs) :
    ∃ bs' r e e' blocks, buildAll nullable (onBigEndian bufs) = .ok bs' ∧
      encodeColumn p recorder bs (Encoder.new m nullable, []) = (r, (e, blocks)) ∧
      encodeColumn p recorder bs' (Encoder.new m nullable, []) = (r, (e', blocks)) := by
  have hal : Matched (Matched (RowAlike fun (x : α) (y : BigEndian α) => Element.bytes x = Element.bytes y)) bufs (onBigEndian bufs) := by
    clear hb
    induction bufs with
    | nil => exact .nil
    | cons rows bufs ih =>
      refine .cons ?_ (ih fun r hr => hsame r (List.mem_cons_of_mem _ hr))
      have hrows := hsame rows (List.mem_cons_self ..)
      clear ih hsame
      induction rows with
      | nil => exact .nil
      | cons x rows ih =>
        refine .cons ?_ (ih fun v hv => hrows v (List.mem_cons_of_mem _ hv))
        cases x with
        | none => trivial
        | some v => exact (hrows v (List.mem_cons_self ..)).symm
  obtain ⟨bs', r, e, e', blocks, blocks', h1, h2, h3, h4, -⟩ := 
    C100_primitive_alike (α := α) (β := BigEndian α) rfl p nullable m _ _ hal bs hb
  rw [← blocks_eq _ _ h4] at h3
  exact ⟨bs', r, e, e', blocks, h1, h2, h3⟩

end

/-- C101 is false of the code: the number 1 is written as `4 1 0 0 0` on one machine and as `4 0 0 0 1` on the other, and what
the second has written is read by the first as 16777216. -/
theorem C101_byte_order_violated (p q : Profile) :
    ∃ bs bs', buildAll false [[some (1 : Int32)]] = .ok bs ∧ buildAll false (onBigEndian [[some (1 : Int32)]]) = .ok bs' ∧
      (PrimitiveEnc.encodeColumn p recorder bs (PrimitiveEnc.Encoder.new 128 false, [])).2.2 = [(0, [4, 1, 0, 0, 0])] ∧
      (PrimitiveEnc.encodeColumn p recorder bs' (PrimitiveEnc.Encoder.new 128 false, [])).2.2 = [(0, [4, 0, 0, 0, 1])] ∧
      readPrimitive q false [4, 0, 0, 0, 1] = some [some (16777216 : Int32)] :=
  ⟨_, _, rfl, rfl, by cases p <;> decide +kernel, by cases p <;> decide +kernel, by cases q <;> decide +kernel⟩

/-! Not vacuous: the values 0, -1 and 257 * 65537 have the same bytes from either end. -/
example : ∀ v ∈ [(0 : Int32), -1, 16843009], (Element.bytes v).reverse = Element.bytes v := by decide
example : swapBytes (1 : Int32) = 16777216 ∧ swapBytes (16777216 : Int32) = 1 := by decide

end Meerkat
