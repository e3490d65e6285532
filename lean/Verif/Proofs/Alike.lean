import Verif.Spec.Alike
import Verif.Proofs.EncoderHistory
import Verif.Proofs.Unwind

set_option autoImplicit false

/-! # Two encoders that hold different values in the same places do the same -/

namespace Meerkat
open Spec

namespace Spec.Matched
variable {α β : Type} {R : α → β → Prop}

theorem nil : Matched R [] [] := ⟨rfl, by simp⟩

theorem append {xs xs' : List α} {ys ys' : List β} (h : Matched R xs ys) (h' : Matched R xs' ys') :
    Matched R (xs ++ xs') (ys ++ ys') := by
  refine ⟨by simp [h.1, h'.1], fun i x y hx hy => ?_⟩
  by_cases hi : i < xs.length
  · rw [List.getElem?_append_left hi] at hx
    rw [List.getElem?_append_left (h.1 ▸ hi)] at hy
    exact h.2 i x y hx hy
  · rw [List.getElem?_append_right (by omega)] at hx
    rw [List.getElem?_append_right (by rw [← h.1]; omega), ← h.1] at hy
    exact h'.2 _ x y hx hy

theorem single {x : α} {y : β} (h : R x y) : Matched R [x] [y] := by
  refine ⟨rfl, fun i a b ha hb => ?_⟩
  cases i with
  | zero => simp at ha hb; subst ha hb; exact h
  | succ i => simp at ha

theorem cons {x : α} {y : β} {xs : List α} {ys : List β} (h : R x y) (h' : Matched R xs ys) :
    Matched R (x :: xs) (y :: ys) := append (single h) h'

theorem cons_inv {x : α} {y : β} {xs : List α} {ys : List β} (h : Matched R (x :: xs) (y :: ys)) :
    R x y ∧ Matched R xs ys :=
  ⟨h.2 0 x y rfl rfl, by simpa using h.1, fun i a b ha hb => h.2 (i + 1) a b (by simpa using ha) (by simpa using hb)⟩

theorem drop {xs : List α} {ys : List β} (h : Matched R xs ys) (n : Nat) : Matched R (xs.drop n) (ys.drop n) :=
  ⟨by simp [h.1], fun i x y hx hy => h.2 (n + i) x y (by simpa using hx) (by simpa using hy)⟩

theorem take {xs : List α} {ys : List β} (h : Matched R xs ys) (n : Nat) : Matched R (xs.take n) (ys.take n) := by
  refine ⟨by simp [h.1], fun i x y hx hy => ?_⟩
  rw [List.getElem?_take] at hx hy
  split at hx
  · rename_i hi
    rw [if_pos hi] at hy
    exact h.2 i x y hx hy
  · cases hx

theorem induct {P : List α → List β → Prop} (hnil : P [] [])
    (hcons : ∀ x y xs ys, R x y → Matched R xs ys → P xs ys → P (x :: xs) (y :: ys)) :
    ∀ (xs : List α) (ys : List β), Matched R xs ys → P xs ys
  | [], [], _ => hnil
  | x :: xs, y :: ys, h =>
    hcons x y xs ys (cons_inv h).1 (cons_inv h).2 (induct hnil hcons xs ys (cons_inv h).2)
  | [], _ :: _, h => by cases h.1
  | _ :: _, [], h => by cases h.1

theorem mono {Q : α → β → Prop} {xs : List α} {ys : List β} (h : Matched R xs ys) (hQ : ∀ x y, R x y → Q x y) :
    Matched Q xs ys := ⟨h.1, fun i x y hx hy => hQ _ _ (h.2 i x y hx hy)⟩

theorem map_right {xs : List α} {f : α → β} (h : ∀ x, R x (f x)) : Matched R xs (xs.map f) := by
  induction xs with
  | nil => exact nil
  | cons x xs ih => exact cons (h x) ih

end Spec.Matched

/-- The same failure, or related results. -/
inductive ResR {ε γ δ : Type} (Q : γ → δ → Prop) : Except ε γ → Except ε δ → Prop
  | ok {a : γ} {b : δ} (h : Q a b) : ResR Q (.ok a) (.ok b)
  | error (x : ε) : ResR Q (.error x) (.error x)

namespace ResR
variable {ε γ δ γ' δ' : Type} {Q : γ → δ → Prop} {Q' : γ' → δ' → Prop}

theorem refl (r : Except ε γ) : ResR Eq r r := by
  cases r with
  | ok a => exact .ok rfl
  | error x => exact .error x

theorem of_eq {r r' : Except ε γ} (h : r = r') : ResR Eq r r' := h ▸ refl r

theorem to_eq {r r' : Except ε γ} (h : ResR Eq r r') : r = r' := by
  cases h with
  | ok h => rw [h]
  | error => rfl

theorem bind {r : Except ε γ} {s : Except ε δ} {f : γ → Except ε γ'} {g : δ → Except ε δ'} (h : ResR Q r s)
    (hf : ∀ a b, Q a b → ResR Q' (f a) (g b)) : ResR Q' (r >>= f) (s >>= g) := by
  cases h with
  | ok h => exact hf _ _ h
  | error x => exact .error x

theorem slice {α β : Type} {R : α → β → Prop} {xs : List α} {ys : List β} (h : Matched R xs ys) (i j : Nat) :
    ResR (Matched R) (slice xs i j) (slice ys i j) := by
  unfold Meerkat.slice
  rw [h.1]
  split
  · exact .ok ((h.drop i).take _)
  · exact .error _

end ResR

/-- Calls that take related states to related states, with related results. -/
def RunR {σ τ γ δ : Type} (R : σ → τ → Prop) (Q : γ → δ → Prop) (m : Run σ γ) (m' : Run τ δ) : Prop :=
  ∀ s t, R s t → ResR Q (m s).1 (m' t).1 ∧ R (m s).2 (m' t).2

namespace RunR
variable {σ τ γ δ γ' δ' : Type} {R : σ → τ → Prop} {Q : γ → δ → Prop} {Q' : γ' → δ' → Prop}

theorem pure {a : γ} {b : δ} (h : Q a b) : RunR R Q (Pure.pure a) (Pure.pure b) := fun _ _ hR => ⟨.ok h, hR⟩

theorem bind {m : Run σ γ} {m' : Run τ δ} {f : γ → Run σ γ'} {f' : δ → Run τ δ'} (h : RunR R Q m m')
    (hf : ∀ a b, Q a b → RunR R Q' (f a) (f' b)) : RunR R Q' (m >>= f) (m' >>= f') := by
  intro s t hR
  obtain ⟨h1, h2⟩ := h s t hR
  rw [Run.bind_apply, Run.bind_apply]
  rcases hm : m s with ⟨r, s1⟩
  rcases hm' : m' t with ⟨r', t1⟩
  rw [hm, hm'] at h1 h2
  cases h1 with
  | ok h => exact hf _ _ h s1 t1 h2
  | error x => exact ⟨.error x, h2⟩

theorem lift {r : Res γ} {r' : Res δ} {left : σ → σ} {left' : τ → τ} (h : ResR Q r r')
    (hl : ∀ s t, R s t → R (left s) (left' t)) : RunR R Q (Run.lift r left) (Run.lift r' left') := by
  intro s t hR
  cases h with
  | ok h => exact ⟨.ok h, hR⟩
  | error x => exact ⟨.error _, hl s t hR⟩

theorem lift_id {r : Res γ} {r' : Res δ} (h : ResR Q r r') : RunR R Q (Run.lift r) (Run.lift r') :=
  lift h fun _ _ h => h

end RunR

section
variable {E F : Type} {RE : E → F → Prop} {B : Nat × Bytes → Nat × Bytes → Prop}

/-- An encoder and the blocks it has given to a recording sink. -/
def Both (RE : E → F → Prop) (B : Nat × Bytes → Nat × Bytes → Prop) (s : E × List (Nat × Bytes))
    (t : F × List (Nat × Bytes)) : Prop := RE s.1 t.1 ∧ Matched B s.2 t.2

theorem RunR.get : RunR (Both RE B) RE Run.get Run.get := fun _ _ h => ⟨.ok h.1, h⟩

theorem RunR.set {e : E} {e' : F} (h : RE e e') : RunR (Both RE B) Eq (Run.set e) (Run.set e') :=
  fun _ _ hR => ⟨.ok rfl, h, hR.2⟩

theorem RunR.emit {id id' : Nat} {d d' : Bytes} (h : B (id, d) (id', d')) :
    RunR (Both RE B) Eq (Run.emit recorder id d) (Run.emit recorder id' d') :=
  fun _ _ hR => ⟨.ok rfl, hR.1, hR.2.append (.single h)⟩

end

/-! ## Primitive buffers and encoders -/

namespace PrimitiveEnc
variable {α β : Type} [Element α] [Element β] {R : α → β → Prop}

/-- Buffers with related values and the same validity. -/
structure BufR (R : α → β → Prop) (b : PrimitiveBuffer α) (b' : PrimitiveBuffer β) : Prop where
  values : Matched R b.values b'.values
  validity : b.validity = b'.validity

structure EncR (R : α → β → Prop) (e : Encoder α) (e' : Encoder β) : Prop where
  remaining : BufR R e.remaining e'.remaining
  bitmap : e.bitmapEncoder = e'.bitmapEncoder
  size : e.minBlockSize = e'.minBlockSize
  rows : e.numRows = e'.numRows

abbrev BlockR (R : α → β → Prop) := BlockAlike R (Element.bytes (α := α)) (Element.bytes (α := β))

omit [Element α] [Element β] in
theorem BufR.len {b : PrimitiveBuffer α} {b' : PrimitiveBuffer β} (h : BufR R b b') : b.len = b'.len := h.values.1

theorem chunk_alike (hs : Element.size α = Element.size β) (p : Profile) {b : PrimitiveBuffer α} {b' : PrimitiveBuffer β}
    (h : BufR R b b') (start m : Nat) : chunk p b start m = chunk p b' start m := by
  simp only [chunk, hs, h.len]

omit [Element α] [Element β] in
theorem appendFrom_alike {b c : PrimitiveBuffer α} {b' c' : PrimitiveBuffer β} (h : BufR R b b') (hc : BufR R c c')
    (i j pos : Nat) : ResR (fun x y => BufR R x.1 y.1 ∧ x.2 = y.2) (b.appendFrom c i j pos) (b'.appendFrom c' i j pos) := by
  refine .bind (.slice hc.values i j) fun a a' ha => ?_
  have hv := h.values.append ha
  simp only
  rw [hv.1]
  split
  · rw [h.validity, hc.validity]
    refine .bind (.refl _) fun x y hxy => ?_
    subst hxy
    exact .ok ⟨⟨hv, rfl⟩, rfl⟩
  · exact .error _

omit [Element α] [Element β] in
theorem appendFromLeft_alike {b c : PrimitiveBuffer α} {b' c' : PrimitiveBuffer β} (h : BufR R b b') (hc : BufR R c c')
    (i j pos : Nat) : BufR R (b.appendFromLeft c i j pos) (b'.appendFromLeft c' i j pos) := by
  simp only [PrimitiveBuffer.appendFromLeft, PrimitiveBuffer.appendFromRun]
  have hsl := ResR.slice hc.values i j
  revert hsl
  generalize slice c.values i j = x
  generalize slice c'.values i j = y
  intro hsl
  cases hsl with
  | error x => exact h
  | ok ha =>
    have hv := h.values.append ha
    simp only
    rw [hv.1]
    split
    · exact ⟨hv, by rw [h.validity, hc.validity]⟩
    · exact ⟨hv, h.validity⟩

theorem encodePrimitiveBuffer_alike (hs : Element.size α = Element.size β) (p : Profile) {b : PrimitiveBuffer α}
    {b' : PrimitiveBuffer β} (h : BufR R b b') (i j pos : Nat) (be : Rle.Encoder) :
    ResR (fun x y => x.1 = y.1 ∧ x.2.2 = y.2.2 ∧ ∀ id, BlockR R (id, x.2.1) (id, y.2.1))
      (encodePrimitiveBuffer p b i j pos be) (encodePrimitiveBuffer p b' i j pos be) := by
  simp only [encodePrimitiveBuffer, hs]
  refine .bind (.refl _) fun n n' hn => ?_
  subst hn
  refine .bind (.refl _) fun d d' hd => ?_
  subst hd
  refine .bind (.slice h.values i j) fun a a' ha => ?_
  rw [h.validity]
  refine .bind (.refl _) fun x y hxy => ?_
  subst hxy
  exact .ok ⟨rfl, rfl, fun id => ⟨rfl, d, a, a', x.2.1, ha, rfl, rfl⟩⟩

abbrev States (R : α → β → Prop) := Both (EncR R) (BlockR R)

theorem writeRange_alike (hs : Element.size α = Element.size β) (p : Profile) {b : PrimitiveBuffer α}
    {b' : PrimitiveBuffer β} (h : BufR R b b') (i j pos : Nat) :
    RunR (States R) Eq (writeRange p recorder b i j pos) (writeRange p recorder b' i j pos) := by
  refine .bind .get fun e e' he => ?_
  rw [he.bitmap]
  refine .bind (.lift_id (encodePrimitiveBuffer_alike hs p h i j pos _)) fun x y hxy => ?_
  obtain ⟨r, d, be⟩ := x
  obtain ⟨r', d', be'⟩ := y
  obtain ⟨h1, h2, h3⟩ := hxy
  simp only at h1 h2 h3
  subst h1 h2
  refine .bind (.set ⟨he.remaining, rfl, he.size, he.rows⟩) fun _ _ _ => ?_
  rw [he.rows]
  refine .bind (.lift_id (.refl _)) fun n n' hn => ?_
  subst hn
  refine .bind (.set ⟨he.remaining, rfl, he.size, rfl⟩) fun _ _ _ => ?_
  refine .bind (.lift_id (.refl _)) fun id id' hid => ?_
  subst hid
  exact .bind (.emit (h3 _)) fun _ _ _ => .pure rfl

theorem leaving_alike {rem : PrimitiveBuffer α} {rem' : PrimitiveBuffer β} (h : BufR R rem rem') :
    ∀ s t, States R s t → States R (leaving rem s) (leaving rem' t) :=
  fun _ _ hR => ⟨⟨h, hR.1.bitmap, hR.1.size, hR.1.rows⟩, hR.2⟩

theorem encodeLoop_alike (hs : Element.size α = Element.size β) (p : Profile) {b : PrimitiveBuffer α}
    {b' : PrimitiveBuffer β} (h : BufR R b b') (fuel : Nat) : ∀ (bp vp : Nat),
    RunR (States R) Eq (encodeLoop p recorder b fuel bp vp) (encodeLoop p recorder b' fuel bp vp) := by
  induction fuel with
  | zero => intro bp vp; exact .lift_id (.error _)
  | succ fuel ih =>
    intro bp vp
    rw [encodeLoop, encodeLoop, h.len]
    split
    · refine .bind .get fun e e' he => ?_
      rw [chunk_alike hs p h, he.size]
      refine .bind (.lift_id (.refl _)) fun c c' hc => ?_
      subst hc
      refine .bind (.lift_id (.refl _)) fun n n' hn => ?_
      subst hn
      simp only [hs]
      split
      · refine .bind (.lift (appendFrom_alike he.remaining h _ _ _)
          (leaving_alike (appendFromLeft_alike he.remaining h _ _ _))) fun x y hxy => ?_
        exact .set ⟨hxy.1, he.bitmap, rfl, he.rows⟩
      · refine .bind (writeRange_alike hs p h _ _ _) fun x y hxy => ?_
        subst hxy
        exact ih _ _
    · exact .pure rfl

theorem writeRemaining_alike (hs : Element.size α = Element.size β) (p : Profile) :
    RunR (States R) Eq (writeRemaining (α := α) p recorder) (writeRemaining (α := β) p recorder) := by
  refine .bind .get fun e e' he => ?_
  rw [he.remaining.len]
  exact writeRange_alike hs p he.remaining _ _ _

omit [Element α] [Element β] in
theorem BufR.clear {b : PrimitiveBuffer α} {b' : PrimitiveBuffer β} (h : BufR R b b') : BufR R b.clear b'.clear :=
  ⟨.nil, by simp only [PrimitiveBuffer.clear, h.validity]⟩

theorem encode_alike (hs : Element.size α = Element.size β) (p : Profile) {b : PrimitiveBuffer α}
    {b' : PrimitiveBuffer β} (h : BufR R b b') : RunR (States R) Eq (encode p recorder b) (encode p recorder b') := by
  simp only [encode, h.len]
  refine .bind .get fun e e' he => ?_
  rw [he.remaining.len, hs, he.size]
  split
  · refine .bind (.lift_id (.refl _)) fun n n' hn => ?_
    subst hn
    rw [chunk_alike hs p h]
    refine .bind (.lift_id (.refl _)) fun c c' hc => ?_
    subst hc
    refine .bind (.lift (appendFrom_alike he.remaining h _ _ _)
      (leaving_alike (appendFromLeft_alike he.remaining h _ _ _))) fun x y hxy => ?_
    obtain ⟨x, vp⟩ := x
    obtain ⟨y, vp'⟩ := y
    obtain ⟨h1, h2⟩ := hxy
    simp only at h1 h2
    subst h2
    refine .bind (.set ⟨h1, he.bitmap, rfl, he.rows⟩) fun _ _ _ => ?_
    simp only
    rw [h1.len]
    split
    · exact .pure rfl
    · refine .bind (writeRemaining_alike hs p) fun _ _ _ => .bind .get fun e2 e2' he2 => ?_
      exact .bind (.set ⟨he2.remaining.clear, he2.bitmap, he2.size, he2.rows⟩) fun _ _ _ => encodeLoop_alike hs p h _ _ _
  · exact encodeLoop_alike hs p h _ _ _

theorem flush_alike (hs : Element.size α = Element.size β) (p : Profile) :
    RunR (States R) Eq (flush (α := α) p recorder) (flush (α := β) p recorder) := by
  refine .bind .get fun e e' he => ?_
  rw [he.remaining.len]
  split
  · exact .bind (writeRemaining_alike hs p) fun _ _ _ => .pure rfl
  · exact .pure rfl

theorem encodeColumn_alike (hs : Element.size α = Element.size β) (p : Profile) {bs : List (PrimitiveBuffer α)}
    {bs' : List (PrimitiveBuffer β)} (h : Matched (BufR R) bs bs') :
    RunR (States R) Eq (encodeColumn p recorder bs) (encodeColumn p recorder bs') := by
  refine .bind (Q := Eq) ?_ fun _ _ _ => flush_alike hs p
  revert h
  refine Matched.induct (P := fun bs bs' => RunR (States R) Eq (encodeAll p recorder bs) (encodeAll p recorder bs')) ?_ ?_ bs bs'
  · exact .pure rfl
  · intro x y xs ys hxy _ ih
    exact .bind (encode_alike hs p hxy) fun _ _ _ => ih

end PrimitiveEnc

/-! ## Binary buffers and encoders -/

theorem resize_append {α : Type} (a c : List α) (k : Nat) (x : α) :
    resize (a ++ c) (a.length + k) x = a ++ resize c k x := by
  rw [resize, resize, List.take_append, List.take_of_length_le (by omega), Nat.add_sub_cancel_left, List.append_assoc,
    List.length_append, Nat.add_sub_add_left]

/-- What the offset encoder appends does not depend on what is there before. -/
theorem Offsets.encode_anywhere (p : Profile) (xs : List Nat) :
    (∃ x, ∀ dst, encode p xs dst = .error x) ∨ ∃ src added, ∀ dst, encode p xs dst = .ok (src, dst ++ added) := by
  simp only [encode]
  rcases Util.roundUptoPowerOf2 p xs.length BLOCK_LEN with x | r
  · exact .inl ⟨x, fun _ => rfl⟩
  simp only [ok_bind]
  rcases hn : numBits (resize xs r 0) with x | b
  · exact .inl ⟨x, fun _ => rfl⟩
  have hl : (resize xs r 0).length = 128 := by
    rw [numBits] at hn
    split at hn
    · assumption
    · cases hn
  have hr : r = 128 := by simpa using hl
  subst hr
  have hc : Util.ceil8 (b * 128) = 16 * b := by rw [Util.ceil8_eq]; omega
  refine .inr ⟨resize xs 128 0, UInt8.ofNat b :: resize (pack b (resize xs 128 0)) (Util.ceil8 (b * xs.length)) 0, fun dst => ?_⟩
  simp only [ok_bind, chunks_one _ hl, compressChunks, compress, hc]
  have hz : resize (dst ++ [UInt8.ofNat b]) ((dst ++ [UInt8.ofNat b]).length + 16 * b) 0 =
      (dst ++ [UInt8.ofNat b]) ++ List.replicate (16 * b) 0 := by
    rw [resize, List.take_of_length_le (by omega), Nat.add_sub_cancel_left]
  rw [hz, if_pos (by simp), if_pos ⟨hl, by simp; omega⟩]
  simp only [ok_bind, pure_eq_ok]
  rw [List.take_left, List.drop_of_length_le (by simp; omega), List.append_nil, resize_append]
  simp

namespace BinaryEnc

/-- Buffers with the same offsets and validity and as many bytes. -/
structure BufR (b b' : BinaryBuffer) : Prop where
  data : Matched (fun _ _ => True) b.data b'.data
  offsets : b.offsets = b'.offsets
  validity : b.validity = b'.validity

structure EncR (e e' : Encoder) : Prop where
  remaining : BufR e.remaining e'.remaining
  bitmap : e.bitmapEncoder = e'.bitmapEncoder
  size : e.minBlockSize = e'.minBlockSize
  rows : e.numRows = e'.numRows

abbrev BlockR := BlockAlike (fun _ _ : Byte => True) (fun x => [x]) (fun x => [x])

theorem BufR.len {b b' : BinaryBuffer} (h : BufR b b') : b.len = b'.len := by
  simp only [BinaryBuffer.len, h.offsets]

theorem itemLen_alike (p : Profile) {b b' : BinaryBuffer} (h : BufR b b') (i : Nat) : b.itemLen p i = b'.itemLen p i := by
  simp only [BinaryBuffer.itemLen, h.offsets]

theorem itemLens_alike (p : Profile) {b b' : BinaryBuffer} (h : BufR b b') (k : Nat) : ∀ i,
    itemLens p b k i = itemLens p b' k i := by
  induction k with
  | zero => intro i; rfl
  | succ k ih => intro i; simp only [itemLens, itemLen_alike p h, ih]

theorem appendFromOffsets_alike (p : Profile) {b b' : BinaryBuffer} (h : BufR b b') (k : Nat) : ∀ i last,
    b.appendFromOffsets p k i last = b'.appendFromOffsets p k i last := by
  induction k with
  | zero => intro i last; rfl
  | succ k ih => intro i last; simp only [BinaryBuffer.appendFromOffsets, itemLen_alike p h, ih]

theorem appendFromOffsetsRun_alike (p : Profile) {b b' : BinaryBuffer} (h : BufR b b') (k : Nat) : ∀ i last os,
    b.appendFromOffsetsRun p k i last os = b'.appendFromOffsetsRun p k i last os := by
  induction k with
  | zero => intro i last os; rfl
  | succ k ih => intro i last os; simp only [BinaryBuffer.appendFromOffsetsRun, itemLen_alike p h, ih]

theorem chunk_alike (p : Profile) {b b' : BinaryBuffer} (h : BufR b b') (start m : Nat) :
    chunk p b start m = chunk p b' start m := by
  simp only [chunk, chunkEnd, h.offsets]

theorem wholeChunk_alike {b b' : BinaryBuffer} (h : BufR b b') : wholeChunk b = wholeChunk b' := by
  simp only [wholeChunk, h.offsets, h.len]

theorem appendFrom_alike (p : Profile) {b c b' c' : BinaryBuffer} (h : BufR b b') (hc : BufR c c')
    (i j pos : Nat) : ResR (fun x y => BufR x.1 y.1 ∧ x.2 = y.2) (b.appendFrom p c i j pos) (b'.appendFrom p c' i j pos) := by
  simp only [BinaryBuffer.appendFrom, h.offsets, hc.offsets, appendFromOffsets_alike p hc]
  refine .bind (.refl _) fun o o' ho => ?_
  subst ho
  refine .bind (.refl _) fun q q' hq => ?_
  subst hq
  refine .bind (.refl _) fun n n' hn => ?_
  subst hn
  refine .bind (.refl _) fun os os' hos => ?_
  subst hos
  refine .bind (.slice hc.data _ _) fun a a' ha => ?_
  have hv := h.data.append ha
  rw [hv.1]
  split
  · rw [h.validity, hc.validity]
    refine .bind (.refl _) fun x y hxy => ?_
    subst hxy
    exact .ok ⟨⟨hv, rfl, rfl⟩, rfl⟩
  · exact .error _

theorem appendFromLeft_alike (p : Profile) {b c b' c' : BinaryBuffer} (h : BufR b b') (hc : BufR c c')
    (i j pos : Nat) : BufR (b.appendFromLeft p c i j pos) (b'.appendFromLeft p c' i j pos) := by
  simp only [BinaryBuffer.appendFromLeft, BinaryBuffer.appendFromRun, h.offsets, hc.offsets, appendFromOffsetsRun_alike p hc]
  rcases index c'.offsets i with x | o
  · exact h
  rcases index c'.offsets j with x | q
  · exact h
  rcases p.sub 64 j i with x | n
  · exact h
  simp only
  rcases c'.appendFromOffsetsRun p (j - i) i (b'.offsets.getLast?.getD 0) b'.offsets with ⟨x | u, os⟩
  · exact ⟨h.data, rfl, h.validity⟩
  simp only
  have hsl := ResR.slice hc.data o q
  revert hsl
  generalize slice c.data o q = x
  generalize slice c'.data o q = y
  intro hsl
  cases hsl with
  | error x => exact ⟨h.data, rfl, h.validity⟩
  | ok ha =>
    have hv := h.data.append ha
    simp only
    rw [hv.1]
    split
    · exact ⟨hv, rfl, by rw [h.validity, hc.validity]⟩
    · exact ⟨hv, rfl, h.validity⟩

theorem encodeBinaryBuffer_alike (p : Profile) {b b' : BinaryBuffer} (h : BufR b b') (c : BinaryChunk) (pos : Nat)
    (be : Rle.Encoder) :
    ResR (fun x y => x.result = y.result ∧ x.bitmapEncoder = y.bitmapEncoder ∧ ∀ id, BlockR (id, x.data) (id, y.data))
      (encodeBinaryBuffer p b c pos be) (encodeBinaryBuffer p b' c pos be) := by
  simp only [encodeBinaryBuffer, itemLens_alike p h]
  refine .bind (.refl _) fun d d' hd => ?_
  subst hd
  refine .bind (.slice h.data _ _) fun a a' ha => ?_
  refine .bind (.refl _) fun ls ls' hls => ?_
  subst hls
  rcases Offsets.encode_anywhere p ls with ⟨x, hx⟩ | ⟨src, added, hx⟩
  · rw [hx, hx]
    exact .error x
  · rw [hx, hx, h.validity]
    simp only [ok_bind]
    refine .bind (.refl _) fun x y hxy => ?_
    subst hxy
    exact .ok ⟨rfl, rfl, fun id => ⟨rfl, d, a, a', added ++ x.2.1, ha, by simp, by simp⟩⟩

abbrev States := Both EncR BlockR

theorem writeBlock_alike (p : Profile) {b b' : BinaryBuffer} (h : BufR b b') (c : BinaryChunk) (pos : Nat) :
    RunR States Eq (writeBlock p recorder b c pos) (writeBlock p recorder b' c pos) := by
  refine .bind .get fun e e' he => ?_
  rw [he.bitmap]
  refine .bind (.lift_id (encodeBinaryBuffer_alike p h c pos _)) fun x y hxy => ?_
  obtain ⟨r, d, ds, be⟩ := x
  obtain ⟨r', d', ds', be'⟩ := y
  obtain ⟨h1, h2, h3⟩ := hxy
  simp only at h1 h2 h3
  subst h1 h2
  refine .bind (.set ⟨he.remaining, rfl, he.size, he.rows⟩) fun _ _ _ => ?_
  rw [he.rows]
  refine .bind (.lift_id (.refl _)) fun n n' hn => ?_
  subst hn
  refine .bind (.set ⟨he.remaining, rfl, he.size, rfl⟩) fun _ _ _ => ?_
  refine .bind (.lift_id (.refl _)) fun id id' hid => ?_
  subst hid
  exact .bind (.emit (h3 _)) fun _ _ _ => .pure rfl

theorem leaving_alike {rem rem' : BinaryBuffer} (h : BufR rem rem') :
    ∀ s t, States s t → States (leaving rem s) (leaving rem' t) :=
  fun _ _ hR => ⟨⟨h, hR.1.bitmap, hR.1.size, hR.1.rows⟩, hR.2⟩

theorem encodeLoop_alike (p : Profile) {b b' : BinaryBuffer} (h : BufR b b') (fuel : Nat) : ∀ (bp vp : Nat),
    RunR States Eq (encodeLoop p recorder b fuel bp vp) (encodeLoop p recorder b' fuel bp vp) := by
  induction fuel with
  | zero => intro bp vp; exact .lift_id (.error _)
  | succ fuel ih =>
    intro bp vp
    rw [encodeLoop, encodeLoop, h.offsets]
    split
    · refine .bind .get fun e e' he => ?_
      rw [chunk_alike p h, he.size]
      refine .bind (.lift_id (.refl _)) fun c c' hc => ?_
      subst hc
      split
      · refine .bind (.lift (appendFrom_alike p he.remaining h _ _ _)
          (leaving_alike (appendFromLeft_alike p he.remaining h _ _ _))) fun x y hxy => ?_
        exact .set ⟨hxy.1, he.bitmap, rfl, he.rows⟩
      · refine .bind (writeBlock_alike p h _ _) fun x y hxy => ?_
        subst hxy
        exact ih _ _
    · exact .pure rfl

theorem writeRemaining_alike (p : Profile) : RunR States Eq (writeRemaining p recorder) (writeRemaining p recorder) := by
  refine .bind .get fun e e' he => ?_
  rw [wholeChunk_alike he.remaining]
  refine .bind (.lift_id (.refl _)) fun c c' hc => ?_
  subst hc
  exact writeBlock_alike p he.remaining _ _

theorem BufR.clear {b b' : BinaryBuffer} (h : BufR b b') : BufR b.clear b'.clear :=
  ⟨.nil, by simp only [BinaryBuffer.clear, h.offsets], by simp only [BinaryBuffer.clear, h.validity]⟩

theorem encode_alike (p : Profile) {b b' : BinaryBuffer} (h : BufR b b') :
    RunR States Eq (encode p recorder b) (encode p recorder b') := by
  simp only [encode, h.offsets]
  refine .bind .get fun e e' he => ?_
  rw [he.remaining.len, he.size, he.remaining.data.1]
  split
  · refine .bind (.lift_id (.refl _)) fun n n' hn => ?_
    subst hn
    rw [chunk_alike p h]
    refine .bind (.lift_id (.refl _)) fun c c' hc => ?_
    subst hc
    refine .bind (.lift (appendFrom_alike p he.remaining h _ _ _)
      (leaving_alike (appendFromLeft_alike p he.remaining h _ _ _))) fun x y hxy => ?_
    obtain ⟨x, vp⟩ := x
    obtain ⟨y, vp'⟩ := y
    obtain ⟨h1, h2⟩ := hxy
    simp only at h1 h2
    subst h2
    refine .bind (.set ⟨h1, he.bitmap, rfl, he.rows⟩) fun _ _ _ => ?_
    simp only
    rw [h1.data.1]
    split
    · exact .pure rfl
    · refine .bind (writeRemaining_alike p) fun _ _ _ => .bind .get fun e2 e2' he2 => ?_
      exact .bind (.set ⟨he2.remaining.clear, he2.bitmap, he2.size, he2.rows⟩) fun _ _ _ => encodeLoop_alike p h _ _ _
  · exact encodeLoop_alike p h _ _ _

theorem flush_alike (p : Profile) : RunR States Eq (flush p recorder) (flush p recorder) := by
  refine .bind .get fun e e' he => ?_
  rw [he.remaining.len]
  split
  · exact .bind (writeRemaining_alike p) fun _ _ _ => .pure rfl
  · exact .pure rfl

theorem encodeColumn_alike (p : Profile) {bs bs' : List BinaryBuffer} (h : Matched BufR bs bs') :
    RunR States Eq (encodeColumn p recorder bs) (encodeColumn p recorder bs') := by
  refine .bind (Q := Eq) ?_ fun _ _ _ => flush_alike p
  revert h
  refine Matched.induct (P := fun bs bs' => RunR States Eq (encodeAll p recorder bs) (encodeAll p recorder bs')) ?_ ?_ bs bs'
  · exact .pure rfl
  · intro x y xs ys hxy _ ih
    exact .bind (encode_alike p hxy) fun _ _ _ => ih

end BinaryEnc

end Meerkat
