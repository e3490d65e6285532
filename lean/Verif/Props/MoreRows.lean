import Verif.Props.EncoderSink
import Verif.Props.AppendReturns
import Verif.Props.EmptyBuffer
import Verif.Proofs.Segment
import Verif.Props.WithValidity

set_option autoImplicit false

/-!
# C119: rows added at the end change no block but the last
-/

namespace Meerkat
open Spec

namespace MoreRows

/-! ## Longer inputs -/

/-- What returns normally on the left returns the same on the right. -/
def Sub {γ : Type} (r r' : Res γ) : Prop := ∀ a, r = .ok a → r' = .ok a

theorem Sub.refl {γ : Type} (r : Res γ) : Sub r r := fun _ h => h

theorem Sub.bind {γ δ : Type} {r r' : Res γ} {f f' : γ → Res δ} (h : Sub r r') (hf : ∀ a, Sub (f a) (f' a)) :
    Sub (r >>= f) (r' >>= f') := by
  intro b hb
  obtain ⟨a, h1, h2⟩ := bind_eq_ok hb
  rw [h a h1]
  exact hf a b h2

theorem index_sub {γ : Type} {v v' : List γ} (h : v <+: v') (i : Nat) : Sub (index v i) (index v' i) := by
  obtain ⟨w, rfl⟩ := h
  intro a ha
  simp only [index] at ha ⊢
  cases hi : v[i]? with
  | none => rw [hi] at ha; cases ha
  | some x =>
    rw [hi] at ha
    rw [List.getElem?_append_left (List.getElem?_eq_some_iff.1 hi).1, hi]
    exact ha

theorem slice_sub {γ : Type} {v v' : List γ} (h : v <+: v') (i j : Nat) : Sub (slice v i j) (slice v' i j) := by
  obtain ⟨w, rfl⟩ := h
  intro a ha
  simp only [slice] at ha ⊢
  by_cases hc : i ≤ j ∧ j ≤ v.length
  · rw [if_pos hc] at ha
    rw [if_pos ⟨hc.1, by simp; omega⟩, ← ha, List.drop_append_of_le_length (by omega),
      List.take_append_of_le_length (by simp; omega)]
  · rw [if_neg hc] at ha; cases ha

/-- A bitmap with the same bits and perhaps more of them. -/
def BitsExt (m m' : Bitmap) : Prop := m.len ≤ m'.len ∧ ∀ i < m.len, m'.isSet i = m.isSet i

def ValidityExt : Option Bitmap → Option Bitmap → Prop
  | none, none => True
  | some m, some m' => BitsExt m m'
  | _, _ => False

theorem putFrom_sub {m m' : Bitmap} (h : BitsExt m m') (p : Profile) (n : Nat) : ∀ (e : Rle.Encoder) (pos k : Nat),
    m.len - pos = n → Sub (e.putFromLoop p m pos k) (e.putFromLoop p m' pos k) := by
  induction n with
  | zero =>
    intro e pos k hn
    rw [Rle.Encoder.putFromLoop, Rle.Encoder.putFromLoop]
    by_cases hk : k = 0
    · rw [if_pos hk, if_pos hk]; exact Sub.refl _
    · rw [if_neg hk, dif_neg (by omega)]; intro a ha; cases ha
  | succ n ih =>
    intro e pos k hn
    rw [Rle.Encoder.putFromLoop, Rle.Encoder.putFromLoop]
    by_cases hk : k = 0
    · rw [if_pos hk, if_pos hk]; exact Sub.refl _
    · have := h.1
      rw [if_neg hk, if_neg hk, dif_pos (by omega), dif_pos (by omega), h.2 pos (by omega)]
      exact (Sub.refl _).bind fun b => (Sub.refl _).bind fun e => ih e _ _ (by omega)

theorem appendFromLoop_sub {m m' : Bitmap} (h : BitsExt m m') (n : Nat) : ∀ (d : Bitmap) (pos k : Nat),
    m.len - pos = n → Sub (d.appendFromLoop m pos k) (d.appendFromLoop m' pos k) := by
  induction n with
  | zero =>
    intro e pos k hn
    rw [Bitmap.appendFromLoop, Bitmap.appendFromLoop]
    by_cases hk : k = 0
    · rw [if_pos hk, if_pos hk]; exact Sub.refl _
    · rw [if_neg hk, dif_neg (by omega)]; intro a ha; cases ha
  | succ n ih =>
    intro e pos k hn
    rw [Bitmap.appendFromLoop, Bitmap.appendFromLoop]
    by_cases hk : k = 0
    · rw [if_pos hk, if_pos hk]; exact Sub.refl _
    · have := h.1
      rw [if_neg hk, if_neg hk, dif_pos (by omega), dif_pos (by omega), h.2 pos (by omega)]
      exact (Sub.refl _).bind fun b => (Sub.refl _).bind fun e => ih e _ _ (by omega)

theorem encodeValidity_sub {v v' : Option Bitmap} (h : ValidityExt v v') (p : Profile) (pos n : Nat) (be : Rle.Encoder) :
    Sub (PrimitiveEnc.encodeValidity p v pos n be) (PrimitiveEnc.encodeValidity p v' pos n be) := by
  cases v <;> cases v'
  · exact Sub.refl _
  · exact h.elim
  · exact h.elim
  · exact (putFrom_sub h p _ _ _ _ rfl).bind fun _ => Sub.refl _

theorem validityAppendFrom_sub {v v' : Option Bitmap} (h : ValidityExt v v') (d : Option Bitmap) (pos n : Nat) :
    Sub (validityAppendFrom d v pos n) (validityAppendFrom d v' pos n) := by
  cases v <;> cases v'
  · exact Sub.refl _
  · exact h.elim
  · exact h.elim
  · cases d
    · exact Sub.refl _
    · exact (appendFromLoop_sub h _ _ _ _ rfl).bind fun _ => Sub.refl _

theorem validity_ext {v v' : Option Bitmap} {nullable : Bool} {bits more : List Bool} (h : ValidityShows v nullable bits)
    (h' : ValidityShows v' nullable (bits ++ more)) : ValidityExt v v' := by
  cases nullable with
  | false =>
    have h1 : v = none := h
    have h2 : v' = none := h'
    rw [h1, h2]; trivial
  | true =>
    obtain ⟨m, rfl, h1⟩ := (h : ∃ bm, v = some bm ∧ bm.Reads bits)
    obtain ⟨m', rfl, h2⟩ := (h' : ∃ bm, v' = some bm ∧ bm.Reads (bits ++ more))
    refine ⟨by rw [h1.len, h2.len]; simp, fun i hi => ?_⟩
    rw [h1.len] at hi
    rw [h1.get i hi, h2.get i (by simp; omega), List.getElem_append_left hi]

theorem validityOf_append {γ : Type} (a b : List (Option γ)) : validityOf (a ++ b) = validityOf a ++ validityOf b := by
  simp [validityOf]

theorem valuesOf_append {γ : Type} (a b : List (Option γ)) : valuesOf (a ++ b) = valuesOf a ++ valuesOf b := by
  simp [valuesOf]

/-- Whatever a call does, the blocks offered before stay. -/
theorem grows {E S γ : Type} {k : Sink S} {m : Run (E × S) γ} {mr : Run (E × List (Nat × Bytes)) γ} (h : Follows k m mr)
    (e : E) (l : List (Nat × Bytes)) : l <+: (mr (e, l)).2.2 := by
  obtain ⟨bs, r, e', h1, _⟩ := h e
  rw [h1]
  exact List.prefix_append _ _

theorem lift_sub {σ γ : Type} {r r' : Res γ} (h : Sub r r') {s s' : σ} {a : γ} {left left' : σ → σ}
    (hr : Run.lift r left s = (.ok a, s')) : Run.lift r' left' s = (.ok a, s') := by
  cases r with
  | error x => cases (Prod.mk.inj hr).1
  | ok b => rw [h b rfl]; exact hr

theorem lift_ok' {σ γ : Type} {r : Res γ} {s s' : σ} {a : γ} {left : σ → σ} (h : Run.lift r left s = (.ok a, s')) :
    r = .ok a ∧ s = s' := by
  cases r with
  | error x => cases (Prod.mk.inj h).1
  | ok b => cases h; exact ⟨rfl, rfl⟩

/-- What `flush` adds is at most a block, and nothing if nothing is held back. -/
theorem drop_last {l l1 l2 l' : List (Nat × Bytes)} {held : Nat} (h : l1 <+: l' ∨ held = 0 ∧ ∃ x, l1 = l ++ [x]) (hl : l <+: l')
    (hlen : l2.length = l1.length + if held > 0 then 1 else 0) (hp : l1 <+: l2) : l2.dropLast <+: l' := by
  obtain ⟨w, rfl⟩ := hp
  rw [List.length_append] at hlen
  rcases h with h | ⟨rfl, x, rfl⟩
  · refine List.IsPrefix.trans ?_ h
    cases w with
    | nil => rw [List.append_nil]; exact List.dropLast_prefix _
    | cons y w =>
      have : w = [] := by
        refine List.length_eq_zero_iff.1 ?_
        rw [List.length_cons] at hlen
        split at hlen <;> omega
      rw [this, List.dropLast_concat]
      exact List.prefix_refl _
  · have : w = [] := List.length_eq_zero_iff.1 (by rw [if_neg (by omega)] at hlen; omega)
    rw [this, List.append_nil, List.dropLast_concat]
    exact hl

/-! ## Primitive columns -/

section
variable {α : Type} [Element α]

/-- A buffer with the same rows and perhaps more of them. -/
structure Ext (b b' : PrimitiveBuffer α) : Prop where
  values : b.values <+: b'.values
  validity : ValidityExt b.validity b'.validity

theorem Ext.len {b b' : PrimitiveBuffer α} (h : Ext b b') : b.len ≤ b'.len := h.values.length_le

theorem encodePrimitiveBuffer_sub {b b' : PrimitiveBuffer α} (h : Ext b b') (p : Profile) (i j pos : Nat) (be : Rle.Encoder) :
    Sub (PrimitiveEnc.encodePrimitiveBuffer p b i j pos be) (PrimitiveEnc.encodePrimitiveBuffer p b' i j pos be) :=
  (Sub.refl _).bind fun _ => (Sub.refl _).bind fun _ => (slice_sub h.values i j).bind fun _ =>
    (encodeValidity_sub h.validity p _ _ _).bind fun _ => Sub.refl _

theorem appendFrom_sub {b b' : PrimitiveBuffer α} (h : Ext b b') (d : PrimitiveBuffer α) (i j pos : Nat) :
    Sub (d.appendFrom b i j pos) (d.appendFrom b' i j pos) := by
  refine (slice_sub h.values i j).bind fun chunk => ?_
  simp only []
  split
  · exact (validityAppendFrom_sub h.validity _ _ _).bind fun _ => Sub.refl _
  · exact Sub.refl _

theorem writeRange_sub {S : Type} {b b' : PrimitiveBuffer α} (h : Ext b b') (p : Profile) (k : Sink S) (i j pos : Nat)
    {s s' : PrimitiveEnc.Encoder α × S} {r : PrimitiveEnc.EncodeResult}
    (hr : PrimitiveEnc.writeRange p k b i j pos s = (.ok r, s')) : PrimitiveEnc.writeRange p k b' i j pos s = (.ok r, s') := by
  simp only [PrimitiveEnc.writeRange] at hr ⊢
  obtain ⟨e, s1, h1, hr⟩ := bind_inv hr
  rw [Run.bind_ok h1]
  obtain ⟨x, s2, h2, hr⟩ := bind_inv hr
  rw [Run.bind_ok (lift_sub (encodePrimitiveBuffer_sub h p i j pos _) h2)]
  exact hr

theorem add_le {p : Profile} {w i j x : Nat} (h : p.add w i j = .ok x) : x ≤ i + j := by
  simp only [Profile.add] at h
  split at h
  · cases h; exact Nat.le_refl _
  · cases p
    · cases h
    · cases h; exact Nat.mod_le _ _

/-- The end of a chunk is where it was, or the chunk ended with the buffer and was smaller than asked for. -/
theorem chunk_sub {b b' : PrimitiveBuffer α} (h : Ext b b') (p : Profile) (pos m e : Nat) (hp : pos ≤ b.len)
    (he : PrimitiveEnc.chunk p b pos m = .ok e) :
    PrimitiveEnc.chunk p b' pos m = .ok e ∨ e = b.len ∧ (b.len - pos) * Element.size α < m := by
  have hlen := h.len
  have hs : 0 < Element.size α := by rcases Element.size_eq (α := α) with h | h <;> omega
  simp only [PrimitiveEnc.chunk] at he ⊢
  obtain ⟨x, hx, he⟩ := bind_eq_ok he
  rw [hx]
  by_cases hc : x > b.len
  · rw [if_pos hc] at he
    refine .inr ⟨(Except.ok.inj he).symm, ?_⟩
    have hle : x ≤ pos + (m / Element.size α + if m % Element.size α ≠ 0 then 1 else 0) := by
      exact add_le hx
    have hdm := Nat.div_add_mod m (Element.size α)
    have hlt : b.len - pos < m / Element.size α + if m % Element.size α ≠ 0 then 1 else 0 := by omega
    by_cases h0 : m % Element.size α = 0
    · rw [if_neg (by omega)] at hlt
      have := Nat.mul_lt_mul_of_pos_right hlt hs
      rw [Nat.add_zero, Nat.mul_comm (m / _)] at this
      omega
    · rw [if_pos h0] at hlt
      have := Nat.mul_le_mul_right (Element.size α) (Nat.lt_succ_iff.1 hlt)
      rw [Nat.mul_comm (m / _)] at this
      omega
  · rw [if_neg hc] at he
    cases he
    exact .inl (by show (if _ then _ else _) = _; rw [if_neg (by omega)]; rfl)

theorem encodeLoop_sub {b b' : PrimitiveBuffer α} (h : Ext b b') (p : Profile) (fuel : Nat) :
    ∀ (fuel' pos vpos : Nat) (e e1 : PrimitiveEnc.Encoder α) (l l1 : List (Nat × Bytes)), fuel ≤ fuel' →
      PrimitiveEnc.encodeLoop p recorder b fuel pos vpos (e, l) = (.ok (), (e1, l1)) →
      l1 <+: (PrimitiveEnc.encodeLoop p recorder b' fuel' pos vpos (e, l)).2.2 := by
  induction fuel with
  | zero => intro fuel' pos vpos e e1 l l1 _ hr; cases (Prod.mk.inj hr).1
  | succ fuel ih =>
    intro fuel' pos vpos e e1 l l1 hf hr
    obtain ⟨fuel', rfl⟩ : ∃ n, fuel' = n + 1 := ⟨fuel' - 1, by omega⟩
    have hgrow := grows (PrimitiveEnc.encodeLoop_follows p recorder b' (fuel' + 1) pos vpos) e l
    have hlen := h.len
    rw [PrimitiveEnc.encodeLoop] at hr hgrow ⊢
    by_cases hpos : pos < b.len
    · rw [if_pos hpos] at hr
      rw [if_pos (by omega)] at hgrow ⊢
      obtain ⟨_, _, hg, hr⟩ := bind_inv hr
      cases hg
      obtain ⟨ce, _, h2, hr⟩ := bind_inv hr
      obtain ⟨hce, rfl⟩ := lift_ok' h2
      obtain ⟨cl, _, h3, hr⟩ := bind_inv hr
      obtain ⟨hcl, rfl⟩ := lift_ok' h3
      dsimp only at hr
      by_cases hsmall : cl * Element.size α < e.minBlockSize
      · rw [if_pos hsmall] at hr
        obtain ⟨_, _, h4, hr⟩ := bind_inv hr
        obtain ⟨_, rfl⟩ := lift_ok' h4
        cases hr
        exact hgrow
      · rw [if_neg hsmall] at hr
        have hce' : PrimitiveEnc.chunk p b' pos e.minBlockSize = .ok ce := by
          refine (chunk_sub h p pos _ ce (by omega) hce).resolve_right ?_
          rintro ⟨rfl, hlt⟩
          rw [Profile.sub_ok p (by omega)] at hcl
          cases hcl
          exact hsmall hlt
        obtain ⟨r, ⟨e2, l2⟩, h4, hr⟩ := bind_inv hr
        have h4' := writeRange_sub h p recorder pos ce vpos h4
        rw [Run.bind_ok (Run.get_apply _), hce', Run.bind_ok (Run.lift_ok _ _), hcl, Run.bind_ok (Run.lift_ok _ _)]
        dsimp only
        rw [if_neg hsmall, PrimitiveEnc.writeBlock, Run.bind_ok h4']
        exact ih fuel' ce r.lastValidityPos e2 e1 l2 l1 (by omega) hr
    · rw [if_neg hpos] at hr
      cases hr
      exact hgrow

/-- `encode` of a longer buffer: the blocks of the shorter one come first, but for one that held everything. -/
theorem encode_sub {b b' : PrimitiveBuffer α} (h : Ext b b') (p : Profile) (e e1 : PrimitiveEnc.Encoder α)
    (l l1 : List (Nat × Bytes)) (hr : PrimitiveEnc.encode p recorder b (e, l) = (.ok (), (e1, l1))) :
    l1 <+: (PrimitiveEnc.encode p recorder b' (e, l)).2.2 ∨ e1.remaining.len = 0 ∧ ∃ x, l1 = l ++ [x] := by
  have hgrow := grows (PrimitiveEnc.encode_follows p recorder b') e l
  have hlen := h.len
  rw [PrimitiveEnc.encode, PrimitiveEnc.encodeFuel] at hr hgrow ⊢
  obtain ⟨_, _, hg, hr⟩ := bind_inv hr
  cases hg
  rw [Run.bind_ok (Run.get_apply _)] at hgrow ⊢
  dsimp only at hr hgrow ⊢
  by_cases hrem : e.remaining.len > 0
  · rw [if_pos hrem] at hr hgrow ⊢
    obtain ⟨room, _, h2, hr⟩ := bind_inv hr
    obtain ⟨hroom, rfl⟩ := lift_ok' h2
    obtain ⟨ce, _, h3, hr⟩ := bind_inv hr
    obtain ⟨hce, rfl⟩ := lift_ok' h3
    obtain ⟨⟨rem, vp⟩, _, h4, hr⟩ := bind_inv hr
    obtain ⟨happ, rfl⟩ := lift_ok' h4
    dsimp only at hr
    obtain ⟨_, _, hg, hr⟩ := bind_inv hr
    cases hg
    by_cases hstop : rem.len < e.minBlockSize
    · rw [if_pos hstop] at hr
      cases hr
      exact .inl hgrow
    · rw [if_neg hstop] at hr
      obtain ⟨r, ⟨e2, l2⟩, h5, hr⟩ := bind_inv hr
      obtain ⟨_, _, hg, hr⟩ := bind_inv hr
      cases hg
      obtain ⟨_, _, hg, hr⟩ := bind_inv hr
      cases hg
      rcases chunk_sub h p 0 room ce (by omega) hce with hce' | ⟨rfl, _⟩
      · left
        rw [hroom, Run.bind_ok (Run.lift_ok _ _), hce', Run.bind_ok (Run.lift_ok _ _),
          appendFrom_sub h _ _ _ _ _ happ, Run.bind_ok (Run.lift_ok _ _)]
        dsimp only
        rw [Run.bind_ok (Run.set_apply _ _), if_neg hstop, Run.bind_ok h5, Run.bind_ok (Run.get_apply _),
          Run.bind_ok (Run.set_apply _ _)]
        exact encodeLoop_sub h p _ _ _ _ _ _ _ _ (by omega) hr
      · right
        rw [PrimitiveEnc.encodeLoop, if_neg (by omega)] at hr
        cases hr
        exact ⟨rfl, (PrimitiveEnc.writeRange_once p _ _ _ _ _ _ _ _ h5).2⟩
  · rw [if_neg hrem] at hr hgrow ⊢
    exact .inl (encodeLoop_sub h p _ _ _ _ _ _ _ _ (by omega) hr)

end

theorem PrimitiveEnc.calls_follows {α : Type} [Element α] {S : Type} (p : Profile) (k : Sink S)
    (cs : List (EncCall (PrimitiveBuffer α))) : Follows k (PrimitiveEnc.calls p k cs) (PrimitiveEnc.calls p recorder cs) := by
  induction cs with
  | nil => exact .pure _
  | cons c cs ih =>
    cases c with
    | encode b => exact .bind (PrimitiveEnc.encode_follows _ _ _) fun _ => ih
    | flush => exact .bind (PrimitiveEnc.flush_follows _ _) fun _ => ih

theorem calls_grow {E γ : Type} {m : Run (E × List (Nat × Bytes)) Unit} {f : Unit → Run (E × List (Nat × Bytes)) γ}
    (hf : ∀ e l, l <+: (f () (e, l)).2.2) (s : E × List (Nat × Bytes)) : (m s).2.2 <+: ((m >>= f) s).2.2 := by
  rw [Run.bind_apply]
  rcases m s with ⟨x | u, e, l⟩
  · exact List.prefix_refl _
  · exact hf e l

end MoreRows

/-- C119 for primitive columns: whatever the encoder holds and has written, the blocks made of a buffer and `flush`, all but
the last, are the first ones made of a buffer with the same rows and more, whatever is called afterwards and whether it returns
or not. -/
theorem C119_primitive_from {α : Type} [Element α] (p : Profile) (nullable : Bool) (e e1 : PrimitiveEnc.Encoder α)
    (l l1 : List (Nat × Bytes)) (rows more : List (Option α)) (b b' : PrimitiveBuffer α) (hb : b.Shows nullable rows)
    (hb' : b'.Shows nullable (rows ++ more))
    (hrun : PrimitiveEnc.calls p recorder [.encode b, .flush] (e, l) = (.ok (), (e1, l1)))
    (cs : List (EncCall (PrimitiveBuffer α))) :
    l1.dropLast <+: (PrimitiveEnc.calls p recorder (.encode b' :: cs) (e, l)).2.2 := by
  have h : MoreRows.Ext b b' := by
    refine ⟨?_, MoreRows.validity_ext hb.validity (more := validityOf more) ?_⟩
    · rw [hb.values, hb'.values, MoreRows.valuesOf_append]; exact List.prefix_append _ _
    · rw [← MoreRows.validityOf_append]; exact hb'.validity
  obtain ⟨_, ⟨e2, l2⟩, h1, h2⟩ := bind_inv hrun
  obtain ⟨_, ⟨e3, l3⟩, h3, h4⟩ := bind_inv h2
  cases h4
  have hfl := C37_primitive_flush_partial p e2 e1 l2 l1 h3
  have hgo := MoreRows.calls_grow (m := PrimitiveEnc.encode p recorder b') (f := fun _ => PrimitiveEnc.calls p recorder cs)
    (MoreRows.grows (MoreRows.PrimitiveEnc.calls_follows p recorder cs)) (e, l)
  refine List.IsPrefix.trans ?_ hgo
  exact MoreRows.drop_last (MoreRows.encode_sub h p e e2 l l2 h1) (MoreRows.grows (PrimitiveEnc.encode_follows p recorder b') e l)
    hfl.1 hfl.2.1

namespace MoreRows

/-! ## Binary columns -/

/-- A buffer with the same rows and perhaps more of them. -/
structure BExt (b b' : BinaryBuffer) : Prop where
  offsets : b.offsets <+: b'.offsets
  data : b.data <+: b'.data
  validity : ValidityExt b.validity b'.validity

theorem BExt.len {b b' : BinaryBuffer} (h : BExt b b') : b.offsets.length ≤ b'.offsets.length := h.offsets.length_le

theorem itemLen_sub {b b' : BinaryBuffer} (h : BExt b b') (p : Profile) (i : Nat) : Sub (b.itemLen p i) (b'.itemLen p i) :=
  (index_sub h.offsets _).bind fun _ => (index_sub h.offsets _).bind fun _ => Sub.refl _

theorem itemLens_sub {b b' : BinaryBuffer} (h : BExt b b') (p : Profile) (n : Nat) :
    ∀ i, Sub (BinaryEnc.itemLens p b n i) (BinaryEnc.itemLens p b' n i) := by
  induction n with
  | zero => intro i; exact Sub.refl _
  | succ n ih => intro i; exact (itemLen_sub h p i).bind fun _ => (ih (i + 1)).bind fun _ => Sub.refl _

theorem appendFromOffsets_sub {b b' : BinaryBuffer} (h : BExt b b') (p : Profile) (n : Nat) :
    ∀ i last, Sub (BinaryBuffer.appendFromOffsets p b n i last) (BinaryBuffer.appendFromOffsets p b' n i last) := by
  induction n with
  | zero => intro i last; exact Sub.refl _
  | succ n ih =>
    intro i last
    exact (itemLen_sub h p i).bind fun _ => (Sub.refl _).bind fun last => (ih (i + 1) last).bind fun _ => Sub.refl _

theorem binaryAppendFrom_sub {b b' : BinaryBuffer} (h : BExt b b') (p : Profile) (d : BinaryBuffer) (i j pos : Nat) :
    Sub (d.appendFrom p b i j pos) (d.appendFrom p b' i j pos) := by
  refine (index_sub h.offsets _).bind fun _ => (index_sub h.offsets _).bind fun _ => (Sub.refl _).bind fun _ =>
    (appendFromOffsets_sub h p _ _ _).bind fun _ => (slice_sub h.data _ _).bind fun _ => ?_
  dsimp only
  split
  · exact (validityAppendFrom_sub h.validity _ _ _).bind fun _ => Sub.refl _
  · exact Sub.refl _

theorem encodeBinaryBuffer_sub {b b' : BinaryBuffer} (h : BExt b b') (p : Profile) (c : BinaryEnc.BinaryChunk) (pos : Nat)
    (be : Rle.Encoder) : Sub (BinaryEnc.encodeBinaryBuffer p b c pos be) (BinaryEnc.encodeBinaryBuffer p b' c pos be) :=
  (Sub.refl _).bind fun _ => (slice_sub h.data _ _).bind fun _ => (itemLens_sub h p _ _).bind fun _ =>
    (Sub.refl _).bind fun _ => (encodeValidity_sub h.validity p _ _ _).bind fun _ => Sub.refl _

theorem writeBlock_sub {S : Type} {b b' : BinaryBuffer} (h : BExt b b') (p : Profile) (k : Sink S)
    (c : BinaryEnc.BinaryChunk) (pos : Nat) {s s' : BinaryEnc.Encoder × S} {r : BinaryEnc.EncodeResult}
    (hr : BinaryEnc.writeBlock p k b c pos s = (.ok r, s')) : BinaryEnc.writeBlock p k b' c pos s = (.ok r, s') := by
  simp only [BinaryEnc.writeBlock] at hr ⊢
  obtain ⟨e, s1, h1, hr⟩ := bind_inv hr
  rw [Run.bind_ok h1]
  obtain ⟨x, s2, h2, hr⟩ := bind_inv hr
  rw [Run.bind_ok (lift_sub (encodeBinaryBuffer_sub h p c pos _) h2)]
  exact hr

theorem findPosition_some (p : Profile) (st m : Nat) (w os : List Nat) : ∀ (pos : Nat) (r : Nat × Nat),
    BinaryEnc.findPosition p st m os pos = .ok (some r) → BinaryEnc.findPosition p st m (os ++ w) pos = .ok (some r) := by
  induction os with
  | nil => intro pos r h; cases h
  | cons o os ih =>
    intro pos r h
    simp only [List.cons_append, BinaryEnc.findPosition] at h ⊢
    obtain ⟨d, hd, h⟩ := bind_eq_ok h
    rw [hd]
    by_cases hm : d ≥ m
    · rw [if_pos hm] at h
      exact (if_pos hm).trans h
    · rw [if_neg hm] at h
      exact (if_neg hm).trans (ih _ _ h)

theorem findPosition_none (p : Profile) (st m : Nat) (os : List Nat) : ∀ (pos : Nat),
    BinaryEnc.findPosition p st m os pos = .ok none → ∀ o ∈ os, ∀ d, p.sub 32 o st = .ok d → d < m := by
  induction os with
  | nil => intro pos _ o ho; cases ho
  | cons o os ih =>
    intro pos h o' ho d' hd'
    simp only [BinaryEnc.findPosition] at h
    obtain ⟨d, hd, h⟩ := bind_eq_ok h
    by_cases hm : d ≥ m
    · rw [if_pos hm] at h; cases h
    · rw [if_neg hm] at h
      rcases List.mem_cons.1 ho with rfl | ho
      · rw [hd] at hd'; cases hd'; omega
      · exact ih _ h o' ho d' hd'

theorem index_ok {γ : Type} {v : List γ} {i : Nat} {a : γ} (h : index v i = .ok a) : v[i]? = some a := by
  simp only [index] at h
  split at h
  · rename_i heq; cases h; exact heq
  · cases h

/-- A chunk is where it was, or it ended with the buffer and was smaller than asked for. -/
theorem binaryChunk_sub {b b' : BinaryBuffer} (h : BExt b b') (p : Profile) (pos m : Nat) (c : BinaryEnc.BinaryChunk)
    (hc : BinaryEnc.chunk p b pos m = .ok c) :
    BinaryEnc.chunk p b' pos m = .ok c ∨ c.startPos = pos ∧ c.endPos = b.offsets.length - 1 ∧ c.size < m := by
  simp only [BinaryEnc.chunk] at hc ⊢
  obtain ⟨st, h1, hc⟩ := bind_eq_ok hc
  obtain ⟨found, h2, hc⟩ := bind_eq_ok hc
  have hpos : pos < b.offsets.length := (List.getElem?_eq_some_iff.1 (index_ok h1)).1
  cases found with
  | some r =>
    left
    obtain ⟨w, hw⟩ := h.offsets
    rw [index_sub h.offsets _ _ h1]
    have h2' : BinaryEnc.findPosition p st m (b'.offsets.drop pos) 0 = .ok (some r) := by
      rw [← hw, List.drop_append_of_le_length (by omega)]
      exact findPosition_some p st m w _ 0 r h2
    simp only [ok_bind, h2']
    exact hc
  | none =>
    right
    simp only [BinaryEnc.chunkEnd] at hc
    obtain ⟨⟨_, last⟩, h3, hc⟩ := bind_eq_ok hc
    obtain ⟨last', h4, h3⟩ := bind_eq_ok h3
    cases h3
    obtain ⟨size, h5, hc⟩ := bind_eq_ok hc
    obtain ⟨len, h6, hc⟩ := bind_eq_ok hc
    cases hc
    refine ⟨rfl, rfl, findPosition_none p st m _ 0 h2 last ?_ size h5⟩
    refine List.mem_of_getElem? (i := b.offsets.length - 1 - pos) ?_
    rw [List.getElem?_drop, show pos + (b.offsets.length - 1 - pos) = b.offsets.length - 1 by omega]
    exact index_ok h4

theorem binaryLoop_sub {b b' : BinaryBuffer} (h : BExt b b') (p : Profile) (fuel : Nat) :
    ∀ (fuel' pos vpos : Nat) (e e1 : BinaryEnc.Encoder) (l l1 : List (Nat × Bytes)), fuel ≤ fuel' →
      BinaryEnc.encodeLoop p recorder b fuel pos vpos (e, l) = (.ok (), (e1, l1)) →
      l1 <+: (BinaryEnc.encodeLoop p recorder b' fuel' pos vpos (e, l)).2.2 := by
  induction fuel with
  | zero => intro fuel' pos vpos e e1 l l1 _ hr; cases (Prod.mk.inj hr).1
  | succ fuel ih =>
    intro fuel' pos vpos e e1 l l1 hf hr
    obtain ⟨fuel', rfl⟩ : ∃ n, fuel' = n + 1 := ⟨fuel' - 1, by omega⟩
    have hgrow := grows (BinaryEnc.encodeLoop_follows p recorder b' (fuel' + 1) pos vpos) e l
    have hlen := h.len
    rw [BinaryEnc.encodeLoop] at hr hgrow ⊢
    by_cases hpos : pos < b.offsets.length
    · rw [if_pos hpos] at hr
      rw [if_pos (by omega)] at hgrow ⊢
      obtain ⟨_, _, hg, hr⟩ := bind_inv hr
      cases hg
      obtain ⟨c, _, h2, hr⟩ := bind_inv hr
      obtain ⟨hc, rfl⟩ := lift_ok' h2
      dsimp only at hr
      by_cases hsmall : c.size < e.minBlockSize
      · rw [if_pos hsmall] at hr
        obtain ⟨_, _, h4, hr⟩ := bind_inv hr
        obtain ⟨_, rfl⟩ := lift_ok' h4
        cases hr
        exact hgrow
      · rw [if_neg hsmall] at hr
        have hc' := (binaryChunk_sub h p pos _ c hc).resolve_right fun hx => hsmall hx.2.2
        obtain ⟨r, ⟨e2, l2⟩, h4, hr⟩ := bind_inv hr
        rw [Run.bind_ok (Run.get_apply _), hc', Run.bind_ok (Run.lift_ok _ _)]
        dsimp only
        rw [if_neg hsmall, Run.bind_ok (writeBlock_sub h p recorder c vpos h4)]
        exact ih fuel' c.endPos r.lastValidityPos e2 e1 l2 l1 (by omega) hr
    · rw [if_neg hpos] at hr
      cases hr
      exact hgrow

theorem writeBlock_once (p : Profile) (b : BinaryBuffer) (c : BinaryEnc.BinaryChunk) (pos : Nat) (e e' : BinaryEnc.Encoder)
    (l l' : List (Nat × Bytes)) {r : BinaryEnc.EncodeResult}
    (h : BinaryEnc.writeBlock p recorder b c pos (e, l) = (.ok r, (e', l'))) :
    e'.minBlockSize = e.minBlockSize ∧ ∃ x, l' = l ++ [x] := by
  have hfr := BinaryEnc.writeBlock_frame p recorder b c pos e l
  rw [h] at hfr
  refine ⟨hfr.2, ?_⟩
  simp only [BinaryEnc.writeBlock] at h
  obtain ⟨_, _, hg, h⟩ := bind_inv h
  cases hg
  obtain ⟨x, _, h1, h⟩ := bind_inv h
  obtain ⟨_, rfl⟩ := lift_ok' h1
  obtain ⟨_, _, hg, h⟩ := bind_inv h
  cases hg
  obtain ⟨n, _, h1, h⟩ := bind_inv h
  obtain ⟨_, rfl⟩ := lift_ok' h1
  obtain ⟨_, _, hg, h⟩ := bind_inv h
  cases hg
  obtain ⟨i, _, h1, h⟩ := bind_inv h
  obtain ⟨_, rfl⟩ := lift_ok' h1
  obtain ⟨_, _, hg, h⟩ := bind_inv h
  cases hg
  cases h
  exact ⟨_, rfl⟩

/-- After a chunk that ended with the buffer there is nothing left. -/
theorem loop_end (p : Profile) (b : BinaryBuffer) (fuel vpos : Nat) (e e1 : BinaryEnc.Encoder) (l l1 : List (Nat × Bytes))
    (hm : 0 < e.minBlockSize)
    (hr : BinaryEnc.encodeLoop p recorder b fuel (b.offsets.length - 1) vpos (e, l) = (.ok (), (e1, l1))) :
    l1 = l ∧ e1.remaining.len = e.remaining.len := by
  cases fuel with
  | zero => cases (Prod.mk.inj hr).1
  | succ fuel =>
    rw [BinaryEnc.encodeLoop] at hr
    by_cases hpos : b.offsets.length - 1 < b.offsets.length
    · rw [if_pos hpos] at hr
      obtain ⟨_, _, hg, hr⟩ := bind_inv hr
      cases hg
      obtain ⟨c, _, h2, hr⟩ := bind_inv hr
      obtain ⟨hc, rfl⟩ := lift_ok' h2
      have hend : c.startPos = b.offsets.length - 1 ∧ c.endPos = b.offsets.length - 1 ∧ c.size < e.minBlockSize := by
        simp only [BinaryEnc.chunk] at hc
        obtain ⟨st, h1, hc⟩ := bind_eq_ok hc
        obtain ⟨found, h2, hc⟩ := bind_eq_ok hc
        have hst := index_ok h1
        have hdrop : b.offsets.drop (b.offsets.length - 1) = [st] := by
          rw [List.drop_eq_getElem_cons hpos, (List.getElem?_eq_some_iff.1 hst).2,
            List.drop_eq_nil_of_le (by omega)]
        rw [hdrop] at h2
        simp only [BinaryEnc.findPosition, Profile.sub_ok p (Nat.le_refl st), ok_bind, Nat.sub_self] at h2
        rw [if_neg (by omega)] at h2
        cases h2
        simp only [BinaryEnc.chunkEnd, h1, ok_bind] at hc
        obtain ⟨⟨_, _⟩, h3, hc⟩ := bind_eq_ok hc
        cases h3
        simp only [Profile.sub_ok p (Nat.le_refl _), ok_bind, Nat.sub_self] at hc
        cases hc
        exact ⟨rfl, rfl, hm⟩
      dsimp only at hr
      rw [if_pos hend.2.2, hend.1, hend.2.1] at hr
      obtain ⟨⟨rem, vp⟩, _, h4, hr⟩ := bind_inv hr
      obtain ⟨happ, rfl⟩ := lift_ok' h4
      cases hr
      refine ⟨rfl, ?_⟩
      simp only [BinaryBuffer.appendFrom] at happ
      obtain ⟨_, _, happ⟩ := bind_eq_ok happ
      obtain ⟨_, _, happ⟩ := bind_eq_ok happ
      obtain ⟨_, _, happ⟩ := bind_eq_ok happ
      rw [Nat.sub_self] at happ
      obtain ⟨_, hpush, happ⟩ := bind_eq_ok happ
      cases hpush
      obtain ⟨_, _, happ⟩ := bind_eq_ok happ
      split at happ
      · obtain ⟨_, _, happ⟩ := bind_eq_ok happ
        cases happ
        simp [BinaryBuffer.len]
      · cases happ
    · rw [if_neg hpos] at hr
      cases hr
      exact ⟨rfl, rfl⟩

/-- `encode` of a longer buffer: the blocks of the shorter one come first, but for one that held everything. -/
theorem binaryEncode_sub {b b' : BinaryBuffer} (h : BExt b b') (p : Profile) (e e1 : BinaryEnc.Encoder)
    (l l1 : List (Nat × Bytes)) (hm : 0 < e.minBlockSize)
    (hr : BinaryEnc.encode p recorder b (e, l) = (.ok (), (e1, l1))) :
    l1 <+: (BinaryEnc.encode p recorder b' (e, l)).2.2 ∨ e1.remaining.len = 0 ∧ ∃ x, l1 = l ++ [x] := by
  have hgrow := grows (BinaryEnc.encode_follows p recorder b') e l
  have hlen := h.len
  rw [BinaryEnc.encode] at hr hgrow ⊢
  obtain ⟨_, _, hg, hr⟩ := bind_inv hr
  cases hg
  rw [Run.bind_ok (Run.get_apply _)] at hgrow ⊢
  dsimp only at hr hgrow ⊢
  by_cases hrem : e.remaining.len > 0
  · rw [if_pos hrem] at hr hgrow ⊢
    obtain ⟨room, _, h2, hr⟩ := bind_inv hr
    obtain ⟨hroom, rfl⟩ := lift_ok' h2
    obtain ⟨c, _, h3, hr⟩ := bind_inv hr
    obtain ⟨hc, rfl⟩ := lift_ok' h3
    obtain ⟨⟨rem, vp⟩, _, h4, hr⟩ := bind_inv hr
    obtain ⟨happ, rfl⟩ := lift_ok' h4
    dsimp only at hr
    obtain ⟨_, _, hg, hr⟩ := bind_inv hr
    cases hg
    by_cases hstop : rem.data.length < e.minBlockSize
    · rw [if_pos hstop] at hr
      cases hr
      exact .inl hgrow
    · rw [if_neg hstop] at hr
      obtain ⟨r, ⟨e2, l2⟩, h5, hr⟩ := bind_inv hr
      obtain ⟨_, _, hg, hr⟩ := bind_inv hr
      cases hg
      obtain ⟨_, _, hg, hr⟩ := bind_inv hr
      cases hg
      rcases binaryChunk_sub h p 0 room c hc with hc' | ⟨_, hend, _⟩
      · left
        rw [hroom, Run.bind_ok (Run.lift_ok _ _), hc', Run.bind_ok (Run.lift_ok _ _),
          binaryAppendFrom_sub h p _ _ _ _ _ happ, Run.bind_ok (Run.lift_ok _ _)]
        dsimp only
        rw [Run.bind_ok (Run.set_apply _ _), if_neg hstop, Run.bind_ok h5, Run.bind_ok (Run.get_apply _),
          Run.bind_ok (Run.set_apply _ _)]
        exact binaryLoop_sub h p _ _ _ _ _ _ _ _ (by omega) hr
      · right
        simp only [BinaryEnc.writeRemaining] at h5
        obtain ⟨_, _, hg, h5⟩ := bind_inv h5
        cases hg
        obtain ⟨wc, _, h6, h5⟩ := bind_inv h5
        obtain ⟨_, rfl⟩ := lift_ok' h6
        obtain ⟨hmb, x, rfl⟩ := writeBlock_once p _ _ _ _ _ _ _ h5
        rw [hend] at hr
        obtain ⟨rfl, hl⟩ := loop_end p b _ _ _ _ _ _ (by rw [show _ = e.minBlockSize from hmb]; exact hm) hr
        refine ⟨hl.trans ?_, x, rfl⟩
        simp [BinaryBuffer.len, BinaryBuffer.clear]
        omega
  · rw [if_neg hrem] at hr hgrow ⊢
    exact .inl (binaryLoop_sub h p _ _ _ _ _ _ _ _ (by omega) hr)

theorem BinaryEnc.calls_follows {S : Type} (p : Profile) (k : Sink S)
    (cs : List (EncCall BinaryBuffer)) : Follows k (BinaryEnc.calls p k cs) (BinaryEnc.calls p recorder cs) := by
  induction cs with
  | nil => exact .pure _
  | cons c cs ih =>
    cases c with
    | encode b => exact .bind (BinaryEnc.encode_follows _ _ _) fun _ => ih
    | flush => exact .bind (BinaryEnc.flush_follows _ _) fun _ => ih

end MoreRows

/-- C119 for binary columns, whatever the encoder holds and has written. -/
theorem C119_binary_from (p : Profile) (nullable : Bool) (e e1 : BinaryEnc.Encoder) (hm : 0 < e.minBlockSize)
    (l l1 : List (Nat × Bytes)) (rows more : List (Option Bytes)) (b b' : BinaryBuffer) (hb : b.Shows nullable rows)
    (hb' : b'.Shows nullable (rows ++ more))
    (hrun : BinaryEnc.calls p recorder [.encode b, .flush] (e, l) = (.ok (), (e1, l1)))
    (cs : List (EncCall BinaryBuffer)) :
    l1.dropLast <+: (BinaryEnc.calls p recorder (.encode b' :: cs) (e, l)).2.2 := by
  have h : MoreRows.BExt b b' := by
    have h1 := BinaryEnc.items_of_shows hb
    have h2 := BinaryEnc.items_of_shows hb'
    rw [MoreRows.valuesOf_append] at h2
    refine ⟨?_, ?_, MoreRows.validity_ext hb.validity (more := validityOf more) ?_⟩
    · rw [h1.offsets, h2.offsets, offsetsOf, offsetsOf, endOffsets_append]
      exact ⟨_, rfl⟩
    · rw [h1.data, h2.data, List.flatten_append]; exact List.prefix_append _ _
    · rw [← MoreRows.validityOf_append]; exact hb'.validity
  obtain ⟨_, ⟨e2, l2⟩, h1, h2⟩ := bind_inv hrun
  obtain ⟨_, ⟨e3, l3⟩, h3, h4⟩ := bind_inv h2
  cases h4
  have hfl := C37_binary_flush_partial p e2 e1 l2 l1 h3
  have hgo := MoreRows.calls_grow (m := BinaryEnc.encode p recorder b') (f := fun _ => BinaryEnc.calls p recorder cs)
    (MoreRows.grows (MoreRows.BinaryEnc.calls_follows p recorder cs)) (e, l)
  refine List.IsPrefix.trans ?_ hgo
  exact MoreRows.drop_last (MoreRows.binaryEncode_sub h p e e2 l l2 hm h1) (MoreRows.grows (BinaryEnc.encode_follows p recorder b') e l)
    hfl.1 hfl.2.1

namespace MoreRows

/-! ## Any calls before -/

theorem PrimitiveEnc.calls_append {α : Type} [Element α] {S : Type} (p : Profile) (k : Sink S)
    (as bs : List (EncCall (PrimitiveBuffer α))) (s : PrimitiveEnc.Encoder α × S) :
    PrimitiveEnc.calls p k (as ++ bs) s = (PrimitiveEnc.calls p k as >>= fun _ => PrimitiveEnc.calls p k bs) s := by
  induction as generalizing s with
  | nil => rfl
  | cons a as ih =>
    cases a with
    | encode b =>
      simp only [List.cons_append, PrimitiveEnc.calls, Run.bind_apply]
      rcases PrimitiveEnc.encode p k b s with ⟨x | u, s'⟩
      · rfl
      · exact ih s'
    | flush =>
      simp only [List.cons_append, PrimitiveEnc.calls, Run.bind_apply]
      rcases PrimitiveEnc.flush p k s with ⟨x | u, s'⟩
      · rfl
      · exact ih s'

theorem BinaryEnc.calls_append {S : Type} (p : Profile) (k : Sink S)
    (as bs : List (EncCall BinaryBuffer)) (s : BinaryEnc.Encoder × S) :
    BinaryEnc.calls p k (as ++ bs) s = (BinaryEnc.calls p k as >>= fun _ => BinaryEnc.calls p k bs) s := by
  induction as generalizing s with
  | nil => rfl
  | cons a as ih =>
    cases a with
    | encode b =>
      simp only [List.cons_append, BinaryEnc.calls, Run.bind_apply]
      rcases BinaryEnc.encode p k b s with ⟨x | u, s'⟩
      · rfl
      · exact ih s'
    | flush =>
      simp only [List.cons_append, BinaryEnc.calls, Run.bind_apply]
      rcases BinaryEnc.flush p k s with ⟨x | u, s'⟩
      · rfl
      · exact ih s'

/-- The call leaves the block size as it is. -/
def Keeps {S γ : Type} (m : Nat) (Q : γ → Prop) (r : Run (BinaryEnc.Encoder × S) γ) : Prop :=
  ∀ s, s.1.minBlockSize = m → (r s).2.1.minBlockSize = m ∧ ∀ a, (r s).1 = .ok a → Q a

theorem Keeps.bind {S γ δ : Type} {m : Nat} {Q : γ → Prop} {Q' : δ → Prop} {r : Run (BinaryEnc.Encoder × S) γ}
    {f : γ → Run (BinaryEnc.Encoder × S) δ} (h : Keeps m Q r) (hf : ∀ a, Q a → Keeps m Q' (f a)) : Keeps m Q' (r >>= f) := by
  intro s hs
  obtain ⟨h1, h2⟩ := h s hs
  rw [Run.bind_apply]
  rcases hr : r s with ⟨x | a, s'⟩
  · rw [hr] at h1; exact ⟨h1, fun a ha => by cases ha⟩
  · rw [hr] at h1 h2; exact hf a (h2 a rfl) s' h1

theorem Keeps.get {S : Type} (m : Nat) :
    Keeps m (fun e => e.minBlockSize = m) (Run.get : Run (BinaryEnc.Encoder × S) BinaryEnc.Encoder) :=
  fun s hs => ⟨hs, fun a ha => by cases ha; exact hs⟩

theorem Keeps.set {S : Type} {m : Nat} {e : BinaryEnc.Encoder} (he : e.minBlockSize = m) :
    Keeps m (fun _ => True) (Run.set e : Run (BinaryEnc.Encoder × S) Unit) := fun _ _ => ⟨he, fun _ _ => trivial⟩

theorem Keeps.lift {S γ : Type} (m : Nat) (r : Res γ) {left : BinaryEnc.Encoder × S → BinaryEnc.Encoder × S}
    (hl : ∀ s, (left s).1.minBlockSize = s.1.minBlockSize) : Keeps m (fun _ => True) (Run.lift r left) := by
  intro s hs
  cases r with
  | ok a => exact ⟨hs, fun _ _ => trivial⟩
  | error x => exact ⟨(hl s).trans hs, fun _ _ => trivial⟩

theorem Keeps.emit {S : Type} (m : Nat) (k : Sink S) (i : Nat) (d : Bytes) :
    Keeps m (fun _ => True) (Run.emit (E := BinaryEnc.Encoder) k i d) := fun s hs => ⟨hs, fun _ _ => trivial⟩

theorem Keeps.pure {S γ : Type} (m : Nat) (a : γ) :
    Keeps m (fun _ => True) (Pure.pure a : Run (BinaryEnc.Encoder × S) γ) := fun s hs => ⟨hs, fun _ _ => trivial⟩

section
variable {S : Type} (m : Nat) (p : Profile) (k : Sink S)

theorem Keeps.writeBlock (b : BinaryBuffer) (c : BinaryEnc.BinaryChunk) (pos : Nat) :
    Keeps m (fun _ => True) (BinaryEnc.writeBlock p k b c pos) := fun s hs =>
  ⟨(BinaryEnc.writeBlock_frame p k b c pos s.1 s.2).2.trans hs, fun _ _ => trivial⟩

theorem Keeps.writeRemaining : Keeps m (fun _ => True) (BinaryEnc.writeRemaining p k) :=
  .bind (.get m) fun _ _ => .bind (.lift m _ fun _ => rfl) fun _ _ => .writeBlock m p k _ _ _

theorem Keeps.encodeLoop (b : BinaryBuffer) (fuel : Nat) :
    ∀ pos vpos, Keeps m (fun _ => True) (BinaryEnc.encodeLoop p k b fuel pos vpos) := by
  induction fuel with
  | zero => intro pos vpos; exact .lift m _ fun _ => rfl
  | succ fuel ih =>
    intro pos vpos
    rw [BinaryEnc.encodeLoop]
    split
    · refine .bind (.get m) fun e he => .bind (.lift m _ fun _ => rfl) fun c _ => ?_
      split
      · exact .bind (.lift m _ fun _ => rfl) fun _ _ => .set he
      · exact .bind (.writeBlock m p k _ _ _) fun _ _ => ih _ _
    · exact .pure m _

theorem Keeps.encode (b : BinaryBuffer) : Keeps m (fun _ => True) (BinaryEnc.encode p k b) := by
  refine .bind (.get m) fun e he => ?_
  split
  · refine .bind (.lift m _ fun _ => rfl) fun _ _ => .bind (.lift m _ fun _ => rfl) fun _ _ =>
      .bind (.lift m _ fun _ => rfl) fun _ _ => .bind (.set he) fun _ _ => ?_
    dsimp only
    split
    · exact .pure m _
    · exact .bind (.writeRemaining m p k) fun _ _ => .bind (.get m) fun e he => .bind (.set he) fun _ _ =>
        .encodeLoop m p k _ _ _ _
  · exact .encodeLoop m p k _ _ _ _

theorem Keeps.flush : Keeps m (fun _ => True) (BinaryEnc.flush p k) := by
  refine .bind (.get m) fun e he => ?_
  split
  · exact .bind (.writeRemaining m p k) fun _ _ => .pure m _
  · exact .pure m _

theorem Keeps.calls (cs : List (EncCall BinaryBuffer)) : Keeps m (fun _ => True) (BinaryEnc.calls p k cs) := by
  induction cs with
  | nil => exact .pure m _
  | cons c cs ih =>
    cases c with
    | encode b => exact .bind (.encode m p k b) fun _ _ => ih
    | flush => exact .bind (.flush m p k) fun _ _ => ih

end

end MoreRows

/-- C119 for primitive columns: after any calls, the blocks made of a buffer and `flush`, all but the last, are the first ones
made of a buffer with the same rows and more, whatever is called afterwards and whether it returns or not. -/
theorem C119_primitive {α : Type} [Element α] (p : Profile) (nullable : Bool) (m : Nat)
    (before after : List (EncCall (PrimitiveBuffer α))) (rows more : List (Option α)) (b b' : PrimitiveBuffer α)
    (hb : b.Shows nullable rows) (hb' : b'.Shows nullable (rows ++ more)) (e : PrimitiveEnc.Encoder α) (blocks : List (Nat × Bytes))
    (hrun : PrimitiveEnc.calls p recorder (before ++ [.encode b, .flush]) (PrimitiveEnc.Encoder.new m nullable, []) =
      (.ok (), (e, blocks))) :
    blocks.dropLast <+:
      (PrimitiveEnc.calls p recorder (before ++ .encode b' :: after) (PrimitiveEnc.Encoder.new m nullable, [])).2.2 := by
  rw [MoreRows.PrimitiveEnc.calls_append] at hrun ⊢
  obtain ⟨_, ⟨e1, l1⟩, h1, h2⟩ := bind_inv hrun
  rw [Run.bind_ok h1]
  exact C119_primitive_from p nullable e1 e l1 blocks rows more b b' hb hb' h2 after

/-- C119 for binary columns. -/
theorem C119_binary (p : Profile) (nullable : Bool) (m : Nat) (hm : 0 < m)
    (before after : List (EncCall BinaryBuffer)) (rows more : List (Option Bytes)) (b b' : BinaryBuffer)
    (hb : b.Shows nullable rows) (hb' : b'.Shows nullable (rows ++ more)) (e : BinaryEnc.Encoder) (blocks : List (Nat × Bytes))
    (hrun : BinaryEnc.calls p recorder (before ++ [.encode b, .flush]) (BinaryEnc.Encoder.new m nullable, []) =
      (.ok (), (e, blocks))) :
    blocks.dropLast <+:
      (BinaryEnc.calls p recorder (before ++ .encode b' :: after) (BinaryEnc.Encoder.new m nullable, [])).2.2 := by
  rw [MoreRows.BinaryEnc.calls_append] at hrun ⊢
  obtain ⟨_, ⟨e1, l1⟩, h1, h2⟩ := bind_inv hrun
  have hk := (MoreRows.Keeps.calls m p recorder before (BinaryEnc.Encoder.new m nullable, []) rfl).1
  rw [h1] at hk
  rw [Run.bind_ok h1]
  exact C119_binary_from p nullable e1 e (by rw [show e1.minBlockSize = m from hk]; exact hm) l1 blocks rows more b b' hb hb' h2 after

/-- Three `i32`, two in a block, and then five. -/
example :
    intBlocks .debug true 8 [[some 1, none, some 2, some 3]] =
      some [(2, [8, 1, 0, 0, 0, 2, 0, 0, 0, 3, 5]), (3, [4, 3, 0, 0, 0, 3, 1])] ∧
    intBlocks .debug true 8 [[some 1, none, some 2, some 3, some 4, some 5]] =
      some [(2, [8, 1, 0, 0, 0, 2, 0, 0, 0, 3, 5]), (7, [8, 3, 0, 0, 0, 4, 0, 0, 0, 3, 3]), (8, [4, 5, 0, 0, 0, 3, 1])] := by
  decide +kernel

/-- Two byte strings, a third one in the same buffer, and a third one in another buffer. -/
example :
    binaryBlocks .debug false 2 [[some [1, 1], some [2]]] = some [(0, [2, 1, 1, 2, 2]), (1, [1, 2, 1, 1])] ∧
    binaryBlocks .debug false 2 [[some [1, 1], some [2], some [3]]] =
      some [(0, [2, 1, 1, 2, 2]), (1, [2, 2, 3, 1, 1]), (2, [1, 3, 1, 1])] ∧
    binaryBlocks .debug false 2 [[some [1, 1], some [2]], [some [3, 4]]] =
      some [(0, [2, 1, 1, 2, 2]), (2, [3, 2, 3, 4, 2, 1])] := by
  decide +kernel

end Meerkat
