import Verif.Proofs.BinaryBlock
import Verif.Proofs.Sink

set_option autoImplicit false

/-! # The pieces of the binary encoder on buffers known by their rows -/

namespace Meerkat.BinaryEnc
open Spec Varint BinaryBuffer

theorem orBits_getD (a b : List Bool) (i : Nat) :
    (orBits a b).getD i false = (a.getD i false || b.getD i false) := by
  induction a generalizing b i with
  | nil => simp [orBits]
  | cons x a ih =>
    cases b with
    | nil => simp [orBits]
    | cons y b =>
      cases i with
      | zero => simp [orBits]
      | succ i => simp only [orBits, List.getD_cons_succ, ih]

theorem orBits_length (a b : List Bool) : (orBits a b).length = max a.length b.length := by
  induction a generalizing b with
  | nil => simp [orBits]
  | cons x a ih =>
    cases b with
    | nil => simp [orBits]
    | cons y b => simp only [orBits, List.length_cons, ih]; omega

theorem orBits_nil_left (b : List Bool) : orBits [] b = b := by cases b <;> rfl

theorem seenBits_length {α : Type} (st : List Bool) (rows : List (Option α)) : (seenBits st rows).length = rows.length := by
  rw [seenBits, List.length_take, orBits_length, validityOf_length]; omega

theorem seenBits_nil {α : Type} (rows : List (Option α)) : seenBits [] rows = validityOf rows := by
  rw [seenBits, orBits_nil_left, ← validityOf_length rows, List.take_length]

theorem seenBits_get {α : Type} (st : List Bool) (rows : List (Option α)) (i : Nat) (hi : i < (seenBits st rows).length) :
    (seenBits st rows)[i] = ((validityOf rows).getD i false || st.getD i false) := by
  have hl := seenBits_length st rows
  have h1 : (seenBits st rows).getD i false = (seenBits st rows)[i] := by
    rw [List.getD_eq_getElem?_getD, List.getElem?_eq_getElem hi, Option.getD_some]
  rw [← h1, seenBits, List.getD_eq_getElem?_getD, List.getElem?_take_of_lt (by omega), ← List.getD_eq_getElem?_getD,
    orBits_getD, Bool.or_comm]

/-- Rows without nulls: all bits are set anyway. -/
theorem seenBits_full {α : Type} (st : List Bool) {rows : List (Option α)} (h : none ∉ rows) :
    seenBits st rows = validityOf rows := by
  apply List.ext_getElem (by rw [seenBits_length, validityOf_length])
  intro i h1 h2
  have hi : i < rows.length := by rw [← validityOf_length]; exact h2
  have ht : (validityOf rows)[i] = true := by
    simp only [validityOf, List.getElem_map]
    cases hx : rows[i] with
    | none => exact absurd (hx ▸ List.getElem_mem hi) h
    | some v => rfl
  rw [seenBits_get, List.getD_eq_getElem?_getD, List.getElem?_eq_getElem h2, Option.getD_some, ht, Bool.true_or]

/-- The buffer holds `rows`; the bits `stale` of its validity bitmap were set before. -/
structure Holds (nullable : Bool) (stale : List Bool) (b : BinaryBuffer) (rows : List (Option Bytes)) : Prop where
  data : b.data = (valuesOf rows).flatten
  offsets : b.offsets = offsetsOf 0 (valuesOf rows)
  validity : match nullable with
    | false => b.validity = none
    | true => ∃ bm, b.validity = some bm ∧ bm.Inv ∧ bm.len = rows.length ∧
        ∀ i, bm.bitAt i = ((validityOf rows).getD i false || stale.getD i false)

theorem holds_ofRows (nullable : Bool) (rows : List (Option Bytes)) :
    Holds nullable [] (ofRows nullable rows) rows where
  data := rfl
  offsets := rfl
  validity := by
    cases nullable with
    | false => rfl
    | true =>
      refine ⟨Bitmap.ofBits (validityOf rows), rfl, Bitmap.ofBits_inv _, ?_, fun i => ?_⟩
      · rw [Bitmap.ofBits_len, validityOf_length]
      · rw [Bitmap.ofBits_bitAt]; simp

theorem reads_seenBits {α : Type} {bm : Bitmap} {st : List Bool} {rows : List (Option α)} (hI : bm.Inv)
    (hl : bm.len = rows.length)
    (h : ∀ i, bm.bitAt i = ((validityOf rows).getD i false || st.getD i false)) : bm.Reads (seenBits st rows) :=
  Bitmap.reads_of_bitAt hI (by rw [hl, seenBits_length]) fun i hi => by rw [h, seenBits_get]

theorem Holds.len {nullable : Bool} {st : List Bool} {b : BinaryBuffer} {rows : List (Option Bytes)}
    (h : Holds nullable st b rows) : b.len = (valuesOf rows).length := by
  simp [BinaryBuffer.len, h.offsets]

/-- The bits `clear` leaves. -/
def afterClear {α : Type} (st : List Bool) (rows : List (Option α)) : List Bool :=
  (orBits st (validityOf rows)).take (8 * 1024)

theorem Holds.clear {nullable : Bool} {st : List Bool} {b : BinaryBuffer} {rows : List (Option Bytes)}
    (h : Holds nullable st b rows) : Holds nullable (afterClear st rows) b.clear [] where
  data := rfl
  offsets := by simp [BinaryBuffer.clear, h.offsets, offsetsOf, endOffsets]
  validity := by
    have := h.validity
    cases nullable with
    | false => simp only [BinaryBuffer.clear]; rw [this]; rfl
    | true =>
      obtain ⟨bm, h1, _, _, h4⟩ := this
      refine ⟨bm.clear, by simp [BinaryBuffer.clear, h1], Bitmap.clear_inv _, rfl, fun i => ?_⟩
      have hcap : INITIAL_BITMAP_CAP = 1024 := rfl
      rw [Bitmap.clear_bitAt, h4, hcap, afterClear]
      by_cases hi : i < 8 * 1024
      · rw [List.getD_eq_getElem?_getD (l := List.take _ _), List.getElem?_take_of_lt hi,
          ← List.getD_eq_getElem?_getD, orBits_getD, Bool.or_comm]
        simp [hi]
      · rw [List.getD_eq_getElem?_getD (l := List.take _ _),
          List.getElem?_eq_none (by rw [List.length_take]; omega)]
        simp [hi]

theorem Holds.appendFrom (p : Profile) {nullable : Bool} {st : List Bool} {dst src : BinaryBuffer}
    {ds pre mid post : List (Option Bytes)} (hd : Holds nullable st dst ds)
    (hs : Holds nullable [] src (pre ++ mid ++ post)) (pos : Nat)
    (hend : EndsWithValue mid) (hfit : dataLen (ds ++ mid) < U32_MAX)
    (hpos : nullable = true → pos = pre.length) :
    ∃ dst', dst.appendFrom p src (valuesOf pre).length (valuesOf (pre ++ mid)).length pos =
      .ok (dst', if nullable then pre.length + mid.length else (valuesOf mid).length) ∧
      Holds nullable st dst' (ds ++ mid) := by
  have hfit' : U32_MAX > (dst.data ++ (valuesOf mid).flatten).length := by
    rw [hd.data]; simpa [dataLen] using hfit
  have hn : (valuesOf (pre ++ mid)).length - (valuesOf pre).length = (valuesOf mid).length := by simp
  have hle : (valuesOf pre).length ≤ (valuesOf (pre ++ mid)).length := by simp
  have ho := hs.offsets
  have h1 := offsetsOf_get 0 (valuesOf (pre ++ mid ++ post)) (valuesOf pre).length (by simp)
  have h2 := offsetsOf_get 0 (valuesOf (pre ++ mid ++ post)) (valuesOf (pre ++ mid)).length (by simp)
  have e1 : (valuesOf (pre ++ mid ++ post)).take (valuesOf pre).length = valuesOf pre := by simp
  have e2 : (valuesOf (pre ++ mid ++ post)).take (valuesOf (pre ++ mid)).length = valuesOf (pre ++ mid) := by
    rw [valuesOf_append (pre ++ mid), List.take_left]
  rw [e1] at h1; rw [e2] at h2
  have hl : dst.offsets.getLast? = some (valuesOf ds).flatten.length := by
    rw [hd.offsets, offsetsOf_getLast]; simp
  have hpush := appendFromOffsets_ok p src _ ho (valuesOf mid)
    (valuesOf pre) (valuesOf post) (valuesOf ds).flatten.length (by simp)
    (by simp only [dataLen, valuesOf_append, List.flatten_append, List.length_append] at hfit; omega)
  have hsl : slice src.data (0 + (valuesOf pre).flatten.length)
      (0 + (valuesOf (pre ++ mid)).flatten.length) = .ok (valuesOf mid).flatten := by
    have := slice_flatten_mid (valuesOf pre) (valuesOf mid) (valuesOf post)
    rw [Nat.zero_add, Nat.zero_add, hs.data]
    simp only [valuesOf_append] at this ⊢
    exact this
  simp only [BinaryBuffer.appendFrom, index, ho, h1, h2, ok_bind, Profile.sub_ok p hle, hl, hn,
    Option.getD_some, hpush, hsl, if_pos hfit']
  have hdv := hd.validity
  have hsv := hs.validity
  cases nullable with
  | false =>
    simp only at hdv hsv
    simp only [hdv, hsv, validityAppendFrom, ok_bind, pure_eq_ok, Bool.false_eq_true, if_false]
    refine ⟨_, rfl, ?_, ?_, rfl⟩
    · simp [hd.data]
    · simp [hd.offsets, offsetsOf_append]
  | true =>
    obtain ⟨sm, hs1, hs2, hs3, hs4⟩ := hsv
    have hsr := reads_seenBits hs2 hs3 hs4
    rw [seenBits_nil] at hsr
    obtain ⟨dm, hd1, hd2, hd3, hd4⟩ := hdv
    have hdrop : (validityOf (pre ++ mid ++ post)).drop pre.length = validityOf (mid ++ post) := by
      rw [List.append_assoc, validityOf_append, ← validityOf_length pre, List.drop_left]
    obtain ⟨dm', a1, a2, a3, a4⟩ := Bitmap.appendAll_spec hd2 (validityOf mid)
    simp only [hd1, hs1, validityAppendFrom, Bitmap.appendFrom_eq hsr hd2, hpos rfl, hdrop,
      takeSet_validityOf mid post hend, a1, ok_bind, pure_eq_ok, if_true, validityOf_length]
    refine ⟨_, rfl, ?_, ?_, dm', rfl, a3, ?_, fun i => ?_⟩
    · simp [hd.data]
    · simp [hd.offsets, offsetsOf_append]
    · rw [a2, hd3, validityOf_length, List.length_append]
    · rw [a4, hd3, hd4, validityOf_length, validityOf_append]
      simp only [List.getD_eq_getElem?_getD]
      by_cases h1 : i < ds.length
      · rw [if_neg (by omega), List.getElem?_append_left (by rw [validityOf_length]; exact h1)]
      · have hnone : (validityOf ds)[i]? = none := List.getElem?_eq_none (by rw [validityOf_length]; omega)
        rw [List.getElem?_append_right (by rw [validityOf_length]; omega), validityOf_length, hnone]
        by_cases h2 : i < ds.length + mid.length
        · rw [if_pos (by omega)]; simp
        · rw [if_neg (by omega), List.getElem?_eq_none (l := validityOf mid) (by rw [validityOf_length]; omega)]

/-! ## Chunks -/

theorem fill_some {m j : Nat} {vs : List Bytes} (h : fill m vs = some j) :
    j ≤ vs.length ∧ m ≤ (vs.take j).flatten.length ∧ ∀ i, i < j → (vs.take i).flatten.length < m := by
  induction vs generalizing m j with
  | nil =>
    cases m with
    | zero => simp only [fill, Option.some.injEq] at h; subst h; simp
    | succ m => simp [fill] at h
  | cons v vs ih =>
    cases m with
    | zero => simp only [fill, Option.some.injEq] at h; subst h; simp
    | succ m =>
      simp only [fill, Option.map_eq_some_iff] at h
      obtain ⟨k, hk, rfl⟩ := h
      obtain ⟨h1, h2, h3⟩ := ih hk
      refine ⟨by simpa using h1, ?_, fun i hi => ?_⟩
      · rw [List.take_succ_cons, List.flatten_cons, List.length_append]; omega
      · cases i with
        | zero => simp
        | succ i =>
          have := h3 i (by omega)
          rw [List.take_succ_cons, List.flatten_cons, List.length_append]; omega

theorem fill_none {m : Nat} {vs : List Bytes} (h : fill m vs = none) : vs.flatten.length < m := by
  induction vs generalizing m with
  | nil =>
    cases m with
    | zero => simp [fill] at h
    | succ m => simp
  | cons v vs ih =>
    cases m with
    | zero => simp [fill] at h
    | succ m =>
      simp only [fill, Option.map_eq_none_iff] at h
      have := ih h
      rw [List.flatten_cons, List.length_append]; omega

theorem fill_pos {m j : Nat} {vs : List Bytes} (h : fill m vs = some j) (hm : 0 < m) : 0 < j := by
  rcases Nat.eq_zero_or_pos j with rfl | h0
  · have := (fill_some h).2.1; simp at this; omega
  · exact h0

theorem findPosition_eq (p : Profile) (S m : Nat) (c : List Bytes) : ∀ (S' pos : Nat), S ≤ S' →
    findPosition p S m (offsetsOf S' c) pos =
      .ok ((fill (m - (S' - S)) c).map fun j => (pos + j, S' + (c.take j).flatten.length)) := by
  induction c with
  | nil =>
    intro S' pos h
    simp only [offsetsOf, endOffsets, findPosition, Profile.sub_ok p h, ok_bind, pure_eq_ok]
    split
    · rename_i hge
      rw [show m - (S' - S) = 0 by omega]; simp [fill]
    · rename_i hge
      obtain ⟨k, hk⟩ : ∃ k, m - (S' - S) = k + 1 := ⟨m - (S' - S) - 1, by omega⟩
      rw [hk]; simp [fill]
  | cons v c ih =>
    intro S' pos h
    rw [offsetsOf, endOffsets, findPosition]
    simp only [Profile.sub_ok p h, ok_bind, pure_eq_ok]
    split
    · rename_i hge
      rw [show m - (S' - S) = 0 by omega]; simp [fill]
    · rename_i hge
      obtain ⟨k, hk⟩ : ∃ k, m - (S' - S) = k + 1 := ⟨m - (S' - S) - 1, by omega⟩
      have := ih (S' + v.length) (pos + 1) (by omega)
      rw [offsetsOf] at this
      rw [this, hk, fill, show m - (S' + v.length - S) = k + 1 - v.length by omega]
      cases fill (k + 1 - v.length) c with
      | none => rfl
      | some j =>
        simp only [Option.map_some, List.take_succ_cons, List.flatten_cons, List.length_append]
        congr 3 <;> omega

/-- The end position of a chunk that does not reach the end of the buffer is counted from its start. -/
theorem chunk_eq (p : Profile) (b : BinaryBuffer) (a c : List Bytes) (hb : b.offsets = offsetsOf 0 (a ++ c))
    (m : Nat) :
    chunk p b a.length m = match fill m c with
      | none => .ok ⟨a.length, (a ++ c).length, a.flatten.length, (a ++ c).flatten.length, c.flatten.length, c.length⟩
      | some j => do
        let len ← p.sub 64 j a.length
        return ⟨a.length, j, a.flatten.length, a.flatten.length + (c.take j).flatten.length,
          (c.take j).flatten.length, len⟩ := by
  have h1 := offsetsOf_get 0 (a ++ c) a.length (by simp)
  rw [List.take_left, Nat.zero_add] at h1
  have hdrop : (offsetsOf 0 (a ++ c)).drop a.length = offsetsOf a.flatten.length c := by
    cases a with
    | nil => simp [offsetsOf]
    | cons v a =>
      have hv : (v.length + a.flatten.length) = (v :: a).flatten.length := by
        rw [List.flatten_cons, List.length_append]
      have h2 := offsetsOf_append 0 (v :: a) c
      rw [h2, List.drop_append]
      have hl : (offsetsOf 0 (v :: a)).length = (v :: a).length + 1 := offsetsOf_length _ _
      rw [hl, Nat.sub_eq_zero_of_le (by omega), List.drop_zero]
      have hg := offsetsOf_get 0 (v :: a) (v :: a).length (Nat.le_refl _)
      have hlt : (v :: a).length < (offsetsOf 0 (v :: a)).length := by omega
      rw [List.drop_eq_getElem_cons hlt, List.drop_of_length_le (by omega)]
      rw [List.getElem?_eq_getElem hlt, List.take_length] at hg
      rw [Option.some.inj hg]
      simp only [Nat.zero_add, offsetsOf, List.cons_append, List.nil_append]
  simp only [chunk, index, hb, h1, ok_bind, hdrop, findPosition_eq p _ m c _ 0 (Nat.le_refl _), Nat.sub_self,
    Nat.sub_zero]
  cases fill m c with
  | none =>
    have h2 := offsetsOf_get 0 (a ++ c) (a ++ c).length (Nat.le_refl _)
    rw [List.take_length, Nat.zero_add] at h2
    have hf : (a ++ c).flatten.length = a.flatten.length + c.flatten.length := by
      rw [List.flatten_append, List.length_append]
    simp only [Option.map_none, chunkEnd, index, hb, offsetsOf_length, Nat.add_sub_cancel, h2, ok_bind, pure_eq_ok]
    rw [Profile.sub_ok p (by omega), ok_bind, Profile.sub_ok p (by simp)]
    simp only [ok_bind, hf, Nat.add_sub_cancel_left, List.length_append]
  | some j =>
    simp only [Option.map_some, chunkEnd, ok_bind, Nat.zero_add]
    rw [Profile.sub_ok p (by omega)]
    simp only [ok_bind, Nat.add_sub_cancel_left]

/-! ## Encoding one block -/

/-- From bit `pos` on, the first bits of a buffer's validity with `n` set are `bits`. -/
def Shows (nullable : Bool) (validity : Option Bitmap) (pos n : Nat) (bits : List Bool) : Prop :=
  match nullable with
  | false => validity = none ∧ bits.length = n
  | true => ∃ bm ss, validity = some bm ∧ bm.Reads ss ∧ takeSet n (ss.drop pos) = some bits

theorem encodeValidity_shows (p : Profile) {nullable : Bool} {validity : Option Bitmap} {pos n : Nat} {bits : List Bool}
    (hs : Shows nullable validity pos n bits) (be : Rle.Encoder) (hlen : bits.length < 2 ^ 64) :
    ∃ be', PrimitiveEnc.encodeValidity p validity pos n be =
      .ok (⟨if nullable then pos + bits.length else n, if nullable then pos + bits.length else 0⟩,
          if nullable then Rle.rleBytes bits else [], be') := by
  cases nullable with
  | false => rw [hs.1]; exact ⟨be, rfl⟩
  | true =>
    obtain ⟨bm, ss, hv1, hv2, hv3⟩ := hs
    obtain ⟨e1, h1, hs1⟩ := Rle.Encoder.putAll_safe p bits _ (Rle.Encoder.clear_safe be)
    obtain ⟨e2, h2, _⟩ := Rle.Encoder.flush_safe p e1 hs1
    have hrun := Rle.run_eq p be bits hlen
    rw [Rle.Encoder.run, h1] at hrun
    simp only [ok_bind, h2, pure_eq_ok, Except.ok.injEq] at hrun
    refine ⟨e2, ?_⟩
    simp only [PrimitiveEnc.encodeValidity, hv1, if_true]
    rw [Rle.Encoder.putFrom_eq p hv2 _ (Rle.Encoder.clear_safe be), hv3]
    simp only [h1, ok_bind, h2, pure_eq_ok, hrun]

/-- What a source buffer shows for some of its rows. -/
theorem Holds.shows_mid {nullable : Bool} {b : BinaryBuffer} {pre mid post : List (Option Bytes)}
    (hb : Holds nullable [] b (pre ++ mid ++ post)) (hacc : Accepts nullable mid) (hend : EndsWithValue mid) :
    Shows nullable b.validity pre.length (valuesOf mid).length (validityOf mid) := by
  have hv := hb.validity
  cases nullable with
  | false =>
    refine ⟨hv, ?_⟩
    rcases hacc with h | h
    · cases h
    · rw [validityOf_length, valuesOf_length_of_no_none h]
  | true =>
    obtain ⟨bm, h1, h2, h3, h4⟩ := hv
    have hr := reads_seenBits h2 h3 h4
    rw [seenBits_nil] at hr
    refine ⟨bm, _, h1, hr, ?_⟩
    rw [List.append_assoc, validityOf_append, ← validityOf_length pre, List.drop_left]
    exact takeSet_validityOf mid post hend

/-- The validity bits written for the rows of a buffer with stale bits. -/
def writtenBits {α : Type} (nullable : Bool) (st : List Bool) (rows : List (Option α)) : List Bool :=
  if nullable then (takeSet (valuesOf rows).length (seenBits st rows)).getD [] else validityOf rows

theorem seenBits_or {α : Type} (st : List Bool) (rows : List (Option α)) :
    (seenBits st rows).length = (validityOf rows).length ∧
      ∀ i, (validityOf rows).getD i false = true → (seenBits st rows).getD i false = true := by
  refine ⟨by rw [seenBits_length, validityOf_length], fun i h => ?_⟩
  have hi : i < (seenBits st rows).length := by
    apply Classical.byContradiction
    intro hn
    rw [seenBits_length] at hn
    rw [List.getD_eq_getElem?_getD, List.getElem?_eq_none (by rw [validityOf_length]; omega)] at h
    cases h
  rw [List.getD_eq_getElem?_getD, List.getElem?_eq_getElem hi, Option.getD_some, seenBits_get, h, Bool.true_or]

/-- Bits set at least where those of another list of the same length are: at least as many are set, and no more
only when they are the same. -/
theorem count_of_le : ∀ (a b : List Bool), a.length = b.length →
    (∀ i, b.getD i false = true → a.getD i false = true) →
    b.count true ≤ a.count true ∧ (a.count true = b.count true → a = b) := by
  intro a
  induction a with
  | nil => intro b hl _; rw [List.eq_nil_of_length_eq_zero hl.symm]; simp
  | cons x a ih =>
    intro b hl h
    cases b with
    | nil => simp at hl
    | cons y b =>
      obtain ⟨h1, h2⟩ := ih b (by simpa using hl) (fun i hi => by simpa using h (i + 1) (by simpa using hi))
      have h0 := h 0
      simp only [List.getD_cons_zero] at h0
      cases x <;> cases y
      · simp only [List.count_cons]
        exact ⟨by simpa using h1, fun hc => by rw [h2 (by simpa using hc)]⟩
      · simp at h0
      · simp only [List.count_cons_self, List.count_cons_of_ne (by decide : false ≠ true)]
        exact ⟨by omega, fun hc => by omega⟩
      · simp only [List.count_cons_self]
        exact ⟨by omega, fun hc => by rw [h2 (by omega)]⟩

theorem takeSet_seenBits {α : Type} (st : List Bool) (rows : List (Option α)) :
    ∃ bits, takeSet (valuesOf rows).length (seenBits st rows) = some bits := by
  cases h : takeSet (valuesOf rows).length (seenBits st rows) with
  | some bits => exact ⟨bits, rfl⟩
  | none =>
    have h1 := (takeSet_none _ _).mp h
    have h2 := (count_of_le _ _ (seenBits_or st rows).1 (seenBits_or st rows).2).1
    rw [count_validityOf] at h2
    omega

/-- What a buffer shows for all of its rows. -/
theorem Holds.shows_all {nullable : Bool} {st : List Bool} {b : BinaryBuffer} {rows : List (Option Bytes)}
    (hb : Holds nullable st b rows) (hacc : Accepts nullable rows) :
    Shows nullable b.validity 0 (valuesOf rows).length (writtenBits nullable st rows) := by
  have hv := hb.validity
  cases nullable with
  | false =>
    refine ⟨hv, ?_⟩
    rcases hacc with h | h
    · cases h
    · simp [writtenBits, validityOf_length, valuesOf_length_of_no_none h]
  | true =>
    obtain ⟨bm, h1, h2, h3, h4⟩ := hv
    refine ⟨bm, _, h1, reads_seenBits h2 h3 h4, ?_⟩
    obtain ⟨bits, h⟩ := takeSet_seenBits st rows
    simp only [List.drop_zero, writtenBits, if_true, h, Option.getD_some]

theorem takeSet_upto : ∀ (l : List Bool) (n : Nat) (p : List Bool), takeSet n l = some p → p = uptoSet n l := by
  intro l
  induction l with
  | nil => intro n p h; cases n <;> simp [takeSet, uptoSet] at h ⊢; exact h
  | cons b l ih =>
    intro n p h
    cases n with
    | zero => simp [takeSet, uptoSet] at h ⊢; exact h
    | succ n =>
      simp only [takeSet, Option.map_eq_some_iff] at h
      obtain ⟨q, hq, rfl⟩ := h
      have := ih _ _ hq
      cases b with
      | true => simp only [uptoSet]; rw [this]; rfl
      | false => simp only [uptoSet]; rw [this]; rfl

theorem writtenBits_upto {α : Type} (nullable : Bool) (st : List Bool) (rows : List (Option α)) :
    writtenBits nullable st rows =
      if nullable then uptoSet (valuesOf rows).length (seenBits st rows) else validityOf rows := by
  obtain ⟨bits, h⟩ := takeSet_seenBits st rows
  rw [writtenBits, h, Option.getD_some, takeSet_upto _ _ _ h]

theorem writtenBits_nil {α : Type} (nullable : Bool) {rows : List (Option α)} (hend : EndsWithValue rows) :
    writtenBits nullable [] rows = validityOf rows := by
  have := takeSet_validityOf rows [] hend
  rw [List.append_nil] at this
  rw [writtenBits, seenBits_nil, this]
  simp

theorem writtenBits_seen {α : Type} (nullable : Bool) {st : List Bool} {rows : List (Option α)} (hend : EndsWithValue rows)
    (h : nullable = true → seenBits st rows = validityOf rows) : writtenBits nullable st rows = validityOf rows := by
  cases nullable with
  | false => rfl
  | true =>
    have h2 := writtenBits_nil true hend
    rw [writtenBits, seenBits_nil] at h2
    rw [writtenBits, h rfl]
    exact h2

theorem writtenBits_length_le {α : Type} (nullable : Bool) (st : List Bool) (rows : List (Option α)) :
    (writtenBits nullable st rows).length ≤ rows.length := by
  cases nullable with
  | false => simp [writtenBits, validityOf_length]
  | true =>
    obtain ⟨bits, h⟩ := takeSet_seenBits st rows
    have := ((takeSet_spec _ _ _).mp h).isPrefix.length_le
    rw [seenBits_length] at this
    simpa [writtenBits, h] using this

theorem writtenBits_pos {α : Type} (nullable : Bool) (st : List Bool) {rows : List (Option α)}
    (h1 : 1 ≤ (valuesOf rows).length) : 1 ≤ (writtenBits nullable st rows).length := by
  cases nullable with
  | false =>
    have := valuesOf_length_le rows
    simp [writtenBits, validityOf_length]; omega
  | true =>
    obtain ⟨bits, h⟩ := takeSet_seenBits st rows
    have hc := ((takeSet_spec _ _ _).mp h).count
    have := List.count_le_length (a := true) (l := bits)
    simp only [writtenBits, if_true, h, Option.getD_some]
    omega

/-- Only untouched rows are counted in full. -/
theorem seen_of_length {α : Type} {st : List Bool} {rows : List (Option α)}
    (h : (writtenBits true st rows).length = rows.length) : seenBits st rows = validityOf rows := by
  obtain ⟨bits, hb⟩ := takeSet_seenBits st rows
  have hs := (takeSet_spec _ _ _).mp hb
  simp only [writtenBits, if_true, hb, Option.getD_some] at h
  have he : bits = seenBits st rows := by
    obtain ⟨t, ht⟩ := hs.isPrefix
    have hl := congrArg List.length ht
    rw [List.length_append, seenBits_length] at hl
    have : t = [] := List.eq_nil_of_length_eq_zero (by omega)
    rw [this, List.append_nil] at ht
    exact ht
  have hc := hs.count
  rw [he, ← count_validityOf] at hc
  exact (count_of_le _ _ (seenBits_or st rows).1 (seenBits_or st rows).2).2 hc

theorem itemLens_eq (p : Profile) (b : BinaryBuffer) (items : List Bytes) (hb : b.offsets = offsetsOf 0 items) :
    ∀ (mid a c : List Bytes), items = a ++ mid ++ c →
      itemLens p b mid.length a.length = .ok (mid.map List.length) := by
  intro mid
  induction mid with
  | nil => intro a c _; rfl
  | cons x xs ih =>
    intro a c he
    have h1 := itemLen_offsets p b items hb a.length (by rw [he]; simp)
    have h2 : items[a.length]'(by rw [he]; simp) = x := by simp [he]
    have h4 := ih (a ++ [x]) c (by simp [he])
    simp only [List.length_append, List.length_cons, List.length_nil, Nat.zero_add] at h4
    simp only [List.length_cons, itemLens, h1, h2, ok_bind, h4, pure_eq_ok, List.map_cons]

/-- The chunk of the items of `mid` in a buffer of rows `pre ++ mid ++ post`. -/
def chunkOf (pre mid : List (Option Bytes)) : BinaryChunk :=
  ⟨(valuesOf pre).length, (valuesOf (pre ++ mid)).length, byteCount pre, byteCount (pre ++ mid), byteCount mid,
    (valuesOf mid).length⟩

theorem byteCount_append (a b : List (Option Bytes)) : byteCount (a ++ b) = byteCount a + byteCount b := by
  simp [byteCount]

theorem encodeBinaryBuffer_ok (p : Profile) {nullable : Bool} {st : List Bool} {b : BinaryBuffer}
    {pre mid post : List (Option Bytes)} (hb : Holds nullable st b (pre ++ mid ++ post)) (pos : Nat)
    {bits : List Bool} (hshow : Shows nullable b.validity pos (valuesOf mid).length bits)
    (be : Rle.Encoder) (hlen : bits.length < 2 ^ 64) (hsize : byteCount mid < 2 ^ 64)
    (h1 : 1 ≤ (valuesOf mid).length) (h128 : (valuesOf mid).length ≤ 128) :
    ∃ be' deltas, encodeBinaryBuffer p b (chunkOf pre mid) pos be =
      .ok ⟨⟨if nullable then pos + bits.length else (valuesOf mid).length,
            if nullable then pos + bits.length else 0⟩, blockWith nullable mid bits, deltas, be'⟩ := by
  obtain ⟨be', hv⟩ := encodeValidity_shows p hshow be hlen
  have hsl : slice b.data (byteCount pre) (byteCount (pre ++ mid)) = .ok (valuesOf mid).flatten := by
    have := slice_flatten_mid (valuesOf pre) (valuesOf mid) (valuesOf post)
    rw [hb.data, byteCount, byteCount]
    simp only [valuesOf_append] at this ⊢
    exact this
  have hit : itemLens p b ((valuesOf (pre ++ mid)).length - (valuesOf pre).length) (valuesOf pre).length =
      .ok ((valuesOf mid).map List.length) := by
    have := itemLens_eq p b _ hb.offsets (valuesOf mid) (valuesOf pre) (valuesOf post) (by simp)
    rw [show (valuesOf (pre ++ mid)).length - (valuesOf pre).length = (valuesOf mid).length by simp]
    exact this
  refine ⟨be', ((valuesOf mid).map List.length) ++
    List.replicate (128 - ((valuesOf mid).map List.length).length) 0, ?_⟩
  simp only [encodeBinaryBuffer, chunkOf, putVarint_ok [] hsize, hsl, hit, ok_bind]
  rw [Offsets.encode_ok p _ _ (by simpa using h1) (by simpa using h128)]
  simp only [ok_bind, hv, pure_eq_ok, blockWith, List.nil_append]

theorem addRows_ok {a b : Nat} (h : a + b < 2 ^ 32) : addRows a b = .ok (a + b) := by
  rw [addRows, if_pos ⟨by omega, h⟩]

/-- `write_block` for the first rows of a buffer, or for all of `remaining`. -/
theorem writeBlock_ok (p : Profile) {nullable : Bool} {st : List Bool} {b : BinaryBuffer}
    {mid post : List (Option Bytes)} (hb : Holds nullable st b (mid ++ post)) {bits : List Bool}
    (hshow : Shows nullable b.validity 0 (valuesOf mid).length bits) (e : Encoder) (l : List (Nat × Bytes))
    (hsize : byteCount mid < 2 ^ 64)
    (h1 : 1 ≤ (valuesOf mid).length) (h128 : (valuesOf mid).length ≤ 128) (hpos : 1 ≤ bits.length)
    (hrows : e.numRows + bits.length < 2 ^ 32) :
    ∃ e' : Encoder, writeBlock p recorder b (chunkOf [] mid) 0 (e, l) =
      (.ok ⟨bits.length, if nullable then bits.length else 0⟩,
        (e', l ++ [(e.numRows + bits.length - 1, blockWith nullable mid bits)])) ∧
      e'.remaining = e.remaining ∧ e'.minBlockSize = e.minBlockSize ∧ e'.numRows = e.numRows + bits.length := by
  obtain ⟨be', ds, h⟩ := encodeBinaryBuffer_ok p (pre := []) hb 0 hshow e.bitmapEncoder (by omega) hsize h1 h128
  have hn : (if nullable then bits.length else (valuesOf mid).length) = bits.length := by
    cases nullable with
    | true => simp
    | false => simpa using hshow.2.symm
  simp only [Nat.zero_add, hn] at h
  refine ⟨⟨e.remaining, blockWith nullable mid bits, ds, be', e.minBlockSize, e.numRows + bits.length⟩, ?_, rfl, rfl, rfl⟩
  simp only [writeBlock, Run.bind_apply, Run.get_apply, h, Run.lift_ok, Run.set_apply, addRows_ok hrows]
  rw [Profile.sub_ok p (by omega)]
  simp only [Run.lift_ok, Run.emit_recorder, Run.pure_apply]

theorem wholeChunk_eq {nullable : Bool} {st : List Bool} {b : BinaryBuffer} {rows : List (Option Bytes)}
    (hb : Holds nullable st b rows) : wholeChunk b = .ok (chunkOf [] rows) := by
  simp only [wholeChunk, hb.offsets, offsetsOf_getLast, offsetsOf_length, chunkOf, hb.len, Nat.add_sub_cancel,
    valuesOf_nil, List.length_nil, List.nil_append, Nat.zero_add, byteCount]
  rfl

theorem writeRemaining_ok (p : Profile) {nullable : Bool} {st : List Bool} {rows : List (Option Bytes)}
    (e : Encoder) (l : List (Nat × Bytes)) (hb : Holds nullable st e.remaining rows)
    (hacc : Accepts nullable rows) (hsize : byteCount rows < 2 ^ 64)
    (h1 : 1 ≤ (valuesOf rows).length) (h128 : (valuesOf rows).length ≤ 128)
    (hrows : e.numRows + rows.length < 2 ^ 32) :
    ∃ (e' : Encoder) (res : EncodeResult), writeRemaining p recorder (e, l) =
      (.ok res, (e', l ++ [(e.numRows + (writtenBits nullable st rows).length - 1,
        blockWith nullable rows (writtenBits nullable st rows))])) ∧
      e'.remaining = e.remaining ∧ e'.minBlockSize = e.minBlockSize ∧
      e'.numRows = e.numRows + (writtenBits nullable st rows).length := by
  have hle := writtenBits_length_le nullable st rows
  obtain ⟨e', h, h2⟩ := writeBlock_ok p (post := []) (by simpa using hb) (hb.shows_all hacc) e l hsize h1 h128
    (writtenBits_pos nullable st h1) (by omega)
  refine ⟨e', ⟨(writtenBits nullable st rows).length,
    if nullable then (writtenBits nullable st rows).length else 0⟩, ?_, h2⟩
  simp only [writeRemaining, Run.bind_apply, Run.get_apply, wholeChunk_eq hb, Run.lift_ok]
  exact h

end Meerkat.BinaryEnc
