import Verif.Proofs.BinaryExact

set_option autoImplicit false

/-! # The amount of data in the blocks

A run that returns normally writes at least the data bytes of the column, and strictly more when a buffer completes
two blocks. -/

namespace Meerkat.BinaryEnc
open Spec Varint BinaryBuffer

/-- The number of data bytes in blocks. -/
def vol (q : Profile) (l : List (Nat × Bytes)) : Nat :=
  (l.map fun x => ((blockData q x.2).map List.length).getD 0).sum

theorem vol_append (q : Profile) (as bs : List (Nat × Bytes)) : vol q (as ++ bs) = vol q as + vol q bs := by
  simp [vol]

theorem vol_of_datas {q : Profile} {l : List (Nat × Bytes)} {datas : List Bytes}
    (h : (l.map (·.2)).mapM (blockData q) = some datas) : vol q l = datas.flatten.length := by
  induction l generalizing datas with
  | nil => simp at h; subst h; rfl
  | cons x l ih =>
    rw [List.map_cons, List.mapM_cons] at h
    cases hx : blockData q x.2 with
    | none => rw [hx] at h; cases h
    | some d =>
      rw [hx] at h
      cases hr : (l.map (·.2)).mapM (blockData q) with
      | none => rw [hr] at h; cases h
      | some ds =>
        rw [hr] at h
        have h : some (d :: ds) = some datas := h
        cases h
        have := ih hr
        simp only [vol, List.map_cons, List.sum_cons, hx, Option.map_some, Option.getD_some, List.flatten_cons,
          List.length_append] at this ⊢
        omega

/-- The volume of what `write_block` writes when it returns normally. -/
theorem writeBlock_volume (p q : Profile) (b : BinaryBuffer) (c : BinaryChunk) (pos : Nat) (e e' : Encoder)
    (l l' : List (Nat × Bytes)) (r : EncodeResult) (hsize : c.size < 2 ^ 64) (hlen : c.endPos < 2 ^ 63)
    (hoff : c.endOffset - c.startOffset = c.size)
    (h : writeBlock p recorder b c pos (e, l) = (.ok r, (e', l'))) :
    ∃ new, l' = l ++ new ∧ vol q new = c.size := by
  obtain ⟨new, h1, h2⟩ := writeBlock_blocks p q b c pos e l hsize hlen hoff
  obtain ⟨r', id, _, h4⟩ := writeBlock_written p b c pos e e' l l' r h
  rw [h] at h1
  simp only at h1
  have : new = [(id, r'.data)] := by rw [h4] at h1; exact (List.append_cancel_left h1).symm
  subst this
  refine ⟨_, h4, ?_⟩
  obtain ⟨d, hd1, hd2⟩ := h2 _ (List.mem_singleton.mpr rfl)
  simp [vol, hd1, hd2]

theorem writeRemaining_volume (p q : Profile) (e e' : Encoder) (l l' : List (Nat × Bytes)) (held : List Bytes)
    (r : EncodeResult) (hrem : Items e.remaining held) (hn : held.length < 2 ^ 63) (hd : held.flatten.length < 2 ^ 64)
    (h : writeRemaining p recorder (e, l) = (.ok r, (e', l'))) :
    ∃ new, l' = l ++ new ∧ vol q new = held.flatten.length := by
  have hw : wholeChunk e.remaining = .ok ⟨0, held.length, 0, held.flatten.length, held.flatten.length, held.length⟩ := by
    simp only [wholeChunk, hrem.offsets, offsetsOf_getLast, offsetsOf_length, hrem.len, Nat.add_sub_cancel,
      Nat.zero_add]
  rw [writeRemaining, Run.bind_ok (Run.get_apply _)] at h
  simp only [hw] at h
  rw [Run.bind_ok (Run.lift_ok _ _)] at h
  exact writeBlock_volume p q _ _ 0 e e' l l' r (by simp only; omega) (by simp only; omega) (by simp only; omega) h

theorem writeRemaining_128 (p : Profile) (e e' : Encoder) (l l' : List (Nat × Bytes)) (held : List Bytes)
    (r : EncodeResult) (hrem : Items e.remaining held) (hn : held.length < 2 ^ 63) (hd : held.flatten.length < 2 ^ 64)
    (h : writeRemaining p recorder (e, l) = (.ok r, (e', l'))) : held.length ≤ 128 := by
  have hw : wholeChunk e.remaining = .ok ⟨0, held.length, 0, held.flatten.length, held.flatten.length, held.length⟩ := by
    simp only [wholeChunk, hrem.offsets, offsetsOf_getLast, offsetsOf_length, hrem.len, Nat.add_sub_cancel,
      Nat.zero_add]
  rw [writeRemaining, Run.bind_ok (Run.get_apply _)] at h
  simp only [hw] at h
  rw [Run.bind_ok (Run.lift_ok _ _)] at h
  apply Classical.byContradiction
  intro hover
  exact writeBlock_over p recorder _ _ 0 e l (by simp only; omega) (by simp only; omega) (by simp only; omega) _ _ h

theorem bytes_split (l : List Bytes) (k : Nat) :
    l.flatten.length = (l.take k).flatten.length + (l.drop k).flatten.length := by
  conv => lhs; rw [← List.take_append_drop k l]
  rw [List.flatten_append, List.length_append]

/-- The item which completes a block is not empty. -/
theorem fill_last {m j : Nat} {l : List Bytes} (hf : fill m l = some j) (hm : 0 < m) :
    ∃ v, l[j - 1]? = some v ∧ 0 < v.length := by
  obtain ⟨h1, h2, h3⟩ := fill_some hf
  have hj := fill_pos hf hm
  have hlt : j - 1 < l.length := by omega
  refine ⟨l[j - 1], List.getElem?_eq_getElem hlt, ?_⟩
  have h4 := h3 (j - 1) (by omega)
  have h5 : l.take j = l.take (j - 1) ++ [l[j - 1]] := by
    have : j = (j - 1) + 1 := by omega
    conv => lhs; rw [this]
    rw [List.take_add_one, List.getElem?_eq_getElem hlt]; rfl
  rw [h5, List.flatten_append, List.length_append, List.flatten_cons, List.flatten_nil, List.append_nil] at h2
  omega

/-- The loop writes or holds back all bytes from where it starts, and more when a full chunk does not start at the
beginning of the buffer. -/
theorem encodeLoop_volume (p q : Profile) (m : Nat) (hm : 0 < m) (src : BinaryBuffer) (items : List Bytes)
    (hs : Items src items) (hn : items.length < 2 ^ 63) (hd : items.flatten.length < 2 ^ 64) (fuel : Nat) :
    ∀ (bp vp : Nat) (e e' : Encoder) (l l' : List (Nat × Bytes)) (held : List Bytes), bp ≤ items.length →
      e.minBlockSize = m → Items e.remaining held →
      encodeLoop p recorder src fuel bp vp (e, l) = (.ok (), (e', l')) →
      ∃ new held', l' = l ++ new ∧ Items e'.remaining held' ∧ e'.minBlockSize = m ∧
        held.flatten.length + (items.drop bp).flatten.length ≤ vol q new + held'.flatten.length ∧
        (0 < bp → (fill m (items.drop bp)).isSome = true →
          held.flatten.length + (items.drop bp).flatten.length < vol q new + held'.flatten.length) := by
  have hol : src.offsets.length = items.length + 1 := by rw [hs.offsets]; simp
  induction fuel with
  | zero =>
    intro bp vp e e' l l' held _ _ _ h
    rw [encodeLoop] at h
    cases (Prod.mk.inj h).1
  | succ fuel ih =>
    intro bp vp e e' l l' held hbp hem hrem h
    have hsplit : items = items.take bp ++ items.drop bp := (List.take_append_drop bp items).symm
    have hl : (items.take bp).length = bp := by rw [List.length_take]; omega
    have hc := chunk_eq p src (items.take bp) (items.drop bp) (by rw [← hsplit]; exact hs.offsets) m
    rw [hl] at hc
    rw [encodeLoop, if_pos (by omega), Run.bind_ok (Run.get_apply _)] at h
    simp only [hem] at h
    cases hf : fill m (items.drop bp) with
    | none =>
      rw [hf] at hc
      simp only [List.take_append_drop] at hc
      have hsm := fill_none hf
      rw [hc, Run.bind_ok (Run.lift_ok _ _)] at h
      simp only [if_pos hsm] at h
      rcases ha : e.remaining.appendFrom p src bp items.length vp with x | ⟨rem, ps⟩
      · rw [ha] at h
        simp only [Run.bind_apply, Run.lift_error] at h
        cases (Prod.mk.inj h).1
      · rw [ha, Run.bind_ok (Run.lift_ok _ _)] at h
        simp only [Run.set_apply, Prod.mk.injEq, true_and] at h
        obtain ⟨rfl, rfl⟩ := h
        obtain ⟨hrem', _⟩ := Items.appendFrom p (a := items.take bp) (mid := items.drop bp) (c := [])
          hrem (by rw [List.append_nil, List.take_append_drop]; exact hs)
          (by rw [hl, List.take_append_drop]; exact ha)
        refine ⟨[], held ++ items.drop bp, by simp, hrem', by simpa using hem, ?_, by simp⟩
        rw [List.flatten_append, List.length_append]; omega
    | some j =>
      rw [hf] at hc
      simp only at hc
      obtain ⟨hj, hge, _⟩ := fill_some hf
      have hjp := fill_pos hf hm
      rw [hc] at h
      rcases hsub : p.sub 64 j bp with x | n
      · rw [hsub] at h
        simp only [Run.bind_apply] at h
        cases (Prod.mk.inj h).1
      · rw [hsub] at h
        simp only [ok_bind, pure_eq_ok] at h
        rw [Run.bind_ok (Run.lift_ok _ _), if_neg (by simp only; omega), Run.bind_apply] at h
        rw [List.length_drop] at hj
        have hfr := writeBlock_frame p recorder src ⟨bp, j, (items.take bp).flatten.length,
          (items.take bp).flatten.length + ((items.drop bp).take j).flatten.length,
          ((items.drop bp).take j).flatten.length, n⟩ vp e l
        rcases hw : writeBlock p recorder src ⟨bp, j, (items.take bp).flatten.length,
          (items.take bp).flatten.length + ((items.drop bp).take j).flatten.length,
          ((items.drop bp).take j).flatten.length, n⟩ vp (e, l) with ⟨r, e1, l1⟩
        rw [hw] at h hfr
        cases r with
        | error x => cases (Prod.mk.inj h).1
        | ok r =>
          simp only at h hfr
          have b1 := bytes_split items bp
          have b2 := bytes_split (items.drop bp) j
          obtain ⟨new1, rfl, v1⟩ := writeBlock_volume p q src _ vp e e1 l l1 r (by simp only; omega)
            (by simp only; omega) (by simp only; omega) hw
          obtain ⟨new2, held', g1, g2, g3, g4, _⟩ := ih j r.lastValidityPos e1 e' _ l' held (by omega)
            (by rw [hfr.2, hem]) (by rw [hfr.1]; exact hrem) h
          have b3 := bytes_split (items.drop j) bp
          rw [List.drop_drop] at b2 b3
          rw [Nat.add_comm j bp] at b3
          simp only at v1
          refine ⟨new1 ++ new2, held', by rw [g1, List.append_assoc], g2, g3, ?_, ?_⟩
          · rw [vol_append]; omega
          · intro h0 _
            have hpos : 0 < ((items.drop j).take bp).flatten.length := by
              obtain ⟨v, hv, hvp⟩ := fill_last hf hm
              rw [List.getElem?_drop] at hv
              have hmem : v ∈ (items.drop j).take bp := by
                apply List.mem_of_getElem? (i := bp - 1)
                rw [List.getElem?_take_of_lt (by omega), List.getElem?_drop,
                  show j + (bp - 1) = bp + (j - 1) by omega]
                exact hv
              have := (List.sublist_flatten_of_mem hmem).length_le
              omega
            rw [vol_append]; omega

/-- `encode` writes or holds back all bytes, and more when the buffer completes two blocks. -/
theorem encode_volume (p q : Profile) (m : Nat) (hm : 0 < m) (src : BinaryBuffer) (items held : List Bytes)
    (hs : Items src items) (hn : held.length + items.length < 2 ^ 63) (hd : items.flatten.length < 2 ^ 64)
    (e e' : Encoder) (l l' : List (Nat × Bytes)) (hem : e.minBlockSize = m) (hrem : Items e.remaining held)
    (hlt : held.flatten.length < m)
    (h : encode p recorder src (e, l) = (.ok (), (e', l'))) :
    ∃ new held', l' = l ++ new ∧ Items e'.remaining held' ∧ e'.minBlockSize = m ∧
      held.flatten.length + items.flatten.length ≤ vol q new + held'.flatten.length ∧
      (∀ j, fill (m - held.flatten.length) items = some j → (fill m (items.drop j)).isSome = true →
        held.flatten.length + items.flatten.length < vol q new + held'.flatten.length) ∧
      (∀ j, fill (m - held.flatten.length) items = some j → held.length + j ≤ 128) := by
  have hU : U32_MAX = 2 ^ 32 - 1 := rfl
  rw [encode, Run.bind_ok (Run.get_apply _)] at h
  by_cases hpos : e.remaining.len > 0
  · simp only [if_pos hpos, hem, hrem.data] at h
    rw [Profile.sub_ok p (by omega), Run.bind_ok (Run.lift_ok _ _)] at h
    have hc := chunk_eq p src [] items hs.offsets (m - held.flatten.length)
    simp only [List.length_nil, List.flatten_nil, List.nil_append, Nat.zero_add] at hc
    rcases hch : chunk p src 0 (m - held.flatten.length) with x | c
    · rw [hch] at h
      simp only [Run.bind_apply, Run.lift_error] at h
      cases (Prod.mk.inj h).1
    · rw [hch] at hc
      have hc' : c.startPos = 0 ∧ c.endPos ≤ items.length ∧
          (∀ j, fill (m - held.flatten.length) items = some j → c.endPos = j ∧ 0 < j) ∧
          (fill (m - held.flatten.length) items = none → c.endPos = items.length) := by
        cases hf : fill (m - held.flatten.length) items with
        | none =>
          rw [hf] at hc; cases hc
          exact ⟨rfl, Nat.le_refl _, by simp, fun _ => rfl⟩
        | some j =>
          rw [hf] at hc
          simp only [Profile.sub_ok p (Nat.zero_le j), ok_bind, pure_eq_ok, Except.ok.injEq] at hc
          subst hc
          refine ⟨rfl, (fill_some hf).1, ?_, by simp⟩
          intro k hk; cases hk; exact ⟨rfl, fill_pos hf (by omega)⟩
      rw [hch, Run.bind_ok (Run.lift_ok _ _)] at h
      simp only [hc'.1] at h
      rcases ha : e.remaining.appendFrom p src 0 c.endPos 0 with x | ⟨rem, pos⟩
      · rw [ha] at h
        simp only [Run.bind_apply, Run.lift_error] at h
        cases (Prod.mk.inj h).1
      · obtain ⟨hrem', hUd⟩ := Items.appendFrom p (a := []) (mid := items.take c.endPos) (c := items.drop c.endPos)
            hrem (by rw [List.nil_append, List.take_append_drop]; exact hs)
            (by rw [List.nil_append, List.length_take, Nat.min_eq_left hc'.2.1]; exact ha)
        have hdl : rem.data.length = (held ++ items.take c.endPos).flatten.length := by rw [hrem'.data]
        rw [ha, Run.bind_ok (Run.lift_ok _ _)] at h
        simp only at h
        rw [Run.bind_ok (Run.set_apply _ _)] at h
        have b1 := bytes_split items c.endPos
        have b2 : (held ++ items.take c.endPos).flatten.length =
            held.flatten.length + (items.take c.endPos).flatten.length := by
          rw [List.flatten_append, List.length_append]
        by_cases hsm : rem.data.length < m
        · simp only [if_pos hsm, Run.pure_apply, Prod.mk.injEq, true_and] at h
          obtain ⟨rfl, rfl⟩ := h
          have hnone : fill (m - held.flatten.length) items = none := by
            cases hf : fill (m - held.flatten.length) items with
            | none => rfl
            | some j =>
              have h1 := (hc'.2.2.1 j hf).1
              have h2 := (fill_some hf).2.1
              rw [h1] at hdl b2
              omega
          have hend := hc'.2.2.2 hnone
          refine ⟨[], held ++ items.take c.endPos, by simp, hrem', rfl, ?_, ?_, ?_⟩
          · rw [hend, List.drop_length] at b1
            rw [hend] at b2 ⊢
            simp only [List.flatten_nil, List.length_nil] at b1
            omega
          · intro j hj; rw [hnone] at hj; cases hj
          · intro j hj; rw [hnone] at hj; cases hj
        · simp only [if_neg hsm] at h
          rw [Run.bind_apply] at h
          have hfr := writeRemaining_frame p recorder ⟨rem, e.encodedData, e.offsetDeltas, e.bitmapEncoder, m, e.numRows⟩ l
          rcases hw : writeRemaining p recorder (⟨rem, e.encodedData, e.offsetDeltas, e.bitmapEncoder, m, e.numRows⟩, l)
            with ⟨r, e1, l1⟩
          rw [hw] at hfr h
          cases r with
          | error x => cases (Prod.mk.inj h).1
          | ok r =>
            simp only at hfr h
            obtain ⟨new1, rfl, v1⟩ := writeRemaining_volume p q _ e1 l l1 _ r hrem'
              (by rw [List.length_append, List.length_take]; omega) (by rw [← hdl]; omega) hw
            rw [Run.bind_ok (Run.get_apply _), Run.bind_ok (Run.set_apply _ _)] at h
            have hcl : Items e1.remaining.clear [] := by rw [hfr.1]; exact hrem'.clear
            obtain ⟨new2, held', g1, g2, g3, g4, g5⟩ := encodeLoop_volume p q m hm src items hs (by omega) hd _
              c.endPos _ { e1 with remaining := e1.remaining.clear } e' _ l' [] hc'.2.1 hfr.2 hcl h
            simp only [List.flatten_nil, List.length_nil, Nat.zero_add] at g4 g5
            have h128 := writeRemaining_128 p _ e1 l _ _ r hrem'
              (by rw [List.length_append, List.length_take]; omega) (by rw [← hdl]; omega) hw
            rw [List.length_append, List.length_take, Nat.min_eq_left hc'.2.1] at h128
            refine ⟨new1 ++ new2, held', by rw [g1, List.append_assoc], g2, g3, ?_, ?_,
              fun j hj => by have := (hc'.2.2.1 j hj).1; omega⟩
            · rw [vol_append]; omega
            · intro j hj hsome
              obtain ⟨h1, h2⟩ := hc'.2.2.1 j hj
              rw [← h1] at hsome
              have := g5 (by omega) hsome
              rw [vol_append]; omega
  · simp only [if_neg hpos] at h
    have hnil : held = [] := by
      rw [hrem.len] at hpos
      exact List.eq_nil_of_length_eq_zero (by omega)
    subst hnil
    -- the first iteration
    have hol : src.offsets.length = items.length + 1 := by rw [hs.offsets]; simp
    obtain ⟨new, held', g1, g2, g3, g4, _⟩ := encodeLoop_volume p q m hm src items hs (by omega) hd _ 0 0 e e' l l' []
      (by omega) hem hrem h
    refine ⟨new, held', g1, g2, g3, by simpa using g4, ?_⟩
    simp only [List.flatten_nil, List.length_nil, Nat.sub_zero, Nat.zero_add, ← forall_and]
    intro j hf
    obtain ⟨hj, hge, _⟩ := fill_some hf
    have hjp := fill_pos hf hm
    have hc := chunk_eq p src [] items hs.offsets m
    simp only [List.length_nil, List.flatten_nil, List.nil_append, Nat.zero_add, hf,
      Profile.sub_ok p (Nat.zero_le j), ok_bind, pure_eq_ok] at hc
    rw [encodeLoop, if_pos (by omega), Run.bind_ok (Run.get_apply _)] at h
    simp only [hem, hc] at h
    rw [Run.bind_ok (Run.lift_ok _ _), if_neg (by simp only; omega), Run.bind_apply] at h
    have b1 := bytes_split items j
    have hfr := writeBlock_frame p recorder src ⟨0, j, 0, (items.take j).flatten.length,
      (items.take j).flatten.length, j - 0⟩ 0 e l
    rcases hw : writeBlock p recorder src ⟨0, j, 0, (items.take j).flatten.length,
      (items.take j).flatten.length, j - 0⟩ 0 (e, l) with ⟨r, e1, l1⟩
    rw [hw] at h hfr
    cases r with
    | error x => cases (Prod.mk.inj h).1
    | ok r =>
      simp only at h hfr
      obtain ⟨new1, rfl, v1⟩ := writeBlock_volume p q src _ 0 e e1 l l1 r (by simp only; omega)
        (by simp only; omega) (by simp only; omega) hw
      have h128 : j ≤ 128 := by
        apply Classical.byContradiction
        intro hover
        exact writeBlock_over p recorder _ _ 0 e l (by simp only; omega) (by simp only; omega)
          (by simp only; omega) _ _ hw
      refine ⟨fun hsome => ?_, h128⟩
      obtain ⟨new2, held2, k1, k2, _, _, k5⟩ := encodeLoop_volume p q m hm src items hs (by omega) hd _
        j _ e1 e' _ l' [] hj (by rw [hfr.2, hem]) (by rw [hfr.1]; exact hrem) h
      have := k5 hjp hsome
      simp only [List.flatten_nil, List.length_nil, Nat.zero_add] at this
      have hnew : new = new1 ++ new2 := by
        rw [k1, List.append_assoc] at g1
        exact (List.append_cancel_left g1).symm
      have hheld : held'.flatten.length = held2.flatten.length := by rw [← g2.data, ← k2.data]
      simp only at v1
      rw [hnew, vol_append, hheld]
      omega

/-- What a whole run writes. -/
theorem encodeColumn_volume (p q : Profile) (nullable : Bool) (m : Nat) (hm : 0 < m)
    (bufs : List (List (Option Bytes))) (hd : ∀ b ∈ bufs, byteCount b ≤ U32_MAX) :
    ∀ (held : List Bytes) (e e' : Encoder) (l l' : List (Nat × Bytes)),
    e.minBlockSize = m → Items e.remaining held → held.flatten.length < m → m < 2 ^ 64 →
    held.length + bufs.flatten.length < 2 ^ 63 →
    encodeColumn p recorder (bufs.map (ofRows nullable)) (e, l) = (.ok (), (e', l')) →
    ∃ new, l' = l ++ new ∧ held.flatten.length + byteCount bufs.flatten ≤ vol q new ∧
      (bufs = [] → held.length ≤ 128) := by
  have hU : U32_MAX = 2 ^ 32 - 1 := rfl
  induction bufs with
  | nil =>
    intro held e e' l l' hem hrem hlt hm64 hn h
    simp only [encodeColumn, List.map_nil, encodeAll, Run.bind_apply, Run.pure_apply, flush, Run.get_apply,
      hrem.len] at h
    by_cases h0 : held.length > 0
    · rw [if_pos h0, Run.bind_apply] at h
      rcases hw : writeRemaining p recorder (e, l) with ⟨r, e1, l1⟩
      rw [hw] at h
      cases r with
      | error x => cases (Prod.mk.inj h).1
      | ok r =>
        simp only [Run.pure_apply, Prod.mk.injEq, true_and] at h
        obtain ⟨rfl, rfl⟩ := h
        obtain ⟨new, h1, h2⟩ := writeRemaining_volume p q e _ l _ held r hrem (by omega) (by omega) hw
        have h3 := writeRemaining_128 p e _ l _ held r hrem (by omega) (by omega) hw
        exact ⟨new, h1, by rw [h2]; simp [byteCount, valuesOf], fun _ => h3⟩
    · rw [if_neg h0] at h
      simp only [Run.pure_apply, Prod.mk.injEq, true_and] at h
      obtain ⟨rfl, rfl⟩ := h
      have : held = [] := List.eq_nil_of_length_eq_zero (by omega)
      subst this
      exact ⟨[], by simp, by simp [byteCount, valuesOf, vol], by simp⟩
  | cons b bufs ih =>
    intro held e e' l l' hem hrem hlt hm64 hn h
    rw [List.flatten_cons, List.length_append] at hn
    have hvl := valuesOf_length_le b
    have hb := hd b (by simp)
    have hitems : Items (ofRows nullable b) (valuesOf b) := (holds_ofRows nullable b).items
    rcases hw : encode p recorder (ofRows nullable b) (e, l) with ⟨r, e1, l1⟩
    have hi := encode_items p recorder (ofRows nullable b) (valuesOf b) held hitems (e, l) hrem
    simp only [encodeColumn, List.map_cons, encodeAll, Run.bind_apply, hw] at h
    cases r with
    | error x => cases (Prod.mk.inj h).1
    | ok r =>
      obtain ⟨new1, held1, rfl, g2, g3, g4, _⟩ := encode_volume p q m hm _ (valuesOf b) held hitems (by omega)
        (by unfold byteCount at hb; omega) e e1 l l1 hem hrem hlt hw
      obtain ⟨_, held3, k1, k2⟩ := encode_small p recorder m hm _ (valuesOf b) held hitems e l e1 _ hem hrem hw
      rw [hw] at hi
      obtain ⟨held2, i1, i2⟩ := hi rfl
      have hd1 : held1.flatten = held2.flatten := by rw [← g2.data, ← i1.data]
      have hd3 : held3.flatten = held2.flatten := by rw [← k1.data, ← i1.data]
      obtain ⟨new2, j1, j2, _⟩ := ih (fun b' hb' => hd b' (by simp [hb'])) held2 e1 e' _ l' g3 i1
        (by rw [← hd3]; exact k2) hm64 (by omega) (by
          simp only [encodeColumn, Run.bind_apply]
          exact h)
      refine ⟨new1 ++ new2, by rw [j1, List.append_assoc], ?_, by simp⟩
      rw [List.flatten_cons, byteCount_append, vol_append]
      rw [hd1] at g4
      unfold byteCount at j2 ⊢
      omega

/-- A history which is not orderly: a run that returns normally has written more bytes than the column has. -/
theorem encodeColumn_over (p q : Profile) (nullable : Bool) (m : Nat) (hm : 0 < m) (hm32 : m ≤ U32_MAX)
    (bufs : List (List (Option Bytes))) : ∀ (stale : List Bool) (held : List (Option Bytes)) (e e' : Encoder)
    (l l' : List (Nat × Bytes)),
    e.minBlockSize = m → Holds nullable stale e.remaining held → EndsWithValue held →
    byteCount held < m → Accepts nullable held → (∀ b ∈ bufs, Accepts nullable b) →
    (∀ b ∈ bufs, byteCount b ≤ U32_MAX) → ¬ Manageable m false stale held bufs →
    e.numRows + held.length + bufs.flatten.length < 2 ^ 32 →
    encodeColumn p recorder (bufs.map (ofRows nullable)) (e, l) = (.ok (), (e', l')) →
    ∃ new, l' = l ++ new ∧ byteCount held + byteCount bufs.flatten < vol q new := by
  have hU : U32_MAX = 2 ^ 32 - 1 := rfl
  induction bufs with
  | nil =>
    intro stale held e e' l l' hem hrem hhe hlt hha _ _ hman hrows h
    exfalso
    have hvl := valuesOf_length_le held
    obtain ⟨_, _, _, h3⟩ := encodeColumn_volume p q nullable m hm [] (by simp) _ e e' l l' hem hrem.items hlt
      (by omega) (by simp only [List.flatten_nil, List.length_nil] at hrows ⊢; omega) h
    exact hman ⟨h3 rfl, nofun⟩
  | cons b bufs ih =>
    intro stale held e e' l l' hem hrem hhe hlt hha hba hfit hman hrows h
    rw [List.flatten_cons, List.length_append] at hrows
    have hvl := valuesOf_length_le b
    have hvh := valuesOf_length_le held
    have hfb := hfit b (by simp)
    have hitems : Items (ofRows nullable b) (valuesOf b) := (holds_ofRows nullable b).items
    rcases hw : encode p recorder (ofRows nullable b) (e, l) with ⟨r, e1, l1⟩
    have hi := encode_items p recorder (ofRows nullable b) (valuesOf b) (valuesOf held) hitems (e, l) hrem.items
    simp only [encodeColumn, List.map_cons, encodeAll, Run.bind_apply, hw] at h
    cases r with
    | error x => cases (Prod.mk.inj h).1
    | ok r =>
      obtain ⟨new1, held1, rfl, g2, g3, g4, g5, g6⟩ := encode_volume p q m hm _ (valuesOf b) (valuesOf held) hitems
        (by omega) (by unfold byteCount at hfb; omega) e e1 l l1 hem hrem.items hlt hw
      obtain ⟨_, held3, k1, k2⟩ := encode_small p recorder m hm _ (valuesOf b) (valuesOf held) hitems e l e1 _ hem
        hrem.items hw
      rw [hw] at hi
      obtain ⟨held2, i1, i2⟩ := hi rfl
      have hd1 : held1.flatten = held2.flatten := by rw [← g2.data, ← i1.data]
      have hd3 : held3.flatten = held2.flatten := by rw [← k1.data, ← i1.data]
      have h' : encodeColumn p recorder (bufs.map (ofRows nullable)) (e1, l ++ new1) = (.ok (), (e', l')) := by
        simp only [encodeColumn, Run.bind_apply]
        exact h
      have hg2 : ∀ g ∈ (fillStep m held b).1, GroupFits held g := by
        simp only [fillStep]
        cases hf : fill (m - byteCount held) (valuesOf b) with
        | none => simp
        | some j =>
          have := g6 j hf
          simp only [List.mem_singleton, forall_eq, GroupFits, valuesOf_append, List.length_append, takeVals_values,
            List.length_take]
          exact ⟨by omega, fun hnil => encode_gathered p recorder hem hrem hhe hnil hlt hf hw⟩
      by_cases hg1 : (fillStep m held b).1 ≠ [] → byteCount (fillStep m held b).2 < m
      · obtain ⟨e2, h1, h2, h3, h4⟩ := encode_ok p nullable stale m hm hm32 held b e l hem hrem hhe hlt hha
          (hba b (by simp)) hfb hg1 hg2 (by omega)
        rw [hw] at h1
        simp only [Prod.mk.injEq, true_and] at h1
        obtain ⟨rfl, _⟩ := h1
        have hrl := congrArg List.length (fillStep_rows m held b)
        have hdl := dropTrailingNulls_length_le b
        have hcl := countBits_withBits_le nullable (if held = [] then [] else stale) (fillStep m held b).1
        simp only [List.length_append] at hrl
        obtain ⟨new2, j1, j2⟩ := ih _ _ e1 e' (l ++ new1) l' h2 h3
          (fillStep_ends m hhe).2 (fillStep_small hlt hg1) (fillStep_accepts m hha (hba b (by simp))).2
          (fun b' hb' => hba b' (by simp [hb'])) (fun b' hb' => hfit b' (by simp [hb']))
          (fun hm' => hman ⟨hg1, hg2, nofun, hm'⟩) (by omega) h'
        have hh : byteCount (fillStep m held b).2 = held1.flatten.length := by
          rw [byteCount, ← h3.data, ← g2.data]
        refine ⟨new1 ++ new2, by rw [j1, List.append_assoc], ?_⟩
        rw [List.flatten_cons, byteCount_append, vol_append]
        unfold byteCount at j2 hh ⊢
        omega
      · have hover : (valuesOf held).flatten.length + (valuesOf b).flatten.length <
            vol q new1 + held1.flatten.length := by
          simp only [fillStep] at hg1
          cases hf : fill (m - byteCount held) (valuesOf b) with
          | none => rw [hf] at hg1; simp at hg1
          | some j =>
            rw [hf] at hg1
            apply g5 j hf
            cases hx : fill m ((valuesOf b).drop j) with
            | some _ => rfl
            | none =>
              exfalso
              have h1 := fill_none hx
              apply hg1
              intro _
              rw [byteCount_dropTrailingNulls, byteCount]
              have hv := congrArg valuesOf (takeVals_append_drop j b)
              rw [valuesOf_append, takeVals_values] at hv
              have hv2 : valuesOf (b.drop (takeVals j b).length) = (valuesOf b).drop j := by
                have := List.take_append_drop j (valuesOf b)
                rw [← hv] at this
                conv at this => lhs; rw [hv]
                exact (List.append_cancel_left (this.trans rfl)).symm
              rw [hv2]
              exact h1
        obtain ⟨new2, j1, j2, _⟩ := encodeColumn_volume p q nullable m hm bufs
          (fun b' hb' => by have := hfit b' (by simp [hb']); omega) held2 e1 e' _ l' g3 i1
          (by rw [← hd3]; exact k2) (by omega) (by omega) h'
        refine ⟨new1 ++ new2, by rw [j1, List.append_assoc], ?_⟩
        rw [List.flatten_cons, byteCount_append, vol_append]
        rw [hd1] at hover
        unfold byteCount at j2 ⊢
        omega

end Meerkat.BinaryEnc
