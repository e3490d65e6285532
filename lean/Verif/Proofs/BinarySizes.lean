import Verif.Proofs.BinaryInv

set_option autoImplicit false

/-! # No block of the binary encoder has more than the block size and one item -/

namespace Meerkat.BinaryEnc
open Spec Varint BinaryBuffer
variable {S : Type}

/-- What completes a block exceeds it by less than the last item. -/
theorem fill_upper {m j L : Nat} {l : List Bytes} (hf : fill m l = some j) (hm : 0 < m) (hL : ∀ v ∈ l, v.length ≤ L) :
    (l.take j).flatten.length < m + L := by
  obtain ⟨h1, h2, h3⟩ := fill_some hf
  have hj : 0 < j := by
    apply Nat.pos_of_ne_zero
    rintro rfl
    simp at h2
    omega
  have hlt : j - 1 < l.length := by omega
  have h4 := h3 (j - 1) (by omega)
  have h5 : l.take j = l.take (j - 1) ++ [l[j - 1]] := by
    have : j = (j - 1) + 1 := by omega
    conv => lhs; rw [this]
    rw [List.take_add_one, List.getElem?_eq_getElem hlt]; rfl
  have h6 := hL l[j - 1] (List.getElem_mem ..)
  rw [h5, List.flatten_append, List.length_append, List.flatten_cons, List.flatten_nil, List.append_nil]
  omega

/-- Every block recorded by the loop holds less than `m` bytes and one item. -/
theorem encodeLoop_sizes (p q : Profile) (m : Nat) (src : BinaryBuffer) (items : List Bytes)
    (L : Nat) (hL : ∀ v ∈ items, v.length ≤ L) (hm : 0 < m) (hs : Items src items) (hn : items.length < 2 ^ 63) (hd : items.flatten.length < 2 ^ 64)
    (fuel : Nat) : ∀ (bp vp : Nat) (e : Encoder) (l : List (Nat × Bytes)), e.minBlockSize = m →
    ∃ new, (encodeLoop p recorder src fuel bp vp (e, l)).2.2 = l ++ new ∧
      ∀ x ∈ new, ∃ d, blockData q x.2 = some d ∧ d.length < m + L := by
  induction fuel with
  | zero => intro bp vp e l _; exact ⟨[], by simp [encodeLoop, Run.lift], by simp⟩
  | succ fuel ih =>
    intro bp vp e l hem
    rw [encodeLoop]
    have hol : src.offsets.length = items.length + 1 := by rw [hs.offsets]; simp
    split
    · rename_i hlt
      have hsplit : items = items.take bp ++ items.drop bp := (List.take_append_drop bp items).symm
      have hl : (items.take bp).length = bp := by rw [List.length_take]; omega
      have hc := chunk_eq p src (items.take bp) (items.drop bp) (by rw [← hsplit]; exact hs.offsets) m
      rw [hl] at hc
      simp only [Run.bind_apply, Run.get_apply, hem]
      cases hf : fill m (items.drop bp) with
      | none =>
        rw [hf] at hc
        simp only [List.take_append_drop] at hc
        have hsm := fill_none hf
        rw [hc]
        simp only [Run.lift_ok, if_pos hsm]
        refine ⟨[], ?_, by simp⟩
        rcases ha : e.remaining.appendFrom p src bp items.length vp with x | ⟨rem, q⟩
        · simp [Run.lift, leaving, Run.bind_apply]
        · simp [Run.lift_ok, Run.bind_apply, Run.set_apply]
      | some j =>
        rw [hf] at hc
        simp only at hc
        have hge := (fill_some hf).2.1
        have hj := (fill_some hf).1
        rw [hc]
        rcases hsub : p.sub 64 j bp with x | n
        · exact ⟨[], by simp [Run.lift, Except.bind, bind], by simp⟩
        · simp only [ok_bind, pure_eq_ok, Run.lift_ok]
          rw [if_neg (by omega)]
          have hsz : ((items.drop bp).take j).flatten.length ≤ items.flatten.length := by
            conv => rhs; rw [hsplit, ← List.take_append_drop j (items.drop bp)]
            simp only [List.flatten_append, List.length_append]; omega
          rw [List.length_drop] at hj
          obtain ⟨new1, hw1, hw2⟩ := writeBlock_blocks p q src ⟨bp, j, (items.take bp).flatten.length,
            (items.take bp).flatten.length + ((items.drop bp).take j).flatten.length,
            ((items.drop bp).take j).flatten.length, n⟩ vp e l (by simp only; omega) (by simp only; omega)
            (by simp only; omega)
          have hfr := writeBlock_frame p recorder src ⟨bp, j, (items.take bp).flatten.length,
            (items.take bp).flatten.length + ((items.drop bp).take j).flatten.length,
            ((items.drop bp).take j).flatten.length, n⟩ vp e l
          rw [Run.bind_apply]
          rcases hw : writeBlock p recorder src ⟨bp, j, (items.take bp).flatten.length,
            (items.take bp).flatten.length + ((items.drop bp).take j).flatten.length,
            ((items.drop bp).take j).flatten.length, n⟩ vp (e, l) with ⟨r, e1, s1⟩
          rw [hw] at hw1 hfr
          simp only at hw1 hw2 hfr
          have hnew1 : ∀ x ∈ new1, ∃ d, blockData q x.2 = some d ∧ d.length < m + L := by
            intro x hx
            obtain ⟨d, h1, h2⟩ := hw2 x hx
            have := fill_upper hf hm fun v hv => hL v (List.mem_of_mem_drop hv)
            exact ⟨d, h1, by omega⟩
          cases r with
          | error x => exact ⟨new1, hw1, hnew1⟩
          | ok r =>
            obtain ⟨new2, h1, h2⟩ := ih j r.lastValidityPos e1 s1 (by rw [hfr.2, hem])
            refine ⟨new1 ++ new2, by simp only; rw [h1, hw1, List.append_assoc], ?_⟩
            intro x hx
            rcases List.mem_append.mp hx with hx | hx
            · exact hnew1 x hx
            · exact h2 x hx
    · exact ⟨[], by simp [Run.pure_apply], by simp⟩

/-- Every block recorded by `encode` holds less than `m` bytes and one item. -/
theorem encode_sizes (p q : Profile) (m : Nat) (src : BinaryBuffer) (items held : List Bytes)
    (L : Nat) (hL : ∀ v ∈ items, v.length ≤ L) (hm : 0 < m) (hlt : held.flatten.length < m)
    (hs : Items src items) (hn : held.length + items.length < 2 ^ 63) (hd : items.flatten.length < 2 ^ 64)
    (e : Encoder) (l : List (Nat × Bytes)) (hem : e.minBlockSize = m) (hrem : Items e.remaining held) :
    ∃ new, (encode p recorder src (e, l)).2.2 = l ++ new ∧
      ∀ x ∈ new, ∃ d, blockData q x.2 = some d ∧ d.length < m + L := by
  simp only [encode, Run.bind_apply, Run.get_apply, hrem.len]
  split
  · rename_i hpos
    simp only [Run.bind_apply, hem]
    rcases hsub : p.sub 64 m e.remaining.data.length with x | room
    · exact ⟨[], by simp [Run.lift], by simp⟩
    · simp only [Run.lift_ok]
      have hc := chunk_eq p src [] items hs.offsets room
      simp only [List.length_nil, List.flatten_nil, List.nil_append, Nat.zero_add] at hc
      rcases hch : chunk p src 0 room with x | c
      · exact ⟨[], by simp [Run.lift], by simp⟩
      · have hroom : room = m - held.flatten.length := by
          rw [hrem.data, Profile.sub_ok p (by omega)] at hsub
          exact (Except.ok.inj hsub).symm
        have hc' : c.startPos = 0 ∧ c.endPos ≤ items.length ∧ (items.take c.endPos).flatten.length < room + L := by
          rw [hch] at hc
          cases hf : fill room items with
          | none =>
            rw [hf] at hc; cases hc
            have := fill_none hf
            exact ⟨rfl, Nat.le_refl _, by rw [List.take_length]; omega⟩
          | some j =>
            rw [hf] at hc
            simp only [Profile.sub_ok p (Nat.zero_le j), ok_bind, pure_eq_ok, Except.ok.injEq] at hc
            subst hc
            exact ⟨rfl, (fill_some hf).1, fill_upper hf (by omega) hL⟩
        simp only [Run.lift_ok, hc'.1]
        rcases ha : e.remaining.appendFrom p src 0 c.endPos 0 with x | ⟨rem, pos⟩
        · exact ⟨[], by simp [Run.lift, leaving], by simp⟩
        · obtain ⟨hrem', hU⟩ := Items.appendFrom p (a := []) (mid := items.take c.endPos) (c := items.drop c.endPos)
              hrem (by rw [List.nil_append, List.take_append_drop]; exact hs)
              (by rw [List.nil_append, List.length_take, Nat.min_eq_left hc'.2.1]; exact ha)
          simp only [Run.lift_ok, Run.set_apply]
          split
          · exact ⟨[], by simp [Run.pure_apply], by simp⟩
          · rename_i hge
            have hdl : rem.data.length = (held ++ items.take c.endPos).flatten.length := by rw [hrem'.data]
            have hU2 : U32_MAX = 2 ^ 32 - 1 := rfl
            simp only [Run.bind_apply]
            have hfr := writeRemaining_frame p recorder ⟨rem, e.encodedData, e.offsetDeltas, e.bitmapEncoder, m, e.numRows⟩ l
            obtain ⟨new1, g1, g2⟩ := writeRemaining_blocks p q
              ⟨rem, e.encodedData, e.offsetDeltas, e.bitmapEncoder, m, e.numRows⟩ l _ hrem'
              (by rw [List.length_append, List.length_take]; omega) (by rw [← hdl]; omega)
            rcases hw : writeRemaining p recorder (⟨rem, e.encodedData, e.offsetDeltas, e.bitmapEncoder, m, e.numRows⟩, l)
              with ⟨r, e1, s1⟩
            rw [hw] at hfr g1
            have hnew1 : ∀ x ∈ new1, ∃ d, blockData q x.2 = some d ∧ d.length < m + L := by
              intro x hx
              obtain ⟨d, h1, h2⟩ := g2 x hx
              rw [List.flatten_append, List.length_append] at h2
              have := hc'.2.2
              exact ⟨d, h1, by omega⟩
            cases r with
            | error x => exact ⟨new1, g1, hnew1⟩
            | ok r =>
              simp only [Run.get_apply, Run.set_apply] at hfr g1 ⊢
              obtain ⟨new2, h1, h2⟩ := encodeLoop_sizes p q m src items L hL hm hs (by omega) hd
                (src.offsets.length + 1) c.endPos pos
                ⟨e1.remaining.clear, e1.encodedData, e1.offsetDeltas, e1.bitmapEncoder, e1.minBlockSize, e1.numRows⟩
                s1 hfr.2
              refine ⟨new1 ++ new2, by rw [h1, g1, List.append_assoc], ?_⟩
              intro x hx
              rcases List.mem_append.mp hx with hx | hx
              · exact hnew1 x hx
              · exact h2 x hx
  · exact encodeLoop_sizes p q m src items L hL hm hs (by omega) hd _ _ _ _ _ hem

/-- Every block recorded by a sequence of calls holds less than `m` bytes and one item. -/
theorem encodeAll_sizes (p q : Profile) (m : Nat) (hm : 0 < m) (bufs : List (List Bytes)) (srcs : List BinaryBuffer)
    (hsrc : srcs.length = bufs.length ∧ ∀ x ∈ srcs.zip bufs, Items x.1 x.2)
    (hd : ∀ b ∈ bufs, b.flatten.length < 2 ^ 64) (L : Nat) (hL : ∀ b ∈ bufs, ∀ v ∈ b, v.length ≤ L) :
    ∀ (held : List Bytes) (e : Encoder) (l : List (Nat × Bytes)), e.minBlockSize = m → Items e.remaining held →
    held.length + bufs.flatten.length < 2 ^ 63 → held.flatten.length < m →
    ∃ new, (encodeAll p recorder srcs (e, l)).2.2 = l ++ new ∧
      ∀ x ∈ new, ∃ d, blockData q x.2 = some d ∧ d.length < m + L := by
  induction srcs generalizing bufs with
  | nil => intro held e l _ _ _ _; exact ⟨[], by simp [encodeAll, Run.pure_apply], by simp⟩
  | cons src srcs ih =>
    intro held e l hem hrem hn hlt
    cases bufs with
    | nil => simp at hsrc
    | cons items bufs =>
      have hs : Items src items := hsrc.2 (src, items) (by simp)
      rw [List.flatten_cons, List.length_append] at hn
      obtain ⟨new1, g1, g2⟩ := encode_sizes p q m src items held L (hL items (by simp)) hm hlt hs (by omega) (hd items (by simp)) e l hem hrem
      have hi := encode_items p recorder src items held hs (e, l) hrem
      rw [encodeAll, Run.bind_apply]
      rcases hw : encode p recorder src (e, l) with ⟨r, e1, s1⟩
      rw [hw] at g1 hi
      cases r with
      | error x => exact ⟨new1, g1, g2⟩
      | ok r =>
        obtain ⟨held', g3, g4⟩ := hi rfl
        obtain ⟨hm1, held2, k1, k2⟩ := encode_small p recorder m hm src items held hs e l e1 s1 hem hrem hw
        have hd2 : held'.flatten.length < m := by rw [← g3.data]; rw [← k1.data] at k2; exact k2
        obtain ⟨new2, h1, h2⟩ := ih bufs ⟨by simpa using hsrc.1, fun x hx => hsrc.2 x (by simp [hx])⟩
          (fun b hb => hd b (by simp [hb])) (fun b hb => hL b (by simp [hb])) held' e1 s1 hm1 g3 (by omega) hd2
        refine ⟨new1 ++ new2, by simp only at g1 ⊢; rw [h1, g1, List.append_assoc], ?_⟩
        intro x hx
        rcases List.mem_append.mp hx with hx | hx
        · exact g2 x hx
        · exact h2 x hx

/-- `write_block` offers at most one block. -/
theorem writeBlock_one (p : Profile) (b : BinaryBuffer) (c : BinaryChunk) (pos : Nat) (e : Encoder)
    (l : List (Nat × Bytes)) :
    (writeBlock p recorder b c pos (e, l)).2.2 = l ∨ ∃ y, (writeBlock p recorder b c pos (e, l)).2.2 = l ++ [y] := by
  simp only [writeBlock, Run.bind_apply, Run.get_apply]
  cases hr : encodeBinaryBuffer p b c pos e.bitmapEncoder with
  | error x => exact .inl rfl
  | ok r =>
    simp only [Run.lift_ok, Run.set_apply]
    cases addRows e.numRows r.result.numRows with
    | error x => exact .inl rfl
    | ok n =>
      simp only [Run.lift_ok]
      cases p.sub 32 n 1 with
      | error x => exact .inl rfl
      | ok id => exact .inr ⟨(id, r.data), rfl⟩

theorem writeRemaining_one (p : Profile) (e : Encoder) (l : List (Nat × Bytes)) :
    (writeRemaining p recorder (e, l)).2.2 = l ∨ ∃ y, (writeRemaining p recorder (e, l)).2.2 = l ++ [y] := by
  rw [writeRemaining, Run.bind_ok (Run.get_apply _), Run.bind_apply]
  simp only
  cases wholeChunk e.remaining with
  | error x => exact .inl rfl
  | ok c => exact writeBlock_one p _ c 0 e l

theorem encodeAll_items (p : Profile) (k : Sink S) (bufs : List (List Bytes)) (srcs : List BinaryBuffer)
    (hsrc : srcs.length = bufs.length ∧ ∀ x ∈ srcs.zip bufs, Items x.1 x.2) :
    ∀ (held : List Bytes) (st : Encoder × S), Items st.1.remaining held →
    (encodeAll p k srcs st).1 = .ok () →
    ∃ held', Items (encodeAll p k srcs st).2.1.remaining held' ∧ held'.length ≤ held.length + bufs.flatten.length := by
  induction srcs generalizing bufs with
  | nil => intro held st h _; exact ⟨held, h, by omega⟩
  | cons src srcs ih =>
    intro held st hrem
    cases bufs with
    | nil => simp at hsrc
    | cons items bufs =>
      have hi := encode_items p k src items held (hsrc.2 (src, items) (by simp)) st hrem
      rw [List.flatten_cons, List.length_append]
      rw [encodeAll, Run.bind_apply]
      rcases hw : encode p k src st with ⟨r, st1⟩
      rw [hw] at hi
      cases r with
      | error x => exact fun h => nomatch h
      | ok r =>
        intro h
        obtain ⟨held1, g1, g2⟩ := hi rfl
        obtain ⟨held2, g3, g4⟩ := ih bufs ⟨by simpa using hsrc.1, fun x hx => hsrc.2 x (by simp [hx])⟩ held1 st1 g1 h
        exact ⟨held2, g3, by omega⟩

end Meerkat.BinaryEnc
