import Verif.Proofs.EncoderHistory

set_option autoImplicit false

/-! # Two encoders that differ only in the rows counted so far

They write the same blocks, the row ids differing by a constant, until the larger count overflows. -/

namespace Meerkat

namespace Rle.Encoder

theorem putFromLoop_sim (p : Profile) (bm : Bitmap) : ∀ (k pos n : Nat) {a b : Encoder}, bm.len - pos = k → Sim a b →
    (putFromLoop p a bm pos n = putFromLoop p b bm pos n) ∨
      (∃ a' b' pos', putFromLoop p a bm pos n = .ok (a', pos') ∧ putFromLoop p b bm pos n = .ok (b', pos') ∧
        Sim a' b') := by
  intro k
  induction k with
  | zero =>
    intro pos n a b hk h
    rw [putFromLoop, putFromLoop]
    by_cases hn : n = 0
    · rw [if_pos hn, if_pos hn]; exact .inr ⟨a, b, pos, rfl, rfl, h⟩
    · rw [if_neg hn, if_neg hn, dif_neg (by omega), dif_neg (by omega)]; exact .inl rfl
  | succ k ih =>
    intro pos n a b hk h
    rw [putFromLoop, putFromLoop]
    by_cases hn : n = 0
    · rw [if_pos hn, if_pos hn]; exact .inr ⟨a, b, pos, rfl, rfl, h⟩
    · rw [if_neg hn, if_neg hn, dif_pos (by omega), dif_pos (by omega)]
      cases hb : bm.isSet pos with
      | error x => exact .inl rfl
      | ok v =>
        simp only [ok_bind]
        rcases put_sim p h v with h1 | ⟨a', b', h1, h2, h3⟩
        · left; rw [h1]
        · rw [h1, h2]; simp only [ok_bind]; exact ih (pos + 1) _ (by omega) h3

end Rle.Encoder

/-- What is written for the validity does not depend on what the bitmap encoder did before. -/
theorem encodeValidity_indep (p : Profile) (v : Option Bitmap) (pos n : Nat) (a b : Rle.Encoder) :
    (PrimitiveEnc.encodeValidity p v pos n a).map (fun r => (r.1, r.2.1)) =
      (PrimitiveEnc.encodeValidity p v pos n b).map (fun r => (r.1, r.2.1)) := by
  cases v with
  | none => rfl
  | some bm =>
    simp only [PrimitiveEnc.encodeValidity, Rle.Encoder.putFrom]
    have hs : Rle.Encoder.Sim a.clear b.clear := .inr ⟨rfl, b.lastValue, rfl⟩
    rcases Rle.Encoder.putFromLoop_sim p bm _ pos n rfl hs with h | ⟨a', b', pos', h1, h2, h3⟩
    · rw [h]
    · rw [h1, h2]
      have := Rle.Encoder.flush_sim p h3
      simp only [ok_bind]
      cases ha : a'.flush p <;> cases hb : b'.flush p <;> rw [ha, hb] at this <;>
        simp_all [Except.map, ok_bind, error_bind, pure_eq_ok]

theorem encodePrimitiveBuffer_indep {α : Type} [Element α] (p : Profile) (buf : PrimitiveBuffer α)
    (start stop pos : Nat) (a b : Rle.Encoder) :
    (PrimitiveEnc.encodePrimitiveBuffer p buf start stop pos a).map (fun r => (r.1, r.2.1)) =
      (PrimitiveEnc.encodePrimitiveBuffer p buf start stop pos b).map (fun r => (r.1, r.2.1)) := by
  simp only [PrimitiveEnc.encodePrimitiveBuffer]
  cases p.sub 64 stop start with
  | error x => rfl
  | ok n =>
    simp only [ok_bind]
    cases Varint.putVarint [] (Element.size α * n) with
    | error x => rfl
    | ok d =>
      simp only [ok_bind]
      cases slice buf.values start stop with
      | error x => rfl
      | ok ch =>
        simp only [ok_bind]
        have := encodeValidity_indep p buf.validity pos n a b
        cases ha : PrimitiveEnc.encodeValidity p buf.validity pos n a <;>
          cases hb : PrimitiveEnc.encodeValidity p buf.validity pos n b <;> rw [ha, hb] at this <;>
          simp_all [Except.map, ok_bind, error_bind, pure_eq_ok]

theorem encodeBinaryBuffer_indep (p : Profile) (buf : BinaryBuffer) (c : BinaryEnc.BinaryChunk) (pos : Nat)
    (a b : Rle.Encoder) :
    (BinaryEnc.encodeBinaryBuffer p buf c pos a).map (fun r => (r.result, r.data, r.deltas)) =
      (BinaryEnc.encodeBinaryBuffer p buf c pos b).map (fun r => (r.result, r.data, r.deltas)) := by
  simp only [BinaryEnc.encodeBinaryBuffer]
  cases Varint.putVarint [] c.size with
  | error x => rfl
  | ok d =>
    simp only [ok_bind]
    cases slice buf.data c.startOffset c.endOffset with
    | error x => rfl
    | ok ch =>
      simp only [ok_bind]
      cases BinaryEnc.itemLens p buf (c.endPos - c.startPos) c.startPos with
      | error x => rfl
      | ok ls =>
        simp only [ok_bind]
        cases Offsets.encode p ls (d ++ ch) with
        | error x => rfl
        | ok y =>
          simp only [ok_bind]
          have := encodeValidity_indep p buf.validity pos c.len a b
          cases ha : PrimitiveEnc.encodeValidity p buf.validity pos c.len a <;>
            cases hb : PrimitiveEnc.encodeValidity p buf.validity pos c.len b <;> rw [ha, hb] at this <;>
            simp_all [Except.map, ok_bind, error_bind, pure_eq_ok]

/-- The blocks with every row id larger by `d`. -/
def shiftIds (d : Nat) (bs : List (Nat × Bytes)) : List (Nat × Bytes) := bs.map fun x => (x.1 + d, x.2)

@[simp] theorem shiftIds_nil (d : Nat) : shiftIds d [] = [] := rfl
@[simp] theorem shiftIds_append (d : Nat) (a b : List (Nat × Bytes)) :
    shiftIds d (a ++ b) = shiftIds d a ++ shiftIds d b := List.map_append

section
variable {E α β : Type} {rows : E → Nat} {Rel : E → E → Prop} {d : Nat}

/-- Started in `e` and in `e'`, the calls end in the same way having offered the same blocks with ids
`d` apart, or the second one overflows its row counter on the way. -/
def ShiftAt (rows : E → Nat) (Rel : E → E → Prop) (d : Nat) (m m' : Run (E × List (Nat × Bytes)) α) (e e' : E) : Prop :=
  ∃ r e1 bs, (∀ l, m (e, l) = (r, (e1, l ++ bs))) ∧ rows e ≤ rows e1 ∧ (∃ x, Rel e1 x) ∧
    ((∃ e1', (∀ l, m' (e', l) = (r, (e1', l ++ shiftIds d bs))) ∧ Rel e1 e1') ∨
     (∃ e1' bs', (∀ l, m' (e', l) = (.error (.panic .expect), (e1', l ++ shiftIds d bs'))) ∧ (∃ x, bs' ++ [x] <+: bs) ∧
       2 ^ 32 ≤ rows e1 + d))

theorem ShiftAt.same {m m' : Run (E × List (Nat × Bytes)) α} {e e' e1 e1' : E} {r : Except Fault α}
    (h : ∀ l, m (e, l) = (r, (e1, l))) (h' : ∀ l, m' (e', l) = (r, (e1', l))) (hr : rows e ≤ rows e1)
    (hR : Rel e1 e1') : ShiftAt rows Rel d m m' e e' :=
  ⟨r, e1, [], fun l => by rw [h, List.append_nil], hr, ⟨e1', hR⟩, .inl ⟨e1', fun l => by simp [h'], hR⟩⟩

theorem ShiftAt.pure (a : α) {e e' : E} (hR : Rel e e') :
    ShiftAt rows Rel d (Pure.pure a : Run (E × List (Nat × Bytes)) α) (Pure.pure a) e e' :=
  .same (fun _ => rfl) (fun _ => rfl) (Nat.le_refl _) hR

theorem ShiftAt.lift (r : Res α) {e e' : E} (hR : Rel e e') :
    ShiftAt rows Rel d (Run.lift r : Run (E × List (Nat × Bytes)) α) (Run.lift r) e e' := by
  cases r with
  | ok a => exact .same (fun _ => rfl) (fun _ => rfl) (Nat.le_refl _) hR
  | error x => exact .same (fun _ => rfl) (fun _ => rfl) (Nat.le_refl _) hR

theorem ShiftAt.leaving (r : Res α) {f : E → E} {e e' : E} (hr : rows e ≤ rows (f e)) (hR : Rel e e')
    (hf : Rel (f e) (f e')) :
    ShiftAt rows Rel d (Run.lift r fun s => (f s.1, s.2) : Run (E × List (Nat × Bytes)) α)
      (Run.lift r fun s => (f s.1, s.2)) e e' := by
  cases r with
  | ok a => exact .same (fun _ => rfl) (fun _ => rfl) (Nat.le_refl _) hR
  | error x => exact .same (fun _ => rfl) (fun _ => rfl) hr hf

theorem ShiftAt.set {e e' a a' : E} (hr : rows e ≤ rows a) (hR : Rel a a') :
    ShiftAt rows Rel d (Run.set a : Run (E × List (Nat × Bytes)) Unit) (Run.set a') e e' :=
  .same (fun _ => rfl) (fun _ => rfl) hr hR

theorem ShiftAt.get_bind {f : E → Run (E × List (Nat × Bytes)) α} {f' : E → Run (E × List (Nat × Bytes)) α} {e e' : E}
    (h : ShiftAt rows Rel d (f e) (f' e') e e') : ShiftAt rows Rel d (Run.get >>= f) (Run.get >>= f') e e' := h

theorem ShiftAt.bind {m m' : Run (E × List (Nat × Bytes)) α} {f f' : α → Run (E × List (Nat × Bytes)) β} {e e' : E}
    (h1 : ShiftAt rows Rel d m m' e e')
    (h2 : ∀ a e1 e1' bs, (∀ l, m (e, l) = (.ok a, (e1, l ++ bs))) → Rel e1 e1' →
      ShiftAt rows Rel d (f a) (f' a) e1 e1') :
    ShiftAt rows Rel d (m >>= f) (m' >>= f') e e' := by
  obtain ⟨r, e1, bs, hm, hle, hx, hcase⟩ := h1
  cases r with
  | error x =>
    refine ⟨.error x, e1, bs, fun l => Run.bind_error (hm l), hle, hx, ?_⟩
    rcases hcase with ⟨e1', hm', hR⟩ | ⟨e1', bs', hm', hp, ho⟩
    · exact .inl ⟨e1', fun l => Run.bind_error (hm' l), hR⟩
    · exact .inr ⟨e1', bs', fun l => Run.bind_error (hm' l), hp, ho⟩
  | ok a =>
    rcases hcase with ⟨e1', hm', hR⟩ | ⟨e1', bs', hm', hp, ho⟩
    · obtain ⟨r2, e2, bs2, k1, k2, k3, k4⟩ := h2 a e1 e1' bs hm hR
      refine ⟨r2, e2, bs ++ bs2, fun l => by rw [Run.bind_ok (hm l), k1, List.append_assoc], Nat.le_trans hle k2, k3, ?_⟩
      rcases k4 with ⟨e2', g1, g2⟩ | ⟨e2', bs2', g1, ⟨y, g2⟩, g3⟩
      · exact .inl ⟨e2', fun l => by rw [Run.bind_ok (hm' l), g1, shiftIds_append, List.append_assoc], g2⟩
      · exact .inr ⟨e2', bs ++ bs2', fun l => by rw [Run.bind_ok (hm' l), g1, shiftIds_append, List.append_assoc],
          ⟨y, by rw [List.append_assoc]; exact (List.prefix_append_right_inj bs).mpr g2⟩, g3⟩
    · obtain ⟨x, hx⟩ := hx
      obtain ⟨y, hp⟩ := hp
      obtain ⟨r2, e2, bs2, k1, k2, k3, _⟩ := h2 a e1 x bs hm hx
      refine ⟨r2, e2, bs ++ bs2, fun l => by rw [Run.bind_ok (hm l), k1, List.append_assoc], Nat.le_trans hle k2, k3, ?_⟩
      exact .inr ⟨e1', bs', fun l => Run.bind_error (hm' l), ⟨y, hp.trans (List.prefix_append _ _)⟩, by omega⟩

end

/-! ## The primitive encoder -/

namespace PrimitiveEnc
variable {α : Type} [Element α]

/-- Equal but for `d` rows more counted by the second (and the two scratch buffers). -/
structure Ahead (d : Nat) (e e' : Encoder α) : Prop where
  remaining : e'.remaining = e.remaining
  size : e'.minBlockSize = e.minBlockSize
  rows : e'.numRows = e.numRows + d
  ok : SizeOk e

theorem writeRange_shift (p : Profile) (buf : PrimitiveBuffer α) (start stop bitPos : Nat) (hne : start ≠ stop)
    {d : Nat} {e e' : Encoder α} (h : Ahead d e e') :
    ShiftAt Encoder.numRows (Ahead d) d (writeRange p recorder buf start stop bitPos)
      (writeRange p recorder buf start stop bitPos) e e' := by
  have hi := encodePrimitiveBuffer_indep p buf start stop bitPos e.bitmapEncoder e'.bitmapEncoder
  rcases h1 : encodePrimitiveBuffer p buf start stop bitPos e.bitmapEncoder with x | ⟨res, data, be⟩
  · rw [h1] at hi
    rcases h2 : encodePrimitiveBuffer p buf start stop bitPos e'.bitmapEncoder with x' | r'
    · rw [h2] at hi
      cases hi
      refine .same (r := .error (.panic x)) (e1 := e) (e1' := e') (fun l => ?_) (fun l => ?_) (Nat.le_refl _) h
      · simp only [writeRange, Run.bind_apply, Run.get_apply, h1, Run.lift_error]
      · simp only [writeRange, Run.bind_apply, Run.get_apply, h2, Run.lift_error]
    · rw [h2] at hi; cases hi
  · have hn := encodePrimitiveBuffer_rows hne h1
    rw [h1] at hi
    rcases h2 : encodePrimitiveBuffer p buf start stop bitPos e'.bitmapEncoder with x' | ⟨res', data', be'⟩
    · rw [h2] at hi; cases hi
    · rw [h2] at hi
      simp only [Except.map, Except.ok.injEq, Prod.mk.injEq] at hi
      obtain ⟨rfl, rfl⟩ := hi
      simp only at hn
      have hrows := h.rows
      by_cases hlt : e.numRows + res.numRows < 2 ^ 32
      · refine ⟨.ok res, { e with encodedData := data, bitmapEncoder := be, numRows := e.numRows + res.numRows },
          [(e.numRows + res.numRows - 1, data)], fun l => ?_, ?_, ?_, ?_⟩
        · simp only [writeRange, Run.bind_apply, Run.get_apply, h1, Run.lift_ok, Run.set_apply, addRows_eq, if_pos hlt,
            Profile.sub_ok p (show 1 ≤ e.numRows + res.numRows by omega), Run.emit_recorder, Run.pure_apply]
        · simp only; omega
        · exact ⟨{ e with numRows := e.numRows + res.numRows + d }, ⟨rfl, rfl, rfl, h.ok⟩⟩
        · by_cases hlt' : e'.numRows + res.numRows < 2 ^ 32
          · refine .inl ⟨{ e' with encodedData := data, bitmapEncoder := be', numRows := e'.numRows + res.numRows },
              fun l => ?_, ?_⟩
            · simp only [writeRange, Run.bind_apply, Run.get_apply, h2, Run.lift_ok, Run.set_apply, addRows_eq,
                if_pos hlt', Profile.sub_ok p (show 1 ≤ e'.numRows + res.numRows by omega), Run.emit_recorder,
                Run.pure_apply]
              have : e'.numRows + res.numRows - 1 = e.numRows + res.numRows - 1 + d := by omega
              rw [this]
              rfl
            · exact ⟨h.remaining, h.size, by simp only; omega, h.ok⟩
          · refine .inr ⟨{ e' with encodedData := data, bitmapEncoder := be' }, [], fun l => ?_, ⟨_, List.prefix_refl _⟩,
              by simp only; omega⟩
            simp only [writeRange, Run.bind_apply, Run.get_apply, h2, Run.lift_ok, Run.set_apply, addRows_eq,
              if_neg hlt', Run.lift_error, shiftIds_nil, List.append_nil]
      · refine .same (r := .error (.panic .expect)) (e1 := { e with encodedData := data, bitmapEncoder := be })
          (e1' := { e' with encodedData := data, bitmapEncoder := be' }) (fun l => ?_) (fun l => ?_) ?_ ?_
        · simp only [writeRange, Run.bind_apply, Run.get_apply, h1, Run.lift_ok, Run.set_apply, addRows_eq,
            if_neg hlt, Run.lift_error]
        · simp only [writeRange, Run.bind_apply, Run.get_apply, h2, Run.lift_ok, Run.set_apply, addRows_eq,
            if_neg (show ¬ e'.numRows + res.numRows < 2 ^ 32 by omega), Run.lift_error]
        · exact Nat.le_refl _
        · exact ⟨h.remaining, h.size, hrows, h.ok⟩

theorem writeRemaining_shift (p : Profile) {d : Nat} {e e' : Encoder α} (hl : e.remaining.len > 0) (h : Ahead d e e') :
    ShiftAt Encoder.numRows (Ahead d) d (writeRemaining p recorder) (writeRemaining p recorder) e e' := by
  refine .get_bind ?_
  rw [h.remaining]
  exact writeRange_shift p _ _ _ _ (by omega) h

theorem leaving_shift {γ : Type} (r : Res γ) (rem : PrimitiveBuffer α) {d : Nat} {e e' : Encoder α} (h : Ahead d e e') :
    ShiftAt Encoder.numRows (Ahead d) d (Run.lift r (leaving rem)) (Run.lift r (leaving rem)) e e' :=
  .leaving r (f := fun e => { e with remaining := rem }) (Nat.le_refl _) h ⟨rfl, h.size, h.rows, h.ok⟩

theorem encodeLoop_shift (p : Profile) (src : PrimitiveBuffer α) {d : Nat} (fuel : Nat) :
    ∀ (bp vp : Nat) (e e' : Encoder α), Ahead d e e' →
      ShiftAt Encoder.numRows (Ahead d) d (encodeLoop p recorder src fuel bp vp)
        (encodeLoop p recorder src fuel bp vp) e e' := by
  induction fuel with
  | zero => intro bp vp e e' h; exact .lift _ h
  | succ fuel ih =>
    intro bp vp e e' h
    rw [encodeLoop]
    split
    · rename_i hlt
      refine .get_bind ?_
      rw [h.size]
      refine .bind (.lift _ h) fun stop e1 e1' bs h1 hR1 => ?_
      have hc : chunk p src bp e.minBlockSize = .ok stop := (lift_inv (h1 [])).1
      have hne := chunk_ne hlt h.ok.1 h.ok.2 hc
      refine .bind (.lift _ hR1) fun n e2 e2' bs2 h2 hR2 => ?_
      have he1 : e1 = e := (lift_inv (h1 [])).2
      have he2 : e2 = e1 := (lift_inv (h2 [])).2
      dsimp only
      split
      · rw [h.remaining]
        refine .bind (leaving_shift _ _ hR2) fun r e3 e3' bs3 h3 hR3 => ?_
        have he3 : e3 = e2 := (lift_inv (h3 [])).2
        exact .set (by rw [he3, he2, he1]; exact Nat.le_refl _) ⟨rfl, rfl, h.rows, h.ok⟩
      · exact .bind (writeRange_shift p src bp stop vp hne hR2) fun r e3 e3' bs3 h3 hR3 => ih _ _ _ _ hR3
    · exact .pure _ h

theorem encode_shift (p : Profile) (src : PrimitiveBuffer α) {d : Nat} {e e' : Encoder α} (h : Ahead d e e') :
    ShiftAt Encoder.numRows (Ahead d) d (encode p recorder src) (encode p recorder src) e e' := by
  refine .get_bind ?_
  rw [h.remaining, h.size]
  split
  · rename_i hl
    refine .bind (.lift _ h) fun room e1 e1' bs h1 hR1 => ?_
    have he1 : e1 = e := (lift_inv (h1 [])).2
    refine .bind (.lift _ hR1) fun stop e2 e2' bs2 h2 hR2 => ?_
    have he2 : e2 = e1 := (lift_inv (h2 [])).2
    refine .bind (leaving_shift _ _ hR2) fun rem e3 e3' bs3 h3 hR3 => ?_
    obtain ⟨ha, he3⟩ := lift_inv (h3 [])
    have hlen := appendFrom_len ha
    refine .bind (.set (by rw [he3, he2, he1]; exact Nat.le_refl _) ⟨rfl, rfl, h.rows, h.ok⟩)
      fun u e4 e4' bs4 h4 hR4 => ?_
    have he4 : e4 = { e with remaining := rem.1 } := by
      have := (Prod.mk.inj (Prod.mk.inj (h4 [])).2).1
      exact this.symm
    dsimp only
    split
    · exact .pure _ hR4
    · refine .bind (writeRemaining_shift p (by rw [he4]; simp only; omega) hR4) fun r e5 e5' bs5 h5 hR5 => ?_
      refine .get_bind (.bind (.set (Nat.le_refl _) ⟨by rw [hR5.remaining], hR5.size, hR5.rows, hR5.ok⟩)
        fun u e6 e6' bs6 h6 hR6 => ?_)
      exact encodeLoop_shift p src _ _ _ _ _ hR6
  · exact encodeLoop_shift p src _ _ _ _ _ h

theorem flush_shift (p : Profile) {d : Nat} {e e' : Encoder α} (h : Ahead d e e') :
    ShiftAt Encoder.numRows (Ahead d) d (flush p recorder) (flush p recorder) e e' := by
  refine .get_bind ?_
  rw [h.remaining]
  split
  · rename_i hl
    exact .bind (writeRemaining_shift p hl h) fun r e3 e3' bs h3 hR3 => .pure _ hR3
  · exact .pure _ h

theorem encodeAll_shift (p : Profile) (srcs : List (PrimitiveBuffer α)) {d : Nat} : ∀ {e e' : Encoder α},
    Ahead d e e' → ShiftAt Encoder.numRows (Ahead d) d (encodeAll p recorder srcs) (encodeAll p recorder srcs) e e' := by
  induction srcs with
  | nil => intro e e' h; exact .pure _ h
  | cons b bs ih => intro e e' h; exact .bind (encode_shift p b h) fun _ _ _ _ _ hR => ih hR

theorem encodeColumn_shift (p : Profile) (srcs : List (PrimitiveBuffer α)) {d : Nat} {e e' : Encoder α}
    (h : Ahead d e e') :
    ShiftAt Encoder.numRows (Ahead d) d (encodeColumn p recorder srcs) (encodeColumn p recorder srcs) e e' :=
  .bind (encodeAll_shift p srcs h) fun _ _ _ _ _ hR => flush_shift p hR

end PrimitiveEnc

/-! ## The binary encoder -/

namespace BinaryEnc

/-- Equal but for `d` rows more counted by the second (and the scratch buffers). -/
structure Ahead (d : Nat) (e e' : Encoder) : Prop where
  remaining : e'.remaining = e.remaining
  size : e'.minBlockSize = e.minBlockSize
  rows : e'.numRows = e.numRows + d

theorem writeBlock_shift (p : Profile) (buf : BinaryBuffer) (c : BinaryChunk) (hc : LenOk c) (bitPos : Nat)
    {d : Nat} {e e' : Encoder} (h : Ahead d e e') :
    ShiftAt Encoder.numRows (Ahead d) d (writeBlock p recorder buf c bitPos)
      (writeBlock p recorder buf c bitPos) e e' := by
  have hi := encodeBinaryBuffer_indep p buf c bitPos e.bitmapEncoder e'.bitmapEncoder
  rcases h1 : encodeBinaryBuffer p buf c bitPos e.bitmapEncoder with x | r
  · rw [h1] at hi
    rcases h2 : encodeBinaryBuffer p buf c bitPos e'.bitmapEncoder with x' | r'
    · rw [h2] at hi
      cases hi
      refine .same (r := .error (.panic x)) (e1 := e) (e1' := e') (fun l => ?_) (fun l => ?_) (Nat.le_refl _) h
      · simp only [writeBlock, Run.bind_apply, Run.get_apply, h1, Run.lift_error]
      · simp only [writeBlock, Run.bind_apply, Run.get_apply, h2, Run.lift_error]
    · rw [h2] at hi; cases hi
  · have hn := encodeBinaryBuffer_rows (hc (encodeBinaryBuffer_progress p buf c bitPos _ h1)) h1
    rw [h1] at hi
    rcases h2 : encodeBinaryBuffer p buf c bitPos e'.bitmapEncoder with x' | r'
    · rw [h2] at hi; cases hi
    · rw [h2] at hi
      simp only [Except.map, Except.ok.injEq, Prod.mk.injEq] at hi
      obtain ⟨hr1, hr2, hr3⟩ := hi
      have hrows := h.rows
      by_cases hlt : e.numRows + r.result.numRows < 2 ^ 32
      · refine ⟨.ok r.result, { e with encodedData := r.data, offsetDeltas := r.deltas, bitmapEncoder := r.bitmapEncoder, numRows := e.numRows + r.result.numRows },
          [(e.numRows + r.result.numRows - 1, r.data)], fun l => ?_, ?_, ?_, ?_⟩
        · simp only [writeBlock, Run.bind_apply, Run.get_apply, h1, Run.lift_ok, Run.set_apply, addRows_eq, if_pos hlt,
            Profile.sub_ok p (show 1 ≤ e.numRows + r.result.numRows by omega), Run.emit_recorder, Run.pure_apply]
        · simp only; omega
        · exact ⟨{ e with numRows := e.numRows + r.result.numRows + d }, ⟨rfl, rfl, rfl⟩⟩
        · by_cases hlt' : e'.numRows + r.result.numRows < 2 ^ 32
          · refine .inl ⟨{ e' with encodedData := r'.data, offsetDeltas := r'.deltas, bitmapEncoder := r'.bitmapEncoder, numRows := e'.numRows + r.result.numRows },
              fun l => ?_, ?_⟩
            · simp only [writeBlock, Run.bind_apply, Run.get_apply, h2, ← hr1, ← hr2, Run.lift_ok, Run.set_apply,
                addRows_eq, if_pos hlt', Profile.sub_ok p (show 1 ≤ e'.numRows + r.result.numRows by omega),
                Run.emit_recorder, Run.pure_apply]
              have : e'.numRows + r.result.numRows - 1 = e.numRows + r.result.numRows - 1 + d := by omega
              rw [this]
              rfl
            · exact ⟨h.remaining, h.size, by simp only; omega⟩
          · refine .inr ⟨{ e' with encodedData := r'.data, offsetDeltas := r'.deltas, bitmapEncoder := r'.bitmapEncoder },
              [], fun l => ?_, ⟨_, List.prefix_refl _⟩, by simp only; omega⟩
            simp only [writeBlock, Run.bind_apply, Run.get_apply, h2, ← hr1, Run.lift_ok, Run.set_apply, addRows_eq,
              if_neg hlt', Run.lift_error, shiftIds_nil, List.append_nil]
      · refine .same (r := .error (.panic .expect))
          (e1 := { e with encodedData := r.data, offsetDeltas := r.deltas, bitmapEncoder := r.bitmapEncoder })
          (e1' := { e' with encodedData := r'.data, offsetDeltas := r'.deltas, bitmapEncoder := r'.bitmapEncoder })
          (fun l => ?_) (fun l => ?_) ?_ ?_
        · simp only [writeBlock, Run.bind_apply, Run.get_apply, h1, Run.lift_ok, Run.set_apply, addRows_eq,
            if_neg hlt, Run.lift_error]
        · simp only [writeBlock, Run.bind_apply, Run.get_apply, h2, ← hr1, Run.lift_ok, Run.set_apply, addRows_eq,
            if_neg (show ¬ e'.numRows + r.result.numRows < 2 ^ 32 by omega), Run.lift_error]
        · exact Nat.le_refl _
        · exact ⟨h.remaining, h.size, hrows⟩

theorem writeRemaining_shift (p : Profile) {d : Nat} {e e' : Encoder} (h : Ahead d e e') :
    ShiftAt Encoder.numRows (Ahead d) d (writeRemaining p recorder) (writeRemaining p recorder) e e' := by
  refine .get_bind ?_
  rw [h.remaining]
  refine .bind (.lift _ h) fun c e1 e1' bs h1 hR1 => ?_
  exact writeBlock_shift p _ c (wholeChunk_lenOk (lift_inv (h1 [])).1) 0 hR1

theorem leaving_shift {γ : Type} (r : Res γ) (rem : BinaryBuffer) {d : Nat} {e e' : Encoder} (h : Ahead d e e') :
    ShiftAt Encoder.numRows (Ahead d) d (Run.lift r (leaving rem)) (Run.lift r (leaving rem)) e e' :=
  .leaving r (f := fun e => { e with remaining := rem }) (Nat.le_refl _) h ⟨rfl, h.size, h.rows⟩

theorem encodeLoop_shift (p : Profile) (src : BinaryBuffer) {d : Nat} (fuel : Nat) :
    ∀ (bp vp : Nat) (e e' : Encoder), Ahead d e e' →
      ShiftAt Encoder.numRows (Ahead d) d (encodeLoop p recorder src fuel bp vp)
        (encodeLoop p recorder src fuel bp vp) e e' := by
  induction fuel with
  | zero => intro bp vp e e' h; exact .lift _ h
  | succ fuel ih =>
    intro bp vp e e' h
    rw [encodeLoop]
    split
    · refine .get_bind ?_
      rw [h.size]
      refine .bind (.lift _ h) fun c e1 e1' bs h1 hR1 => ?_
      obtain ⟨hc, he1⟩ := lift_inv (h1 [])
      split
      · rw [h.remaining]
        refine .bind (leaving_shift _ _ hR1) fun r e3 e3' bs3 h3 hR3 => ?_
        have he3 : e3 = e1 := (lift_inv (h3 [])).2
        exact .set (by rw [he3, he1]; exact Nat.le_refl _) ⟨rfl, rfl, h.rows⟩
      · exact .bind (writeBlock_shift p src c (chunk_lenOk hc) vp hR1) fun r e3 e3' bs3 h3 hR3 => ih _ _ _ _ hR3
    · exact .pure _ h

theorem encode_shift (p : Profile) (src : BinaryBuffer) {d : Nat} {e e' : Encoder} (h : Ahead d e e') :
    ShiftAt Encoder.numRows (Ahead d) d (encode p recorder src) (encode p recorder src) e e' := by
  refine .get_bind ?_
  rw [h.remaining, h.size]
  split
  · refine .bind (.lift _ h) fun room e1 e1' bs h1 hR1 => ?_
    have he1 : e1 = e := (lift_inv (h1 [])).2
    refine .bind (.lift _ hR1) fun c e2 e2' bs2 h2 hR2 => ?_
    have he2 : e2 = e1 := (lift_inv (h2 [])).2
    refine .bind (leaving_shift _ _ hR2) fun rem e3 e3' bs3 h3 hR3 => ?_
    have he3 : e3 = e2 := (lift_inv (h3 [])).2
    refine .bind (.set (by rw [he3, he2, he1]; exact Nat.le_refl _) ⟨rfl, rfl, h.rows⟩)
      fun u e4 e4' bs4 h4 hR4 => ?_
    dsimp only
    split
    · exact .pure _ hR4
    · refine .bind (writeRemaining_shift p hR4) fun r e5 e5' bs5 h5 hR5 => ?_
      refine .get_bind (.bind (.set (Nat.le_refl _) ⟨by rw [hR5.remaining], hR5.size, hR5.rows⟩)
        fun u e6 e6' bs6 h6 hR6 => ?_)
      exact encodeLoop_shift p src _ _ _ _ _ hR6
  · exact encodeLoop_shift p src _ _ _ _ _ h

theorem flush_shift (p : Profile) {d : Nat} {e e' : Encoder} (h : Ahead d e e') :
    ShiftAt Encoder.numRows (Ahead d) d (flush p recorder) (flush p recorder) e e' := by
  refine .get_bind ?_
  rw [h.remaining]
  split
  · exact .bind (writeRemaining_shift p h) fun r e3 e3' bs h3 hR3 => .pure _ hR3
  · exact .pure _ h

theorem encodeAll_shift (p : Profile) (srcs : List BinaryBuffer) {d : Nat} : ∀ {e e' : Encoder},
    Ahead d e e' → ShiftAt Encoder.numRows (Ahead d) d (encodeAll p recorder srcs) (encodeAll p recorder srcs) e e' := by
  induction srcs with
  | nil => intro e e' h; exact .pure _ h
  | cons b bs ih => intro e e' h; exact .bind (encode_shift p b h) fun _ _ _ _ _ hR => ih hR

theorem encodeColumn_shift (p : Profile) (srcs : List BinaryBuffer) {d : Nat} {e e' : Encoder} (h : Ahead d e e') :
    ShiftAt Encoder.numRows (Ahead d) d (encodeColumn p recorder srcs) (encodeColumn p recorder srcs) e e' :=
  .bind (encodeAll_shift p srcs h) fun _ _ _ _ _ hR => flush_shift p hR

end BinaryEnc
end Meerkat
