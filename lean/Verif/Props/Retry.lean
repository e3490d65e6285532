import Verif.Proofs.Shift
import Verif.Props.EncoderSink

set_option autoImplicit false

/-!
# C65: repeating a call whose sink failed

Rows are counted before the block is offered (`add_rows` runs before `write_block().await?`), and the
count is not taken back when the sink fails.
-/

namespace Meerkat
open Spec
variable {S : Type}

theorem Run.emit_of {E : Type} {k : Sink S} {s s' : S} {id : Nat} {data : Bytes} {r : Except Fault Unit}
    (h : k.write s id data = (r, s')) (e : E) : Run.emit k id data (e, s) = (r, (e, s')) := by
  rw [Run.emit, h]

namespace PrimitiveEnc
variable {α : Type} [Element α]

theorem flush_apply (p : Profile) (k : Sink S) (e : Encoder α) (s : S) (hl : e.remaining.len > 0) :
    flush p k (e, s) = match writeRange p k e.remaining 0 e.remaining.len 0 (e, s) with
      | (.ok _, st) => (.ok (), st)
      | (.error f, st) => (.error f, st) := by
  rw [flush, Run.bind_ok (Run.get_apply _)]
  dsimp only
  rw [if_pos hl, Run.bind_apply, show writeRemaining p k (e, s) = writeRange p k e.remaining 0 e.remaining.len 0 (e, s) from rfl]
  rcases writeRange p k e.remaining 0 e.remaining.len 0 (e, s) with ⟨_ | _, _⟩ <;> rfl

/-- A range that encodes is offered with the same id and bytes to any sink, which does not see the
encoder: the state left behind does not depend on its answer. -/
theorem writeRange_answer (p : Profile) (k : Sink S) (buf : PrimitiveBuffer α) (start stop pos : Nat)
    (e e' : Encoder α) (l l' : List (Nat × Bytes)) (r : EncodeResult)
    (h : writeRange p recorder buf start stop pos (e, l) = (.ok r, (e', l'))) :
    ∃ id data, l' = l ++ [(id, data)] ∧ ∀ s,
      writeRange p k buf start stop pos (e, s) =
        match k.write s id data with
        | (.ok (), s') => (.ok r, (e', s'))
        | (.error f, s') => (.error f, (e', s')) := by
  simp only [writeRange, Run.bind_apply, Run.get_apply] at h ⊢
  rcases h1 : encodePrimitiveBuffer p buf start stop pos e.bitmapEncoder with x | ⟨res, data, be⟩
  · rw [h1] at h; cases (Prod.mk.inj h).1
  · rw [h1] at h
    simp only [Run.lift_ok, Run.set_apply] at h ⊢
    rcases h2 : addRows e.numRows res.numRows with x | n
    · rw [h2] at h; cases (Prod.mk.inj h).1
    · rw [h2] at h
      simp only [Run.lift_ok] at h ⊢
      rcases h3 : p.sub 32 n 1 with x | i
      · rw [h3] at h; cases (Prod.mk.inj h).1
      · rw [h3] at h
        simp only [Run.lift_ok, Run.emit_recorder, Run.pure_apply, Prod.mk.injEq, Except.ok.injEq] at h ⊢
        obtain ⟨rfl, rfl, rfl⟩ := h
        refine ⟨i, data, rfl, fun s => ?_⟩
        rcases hk : k.write s i data with ⟨_ | u, s'⟩ <;> rw [Run.emit_of hk] <;> rfl

theorem writeRange_keeps {p : Profile} {k : Sink S} {buf : PrimitiveBuffer α} {start stop pos : Nat} (hne : start ≠ stop)
    {e e' : Encoder α} {s s' : S} {r : Except Fault EncodeResult}
    (h : writeRange p k buf start stop pos (e, s) = (r, (e', s'))) (hr : ∀ x, r ≠ .error (.panic x)) :
    e'.remaining = e.remaining ∧ e'.minBlockSize = e.minBlockSize ∧ e.numRows < e'.numRows := by
  simp only [writeRange, Run.bind_apply, Run.get_apply] at h
  rcases h1 : encodePrimitiveBuffer p buf start stop pos e.bitmapEncoder with x | ⟨res, data, be⟩
  · rw [h1] at h; exact absurd (Prod.mk.inj h).1.symm (hr x)
  · have hn := encodePrimitiveBuffer_rows hne h1
    rw [h1] at h
    simp only [Run.lift_ok, Run.set_apply, addRows_eq] at h hn
    by_cases hlt : e.numRows + res.numRows < 2 ^ 32
    · rw [if_pos hlt] at h
      simp only [Run.lift_ok, Profile.sub_ok p (show 1 ≤ e.numRows + res.numRows by omega)] at h
      rcases hk : k.write s (e.numRows + res.numRows - 1) data with ⟨_ | u, s2⟩ <;>
      · rw [Run.emit_of hk] at h
        obtain ⟨_, h⟩ := Prod.mk.inj h
        obtain ⟨rfl, _⟩ := Prod.mk.inj h
        exact ⟨rfl, rfl, by simp only; omega⟩
    · rw [if_neg hlt] at h; exact absurd (Prod.mk.inj h).1.symm (hr _)

theorem appendFrom_len_le {d src : PrimitiveBuffer α} {stop v : Nat} {r}
    (h : d.appendFrom src 0 stop v = .ok r) : r.1.len ≤ d.len + stop := by
  rw [PrimitiveBuffer.appendFrom, slice] at h
  split at h
  · rw [ok_bind] at h
    dsimp only at h
    split at h
    · rcases h2 : validityAppendFrom d.validity src.validity v (stop - 0) with x | ⟨y, z⟩
      · rw [h2] at h; cases h
      · rw [h2, ok_bind] at h
        cases h
        simp [PrimitiveBuffer.len]; omega
    · cases h
  · cases h

theorem chunk_le {p : Profile} {b : PrimitiveBuffer α} {size stop : Nat} (h : chunk p b 0 size = .ok stop) :
    stop ≤ size / Element.size α + (if size % Element.size α ≠ 0 then 1 else 0) := by
  rw [chunk] at h
  generalize size / Element.size α + (if size % Element.size α ≠ 0 then 1 else 0) = n at *
  rcases h1 : p.add 64 0 n with x | y
  · rw [h1] at h; cases h
  · rw [h1, ok_bind] at h
    have hy : y ≤ n := by
      simp only [Profile.add] at h1
      split at h1
      · cases h1; omega
      · cases p
        · cases h1
        · cases h1; exact Nat.le_trans (Nat.mod_le _ _) (by omega)
    split at h <;> cases h <;> omega

theorem writeRemaining_keeps {p : Profile} {k : Sink S} {e e' : Encoder α} {s s' : S} {r : Except Fault EncodeResult}
    (hl : e.remaining.len > 0) (h : writeRemaining p k (e, s) = (r, (e', s'))) (hr : ∀ x, r ≠ .error (.panic x)) :
    e'.remaining = e.remaining ∧ e'.minBlockSize = e.minBlockSize ∧ e.numRows < e'.numRows :=
  writeRange_keeps (start := 0) (stop := e.remaining.len) (by omega) h hr

theorem lift_io {E γ : Type} {r : Res γ} {s s' : E × S} :
    (Run.lift r : Run (E × S) γ) s ≠ (.error .io, s') := by
  intro h
  cases r <;> cases (Prod.mk.inj h).1

theorem encodeLoop_io (p : Profile) (k : Sink S) (src : PrimitiveBuffer α) (fuel : Nat) : ∀ (bp vp : Nat) (e e' : Encoder α)
    (s s' : S), SizeOk e → encodeLoop p k src fuel bp vp (e, s) = (.error .io, (e', s')) →
    e'.remaining = e.remaining ∧ e'.minBlockSize = e.minBlockSize ∧ e.numRows < e'.numRows := by
  induction fuel with
  | zero => intro bp vp e e' s s' _ h; exact absurd h lift_io
  | succ fuel ih =>
    intro bp vp e e' s s' hP h
    rw [encodeLoop] at h
    split at h
    · rename_i hlt
      rw [Run.bind_ok (Run.get_apply _)] at h
      dsimp only at h
      rcases hc : chunk p src bp e.minBlockSize with x | stop
      · rw [hc] at h; cases (Prod.mk.inj h).1
      have hne := chunk_ne hlt hP.1 hP.2 hc
      rw [hc, Run.bind_ok (Run.lift_ok _ _)] at h
      rcases hn : p.sub 64 stop bp with x | n
      · rw [hn] at h; cases (Prod.mk.inj h).1
      rw [hn, Run.bind_ok (Run.lift_ok _ _)] at h
      split at h
      · rcases ha : e.remaining.appendFrom src bp stop vp with x | r
        · rw [ha] at h; cases (Prod.mk.inj h).1
        · rw [ha, Run.bind_ok (Run.lift_ok _ _)] at h; cases (Prod.mk.inj h).1
      · rcases hw : writeRange p k src bp stop vp (e, s) with ⟨_ | r, e1, s1⟩
        · rw [writeBlock, Run.bind_error hw] at h
          obtain ⟨h1, h2⟩ := Prod.mk.inj h
          obtain ⟨rfl, rfl⟩ := Prod.mk.inj h2
          rw [Except.error.inj h1] at hw
          exact writeRange_keeps hne hw (fun x hx => by cases hx)
        · rw [writeBlock, Run.bind_ok hw] at h
          obtain ⟨g1, g2, g3⟩ := writeRange_keeps hne hw (fun x hx => by cases hx)
          obtain ⟨k1, k2, k3⟩ := ih _ _ _ _ _ _ ⟨by rw [g2]; exact hP.1, by rw [g2]; exact hP.2⟩ h
          exact ⟨k1.trans g1, k2.trans g2, Nat.lt_trans g3 k3⟩
    · cases (Prod.mk.inj h).1

/-- After a sink error either nothing is held back, or what is held back reached the block size. -/
theorem encode_io (p : Profile) (k : Sink S) (src : PrimitiveBuffer α) (e e' : Encoder α) (s s' : S) (hP : SizeOk e)
    (h : encode p k src (e, s) = (.error .io, (e', s'))) :
    e'.minBlockSize = e.minBlockSize ∧ e.numRows < e'.numRows ∧
      (e.remaining.len = 0 → e'.remaining = e.remaining) ∧
      (0 < e.remaining.len → e'.remaining.len = 0 ∨ e.minBlockSize ≤ e'.remaining.len) := by
  rw [encode, encodeFuel, Run.bind_ok (Run.get_apply _)] at h
  dsimp only at h
  split at h
  · rename_i hl
    rcases h1 : p.sub 64 e.minBlockSize (e.remaining.len * Element.size α) with x | room
    · rw [h1] at h; cases (Prod.mk.inj h).1
    rw [h1, Run.bind_ok (Run.lift_ok _ _)] at h
    rcases h2 : chunk p src 0 room with x | stop
    · rw [h2] at h; cases (Prod.mk.inj h).1
    rw [h2, Run.bind_ok (Run.lift_ok _ _)] at h
    rcases h3 : e.remaining.appendFrom src 0 stop 0 with x | rem
    · rw [h3] at h; cases (Prod.mk.inj h).1
    have hlen := appendFrom_len h3
    rw [h3, Run.bind_ok (Run.lift_ok _ _), Run.bind_ok (Run.set_apply _ _)] at h
    dsimp only at h
    split at h
    · cases (Prod.mk.inj h).1
    · rename_i hge
      rcases hw : writeRemaining p k ({ e with remaining := rem.1 }, s) with ⟨_ | r, e1, s1⟩
      · rw [Run.bind_error hw] at h
        obtain ⟨h4, h5⟩ := Prod.mk.inj h
        obtain ⟨rfl, rfl⟩ := Prod.mk.inj h5
        rw [Except.error.inj h4] at hw
        obtain ⟨g1, g2, g3⟩ := writeRemaining_keeps (by simp only; omega) hw (fun x hx => by cases hx)
        exact ⟨g2, g3, fun h0 => by omega, fun _ => .inr (by rw [g1]; simp only; omega)⟩
      · obtain ⟨g1, g2, g3⟩ := writeRemaining_keeps (by simp only; omega) hw (fun x hx => by cases hx)
        rw [Run.bind_ok hw, Run.bind_ok (Run.get_apply _), Run.bind_ok (Run.set_apply _ _)] at h
        have hP' : SizeOk e1 := ⟨by rw [g2]; exact hP.1, by rw [g2]; exact hP.2⟩
        obtain ⟨k1, k2, k3⟩ := encodeLoop_io p k src _ _ _ _ _ _ _ (by exact hP') h
        exact ⟨k2.trans g2, Nat.lt_trans g3 k3, fun h0 => by omega, fun _ => .inl (by rw [k1]; rfl)⟩
  · rename_i hl
    obtain ⟨k1, k2, k3⟩ := encodeLoop_io p k src _ _ _ _ _ _ _ hP h
    exact ⟨k2, k3, fun _ => k1, fun h0 => by omega⟩

end PrimitiveEnc

namespace BinaryEnc

theorem flush_apply (p : Profile) (k : Sink S) (e : Encoder) (s : S) (hl : e.remaining.len > 0) {c : BinaryChunk}
    (hc : wholeChunk e.remaining = .ok c) :
    flush p k (e, s) = match writeBlock p k e.remaining c 0 (e, s) with
      | (.ok _, st) => (.ok (), st)
      | (.error f, st) => (.error f, st) := by
  have hw : writeRemaining p k (e, s) = writeBlock p k e.remaining c 0 (e, s) := by
    rw [writeRemaining, Run.bind_ok (Run.get_apply _), hc, Run.bind_ok (Run.lift_ok _ _)]
  rw [flush, Run.bind_ok (Run.get_apply _)]
  dsimp only
  rw [if_pos hl, Run.bind_apply, hw]
  rcases writeBlock p k e.remaining c 0 (e, s) with ⟨_ | _, _⟩ <;> rfl

theorem writeBlock_keeps {p : Profile} {k : Sink S} {buf : BinaryBuffer} {c : BinaryChunk} {pos : Nat} (hc : LenOk c)
    {e e' : Encoder} {s s' : S} {r : Except Fault EncodeResult}
    (h : writeBlock p k buf c pos (e, s) = (r, (e', s'))) (hr : ∀ x, r ≠ .error (.panic x)) :
    e'.remaining = e.remaining ∧ e'.minBlockSize = e.minBlockSize ∧ e.numRows < e'.numRows := by
  simp only [writeBlock, Run.bind_apply, Run.get_apply] at h
  rcases h1 : encodeBinaryBuffer p buf c pos e.bitmapEncoder with x | res
  · rw [h1] at h; exact absurd (Prod.mk.inj h).1.symm (hr x)
  · have hn := encodeBinaryBuffer_rows (hc (encodeBinaryBuffer_progress p buf c pos _ h1)) h1
    rw [h1] at h
    simp only [Run.lift_ok, Run.set_apply, addRows_eq] at h hn
    by_cases hlt : e.numRows + res.result.numRows < 2 ^ 32
    · rw [if_pos hlt] at h
      simp only [Run.lift_ok, Profile.sub_ok p (show 1 ≤ e.numRows + res.result.numRows by omega)] at h
      rcases hk : k.write s (e.numRows + res.result.numRows - 1) res.data with ⟨_ | u, s2⟩ <;>
      · rw [Run.emit_of hk] at h
        obtain ⟨_, h⟩ := Prod.mk.inj h
        obtain ⟨rfl, _⟩ := Prod.mk.inj h
        exact ⟨rfl, rfl, by simp only; omega⟩
    · rw [if_neg hlt] at h; exact absurd (Prod.mk.inj h).1.symm (hr _)

theorem writeBlock_answer (p : Profile) (k : Sink S) (buf : BinaryBuffer) (c : BinaryChunk) (pos : Nat)
    (e e' : Encoder) (l l' : List (Nat × Bytes)) (r : EncodeResult)
    (h : writeBlock p recorder buf c pos (e, l) = (.ok r, (e', l'))) :
    ∃ id data, l' = l ++ [(id, data)] ∧ ∀ s,
      writeBlock p k buf c pos (e, s) =
        match k.write s id data with
        | (.ok (), s') => (.ok r, (e', s'))
        | (.error f, s') => (.error f, (e', s')) := by
  simp only [writeBlock, Run.bind_apply, Run.get_apply] at h ⊢
  rcases h1 : encodeBinaryBuffer p buf c pos e.bitmapEncoder with x | res
  · rw [h1] at h; cases (Prod.mk.inj h).1
  · rw [h1] at h
    simp only [Run.lift_ok, Run.set_apply] at h ⊢
    rcases h2 : addRows e.numRows res.result.numRows with x | n
    · rw [h2] at h; cases (Prod.mk.inj h).1
    · rw [h2] at h
      simp only [Run.lift_ok] at h ⊢
      rcases h3 : p.sub 32 n 1 with x | i
      · rw [h3] at h; cases (Prod.mk.inj h).1
      · rw [h3] at h
        simp only [Run.lift_ok, Run.emit_recorder, Run.pure_apply, Prod.mk.injEq, Except.ok.injEq] at h ⊢
        obtain ⟨rfl, rfl, rfl⟩ := h
        refine ⟨i, res.data, rfl, fun s => ?_⟩
        rcases hk : k.write s i res.data with ⟨_ | u, s'⟩ <;> rw [Run.emit_of hk] <;> rfl

theorem encodeLoop_io (p : Profile) (k : Sink S) (src : BinaryBuffer) (fuel : Nat) : ∀ (bp vp : Nat) (e e' : Encoder)
    (s s' : S), encodeLoop p k src fuel bp vp (e, s) = (.error .io, (e', s')) →
    e'.remaining = e.remaining ∧ e'.minBlockSize = e.minBlockSize ∧ e.numRows < e'.numRows := by
  induction fuel with
  | zero => intro bp vp e e' s s' h; exact absurd h PrimitiveEnc.lift_io
  | succ fuel ih =>
    intro bp vp e e' s s' h
    rw [encodeLoop] at h
    split at h
    · rw [Run.bind_ok (Run.get_apply _)] at h
      dsimp only at h
      rcases hc : chunk p src bp e.minBlockSize with x | c
      · rw [hc] at h; cases (Prod.mk.inj h).1
      rw [hc, Run.bind_ok (Run.lift_ok _ _)] at h
      split at h
      · rcases ha : e.remaining.appendFrom p src c.startPos c.endPos vp with x | r
        · rw [ha] at h; cases (Prod.mk.inj h).1
        · rw [ha, Run.bind_ok (Run.lift_ok _ _)] at h; cases (Prod.mk.inj h).1
      · rcases hw : writeBlock p k src c vp (e, s) with ⟨_ | r, e1, s1⟩
        · rw [Run.bind_error hw] at h
          obtain ⟨h1, h2⟩ := Prod.mk.inj h
          obtain ⟨rfl, rfl⟩ := Prod.mk.inj h2
          rw [Except.error.inj h1] at hw
          exact writeBlock_keeps (chunk_lenOk hc) hw (fun x hx => by cases hx)
        · rw [Run.bind_ok hw] at h
          obtain ⟨g1, g2, g3⟩ := writeBlock_keeps (chunk_lenOk hc) hw (fun x hx => by cases hx)
          obtain ⟨k1, k2, k3⟩ := ih _ _ _ _ _ _ h
          exact ⟨k1.trans g1, k2.trans g2, Nat.lt_trans g3 k3⟩
    · cases (Prod.mk.inj h).1

end BinaryEnc

/-! ## Flushing again -/

/-- C65, primitive `flush`: if the sink refuses the block, repeating the call offers the same bytes with
the row id moved on by the number of rows in the block, or panics if the rows counted twice exceed a `u32`. -/
theorem C65_primitive_flush_partial {α : Type} [Element α] (p : Profile) (k : Sink S) (e e0 : PrimitiveEnc.Encoder α)
    (hP : PrimitiveEnc.SizeOk e) (he : e.numRows < 2 ^ 32) (hl : e.remaining.len > 0) (bs : List (Nat × Bytes))
    (h : PrimitiveEnc.flush p recorder (e, []) = (.ok (), (e0, bs))) :
    ∃ id data n, bs = [(id, data)] ∧ 1 ≤ n ∧ id + 1 = e.numRows + n ∧
      ∀ s f s', k.write s id data = (.error f, s') → ∃ e1, PrimitiveEnc.flush p k (e, s) = (.error f, (e1, s')) ∧
        ∀ l, ∃ e2, PrimitiveEnc.flush p recorder (e1, l) =
          if id + n + 1 < 2 ^ 32 then (.ok (), (e2, l ++ [(id + n, data)])) else (.error (.panic .expect), (e2, l)) := by
  rw [PrimitiveEnc.flush_apply p recorder e [] hl] at h
  rcases hw : PrimitiveEnc.writeRange p recorder e.remaining 0 e.remaining.len 0 (e, []) with ⟨_ | r, e0', bs'⟩
  · rw [hw] at h; cases (Prod.mk.inj h).1
  rw [hw] at h
  obtain ⟨-, h⟩ := Prod.mk.inj h
  obtain ⟨rfl, rfl⟩ := Prod.mk.inj h
  obtain ⟨g1, g2, g3⟩ := PrimitiveEnc.writeRange_keeps (by omega) hw (fun x hx => by cases hx)
  obtain ⟨id, data, hbs, hk⟩ := PrimitiveEnc.writeRange_answer p k _ _ _ _ _ _ _ _ _ hw
  obtain ⟨cs, bs, c1, c2, c3, c4, c5, _⟩ :=
    PrimitiveEnc.writeRange_counts p e.remaining 0 e.remaining.len 0 (by omega) e he hP []
  rw [hw] at c1 c4 c5
  simp only [List.nil_append] at c1 c4 c5 hbs
  subst c1 hbs
  have hid : id + 1 = e0'.numRows := by
    cases cs with
    | nil => cases c2
    | cons c cs =>
      cases cs with
      | cons _ _ => simp [countIds] at c2
      | nil =>
        have := c3 c (by simp)
        simp [countIds] at c2 c4
        omega
  refine ⟨id, data, e0'.numRows - e.numRows, rfl, by omega, by omega, fun s f s' hs => ⟨e0', ?_, fun l => ?_⟩⟩
  · rw [PrimitiveEnc.flush_apply p k e s hl, hk s, hs]
  · have hA : PrimitiveEnc.Ahead (e0'.numRows - e.numRows) e e0' := ⟨g1, g2, by omega, hP⟩
    have hf : ∀ l, PrimitiveEnc.flush p recorder (e, l) = (.ok (), (e0', l ++ [(id, data)])) := by
      intro l
      obtain ⟨bs1, r1, e1, f1, _⟩ := PrimitiveEnc.flush_follows (α := α) p recorder e
      have h0 := f1 []
      rw [PrimitiveEnc.flush_apply p recorder e [] hl, hw] at h0
      obtain ⟨a1, a2⟩ := Prod.mk.inj h0
      obtain ⟨a2, a3⟩ := Prod.mk.inj a2
      rw [f1 l, ← a1, ← a2, ← List.nil_append bs1, ← a3]
    obtain ⟨r1, e1, bs1, s1, s2, s3, s4⟩ := PrimitiveEnc.flush_shift p hA
    have h0 := s1 []
    rw [hf []] at h0
    obtain ⟨a1, a2⟩ := Prod.mk.inj h0
    obtain ⟨a2, a3⟩ := Prod.mk.inj a2
    simp only [List.nil_append] at a3
    subst a1 a2 a3
    rcases s4 with ⟨e2, k1, k2⟩ | ⟨e2, bs2, k1, ⟨y, k2⟩, k3⟩
    · refine ⟨e2, ?_⟩
      obtain ⟨_, _, _, _, _, _, hlt, _⟩ := PrimitiveEnc.flush_counts p e0' c5 ⟨by rw [g2]; exact hP.1, by rw [g2]; exact hP.2⟩ l
      rw [k1 l] at hlt
      have hr := k2.rows
      simp only at hlt
      rw [k1 l, if_pos (by omega)]
      rfl
    · refine ⟨e2, ?_⟩
      have hb : bs2 = [] := by
        have := k2.length_le
        simp only [List.length_append, List.length_cons, List.length_nil] at this
        exact List.length_eq_zero_iff.mp (by omega)
      rw [k1 l, if_neg (by omega), hb]
      simp

/-- C65, binary `flush`: if the sink refuses the block, repeating the call offers the same bytes with
the row id moved on by the number of rows in the block, or panics if the rows counted twice exceed a `u32`. -/
theorem C65_binary_flush_partial (p : Profile) (k : Sink S) (e e0 : BinaryEnc.Encoder)
    (he : e.numRows < 2 ^ 32) (hl : e.remaining.len > 0) (bs : List (Nat × Bytes))
    (h : BinaryEnc.flush p recorder (e, []) = (.ok (), (e0, bs))) :
    ∃ id data n, bs = [(id, data)] ∧ 1 ≤ n ∧ id + 1 = e.numRows + n ∧
      ∀ s f s', k.write s id data = (.error f, s') → ∃ e1, BinaryEnc.flush p k (e, s) = (.error f, (e1, s')) ∧
        ∀ l, ∃ e2, BinaryEnc.flush p recorder (e1, l) =
          if id + n + 1 < 2 ^ 32 then (.ok (), (e2, l ++ [(id + n, data)])) else (.error (.panic .expect), (e2, l)) := by
  rcases hc : BinaryEnc.wholeChunk e.remaining with x | c
  · rw [BinaryEnc.flush, Run.bind_ok (Run.get_apply _)] at h
    dsimp only at h
    rw [if_pos hl, BinaryEnc.writeRemaining] at h
    simp only [Run.bind_apply, Run.get_apply, hc, Run.lift_error] at h
    cases (Prod.mk.inj h).1
  have hlen := BinaryEnc.wholeChunk_lenOk hc
  rw [BinaryEnc.flush_apply p recorder e [] hl hc] at h
  rcases hw : BinaryEnc.writeBlock p recorder e.remaining c 0 (e, []) with ⟨_ | r, e0', bs'⟩
  · rw [hw] at h; cases (Prod.mk.inj h).1
  rw [hw] at h
  obtain ⟨-, h⟩ := Prod.mk.inj h
  obtain ⟨rfl, rfl⟩ := Prod.mk.inj h
  obtain ⟨g1, g2, g3⟩ := BinaryEnc.writeBlock_keeps hlen hw (fun x hx => by cases hx)
  obtain ⟨id, data, hbs, hk⟩ := BinaryEnc.writeBlock_answer p k _ _ _ _ _ _ _ _ hw
  obtain ⟨cs, bs, c1, c2, c3, c4, c5, _⟩ :=
    BinaryEnc.writeBlock_counts p e.remaining c hlen 0 e he []
  rw [hw] at c1 c4 c5
  simp only [List.nil_append] at c1 c4 c5 hbs
  subst c1 hbs
  have hid : id + 1 = e0'.numRows := by
    cases cs with
    | nil => cases c2
    | cons c cs =>
      cases cs with
      | cons _ _ => simp [countIds] at c2
      | nil =>
        have := c3 c (by simp)
        simp [countIds] at c2 c4
        omega
  refine ⟨id, data, e0'.numRows - e.numRows, rfl, by omega, by omega, fun s f s' hs => ⟨e0', ?_, fun l => ?_⟩⟩
  · rw [BinaryEnc.flush_apply p k e s hl hc, hk s, hs]
  · have hA : BinaryEnc.Ahead (e0'.numRows - e.numRows) e e0' := ⟨g1, g2, by omega⟩
    have hf : ∀ l, BinaryEnc.flush p recorder (e, l) = (.ok (), (e0', l ++ [(id, data)])) := by
      intro l
      obtain ⟨bs1, r1, e1, f1, _⟩ := BinaryEnc.flush_follows p recorder e
      have h0 := f1 []
      rw [BinaryEnc.flush_apply p recorder e [] hl hc, hw] at h0
      obtain ⟨a1, a2⟩ := Prod.mk.inj h0
      obtain ⟨a2, a3⟩ := Prod.mk.inj a2
      rw [f1 l, ← a1, ← a2, ← List.nil_append bs1, ← a3]
    obtain ⟨r1, e1, bs1, s1, s2, s3, s4⟩ := BinaryEnc.flush_shift p hA
    have h0 := s1 []
    rw [hf []] at h0
    obtain ⟨a1, a2⟩ := Prod.mk.inj h0
    obtain ⟨a2, a3⟩ := Prod.mk.inj a2
    simp only [List.nil_append] at a3
    subst a1 a2 a3
    rcases s4 with ⟨e2, k1, k2⟩ | ⟨e2, bs2, k1, ⟨y, k2⟩, k3⟩
    · refine ⟨e2, ?_⟩
      obtain ⟨_, _, _, _, _, _, hlt, _⟩ := BinaryEnc.flush_counts p e0' c5 l
      rw [k1 l] at hlt
      have hr := k2.rows
      simp only at hlt
      rw [k1 l, if_pos (by omega)]
      rfl
    · refine ⟨e2, ?_⟩
      have hb : bs2 = [] := by
        have := k2.length_le
        simp only [List.length_append, List.length_cons, List.length_nil] at this
        exact List.length_eq_zero_iff.mp (by omega)
      rw [k1 l, if_neg (by omega), hb]
      simp

/-! ## Encoding again -/

theorem shift_ok {E α : Type} {rows : E → Nat} {Rel : E → E → Prop} {d : Nat} {m : Run (E × List (Nat × Bytes)) α} {e e' : E}
    (h : ShiftAt rows Rel d m m e e') {r : Except Fault α} {e0 : E} {bs : List (Nat × Bytes)}
    (hm : m (e, []) = (r, (e0, bs))) (hlt : rows e0 + d < 2 ^ 32) :
    ∃ e2, ∀ l, m (e', l) = (r, (e2, l ++ shiftIds d bs)) := by
  obtain ⟨r1, e1, bs1, h1, -, -, h4⟩ := h
  have h0 := h1 []
  rw [hm] at h0
  obtain ⟨a1, a2⟩ := Prod.mk.inj h0
  obtain ⟨a2, a3⟩ := Prod.mk.inj a2
  simp only [List.nil_append] at a3
  subst a1 a2 a3
  rcases h4 with ⟨e2, k1, _⟩ | ⟨_, _, _, _, ho⟩
  · exact ⟨e2, k1⟩
  · omega

/-- C65, primitive `encode` with nothing held back: if the sink refuses a block, repeating the call
offers every block of the buffer again, the ones already taken included, all with moved row ids. -/
theorem C65_primitive_encode_partial {α : Type} [Element α] (p : Profile) (k : Sink S) (b : PrimitiveBuffer α)
    (e e1 : PrimitiveEnc.Encoder α) (s s1 : S) (hP : PrimitiveEnc.SizeOk e) (h0 : e.remaining.len = 0)
    (h : PrimitiveEnc.encode p k b (e, s) = (.error .io, (e1, s1))) :
    ∃ n, 1 ≤ n ∧ e1.numRows = e.numRows + n ∧
      ∀ r e0 bs, PrimitiveEnc.encode p recorder b (e, []) = (r, (e0, bs)) → e0.numRows + n < 2 ^ 32 →
        ∃ e2, ∀ l, PrimitiveEnc.encode p recorder b (e1, l) = (r, (e2, l ++ shiftIds n bs)) := by
  obtain ⟨g1, g2, g3, _⟩ := PrimitiveEnc.encode_io p k b e e1 s s1 hP h
  refine ⟨e1.numRows - e.numRows, by omega, by omega, fun r e0 bs hr hlt => ?_⟩
  exact shift_ok (PrimitiveEnc.encode_shift p b ⟨g3 h0, g1, by omega, hP⟩) hr hlt

/-- C65, primitive `encode` with rows held back: the call offers nothing, because it compares a number of values
with the block size in bytes, so there is nothing to repeat. A release build is different when more than a block is
held back, which needs a block size that is not a multiple of the element size. -/
theorem C65_primitive_held_partial {α : Type} [Element α] (p : Profile) (k : Sink S) (b : PrimitiveBuffer α)
    (e : PrimitiveEnc.Encoder α) (s : S) (hl : 0 < e.remaining.len)
    (hp : p = .debug ∨ e.remaining.len * Element.size α ≤ e.minBlockSize) :
    (PrimitiveEnc.encode p k b (e, s)).2.2 = s ∧ (PrimitiveEnc.encode p k b (e, s)).1 ≠ .error .io := by
  have hsize : 2 ≤ Element.size α := by rcases Element.size_eq (α := α) with h | h <;> omega
  rw [PrimitiveEnc.encode, PrimitiveEnc.encodeFuel, Run.bind_ok (Run.get_apply _)]
  dsimp only
  rw [if_pos hl]
  by_cases hle : e.remaining.len * Element.size α ≤ e.minBlockSize
  · rw [Profile.sub_ok p hle, Run.bind_ok (Run.lift_ok _ _)]
    rcases h2 : PrimitiveEnc.chunk p b 0 (e.minBlockSize - e.remaining.len * Element.size α) with x | stop
    · exact ⟨rfl, fun h => by cases h⟩
    rw [Run.bind_ok (Run.lift_ok _ _)]
    rcases h3 : e.remaining.appendFrom b 0 stop 0 with x | rem
    · exact ⟨rfl, fun h => by cases h⟩
    rw [Run.bind_ok (Run.lift_ok _ _), Run.bind_ok (Run.set_apply _ _)]
    dsimp only
    have hrem := PrimitiveEnc.appendFrom_len_le h3
    have hstop := PrimitiveEnc.chunk_le h2
    have hlt : rem.1.len < e.minBlockSize := by
      have h4 : e.minBlockSize = Element.size α * (e.remaining.len) +
          (e.minBlockSize - e.remaining.len * Element.size α) := by rw [Nat.mul_comm]; omega
      generalize e.minBlockSize - e.remaining.len * Element.size α = room at *
      have h5 : Element.size α * e.remaining.len ≥ 2 * e.remaining.len := Nat.mul_le_mul_right _ hsize
      have h6 := Nat.div_add_mod room (Element.size α)
      have h7 : Element.size α * (room / Element.size α) ≥ 2 * (room / Element.size α) :=
        Nat.mul_le_mul_right _ hsize
      split at hstop <;> omega
    rw [if_pos hlt]
    exact ⟨rfl, fun h => by cases h⟩
  · have hd : p = .debug := hp.resolve_right hle
    have hs : p.sub 64 e.minBlockSize (e.remaining.len * Element.size α) = .error .overflow := by
      rw [hd]; simp only [Profile.sub]; rw [if_neg hle]
    rw [hs]
    exact ⟨rfl, fun h => by cases h⟩

/-- Rows are held back after a first short buffer, and the next buffer, though it completes the block, offers nothing. -/
example : (((do PrimitiveEnc.encode .debug recorder (PrimitiveBuffer.ofRows false [some (1 : Int32)])
                PrimitiveEnc.encode .debug recorder (PrimitiveBuffer.ofRows false [some 2, some 3, some 4]) :
              Run (PrimitiveEnc.Encoder Int32 × List (Nat × Bytes)) Unit)
    (PrimitiveEnc.Encoder.new 8 false, [])).2.2, ((do
              PrimitiveEnc.encode .debug recorder (PrimitiveBuffer.ofRows false [some (1 : Int32)])
              PrimitiveEnc.encode .debug recorder (PrimitiveBuffer.ofRows false [some 2, some 3, some 4]) :
              Run (PrimitiveEnc.Encoder Int32 × List (Nat × Bytes)) Unit)
    (PrimitiveEnc.Encoder.new 8 false, [])).2.1.remaining.values) = ([], [1, 2]) := by decide +kernel

/-- C65, binary `encode` with nothing held back. -/
theorem C65_binary_encode_partial (p : Profile) (k : Sink S) (b : BinaryBuffer)
    (e e1 : BinaryEnc.Encoder) (s s1 : S) (h0 : e.remaining.len = 0)
    (h : BinaryEnc.encode p k b (e, s) = (.error .io, (e1, s1))) :
    ∃ n, 1 ≤ n ∧ e1.numRows = e.numRows + n ∧
      ∀ r e0 bs, BinaryEnc.encode p recorder b (e, []) = (r, (e0, bs)) → e0.numRows + n < 2 ^ 32 →
        ∃ e2, ∀ l, BinaryEnc.encode p recorder b (e1, l) = (r, (e2, l ++ shiftIds n bs)) := by
  rw [BinaryEnc.encode, Run.bind_ok (Run.get_apply _)] at h
  dsimp only at h
  rw [if_neg (by omega)] at h
  obtain ⟨g1, g2, g3⟩ := BinaryEnc.encodeLoop_io p k b _ _ _ _ _ _ _ h
  refine ⟨e1.numRows - e.numRows, by omega, by omega, fun r e0 bs hr hlt => ?_⟩
  exact shift_ok (BinaryEnc.encode_shift p b ⟨g1, g2, by omega⟩) hr hlt

/-- C65, binary `encode` in a debug build: once more than a block of bytes is held back, every later
`encode` panics, whatever it is given. A refused block leaves the encoder like that unless the rows held
back fill it to the byte (`C65_binary_refused`). -/
theorem C65_binary_stuck_violated (k : Sink S) (e : BinaryEnc.Encoder) (s : S) (b : BinaryBuffer)
    (h0 : 0 < e.remaining.len) (h : e.minBlockSize < e.remaining.data.length) :
    BinaryEnc.encode .debug k b (e, s) = (.error (.panic .overflow), (e, s)) := by
  rw [BinaryEnc.encode, Run.bind_ok (Run.get_apply _)]
  dsimp only
  rw [if_pos (by omega)]
  have hs : Profile.debug.sub 64 e.minBlockSize e.remaining.data.length = .error .overflow := by
    simp only [Profile.sub]
    rw [if_neg (by omega)]
  rw [hs]
  rfl

/-- After a sink error in `encode` with rows held back, either none are held back any more, or at least a
block of bytes is, the new rows of that block among them. -/
theorem C65_binary_refused (p : Profile) (k : Sink S) (src : BinaryBuffer) (e e' : BinaryEnc.Encoder) (s s' : S)
    (hl : 0 < e.remaining.len) (h : BinaryEnc.encode p k src (e, s) = (.error .io, (e', s'))) :
    e.numRows < e'.numRows ∧ (e'.remaining.len = 0 ∨ e.minBlockSize ≤ e'.remaining.data.length) := by
  rw [BinaryEnc.encode, Run.bind_ok (Run.get_apply _)] at h
  dsimp only at h
  rw [if_pos hl] at h
  rcases h1 : p.sub 64 e.minBlockSize e.remaining.data.length with x | room
  · rw [h1] at h; cases (Prod.mk.inj h).1
  rw [h1, Run.bind_ok (Run.lift_ok _ _)] at h
  rcases h2 : BinaryEnc.chunk p src 0 room with x | c
  · rw [h2] at h; cases (Prod.mk.inj h).1
  rw [h2, Run.bind_ok (Run.lift_ok _ _)] at h
  rcases h3 : e.remaining.appendFrom p src c.startPos c.endPos 0 with x | rem
  · rw [h3] at h; cases (Prod.mk.inj h).1
  rw [h3, Run.bind_ok (Run.lift_ok _ _), Run.bind_ok (Run.set_apply _ _)] at h
  dsimp only at h
  split at h
  · cases (Prod.mk.inj h).1
  · rename_i hge
    rcases hc : BinaryEnc.wholeChunk rem.1 with x | c
    · rw [BinaryEnc.writeRemaining] at h
      simp only [Run.bind_apply, Run.get_apply, hc, Run.lift_error] at h
      cases (Prod.mk.inj h).1
    have hwr : BinaryEnc.writeRemaining p k ({ e with remaining := rem.1 }, s) =
        BinaryEnc.writeBlock p k rem.1 c 0 ({ e with remaining := rem.1 }, s) := by
      rw [BinaryEnc.writeRemaining, Run.bind_ok (Run.get_apply _), hc, Run.bind_ok (Run.lift_ok _ _)]
    rcases hw : BinaryEnc.writeRemaining p k ({ e with remaining := rem.1 }, s) with ⟨_ | r, e1, s1⟩
    · rw [Run.bind_error hw] at h
      obtain ⟨h4, h5⟩ := Prod.mk.inj h
      obtain ⟨rfl, rfl⟩ := Prod.mk.inj h5
      rw [Except.error.inj h4, hwr] at hw
      obtain ⟨g1, g2, g3⟩ := BinaryEnc.writeBlock_keeps (BinaryEnc.wholeChunk_lenOk hc) hw (fun x hx => by cases hx)
      exact ⟨g3, .inr (by rw [g1]; simp only; omega)⟩
    · rw [Run.bind_ok hw, Run.bind_ok (Run.get_apply _), Run.bind_ok (Run.set_apply _ _)] at h
      rw [hwr] at hw
      obtain ⟨g1, g2, g3⟩ := BinaryEnc.writeBlock_keeps (BinaryEnc.wholeChunk_lenOk hc) hw (fun x hx => by cases hx)
      obtain ⟨k1, k2, k3⟩ := BinaryEnc.encodeLoop_io p k src _ _ _ _ _ _ _ h
      refine ⟨Nat.lt_trans g3 k3, .inl ?_⟩
      rw [k1]
      simp only [BinaryBuffer.len, BinaryBuffer.clear, List.length_take]
      omega

/-- The first call with a sink that takes `n` blocks and refuses the next, the second with one that takes all. -/
def retried {E : Type} (m : Sink (List (Nat × Bytes)) → Run (E × List (Nat × Bytes)) Unit) (n : Nat) :
    Run (E × List (Nat × Bytes)) Unit := fun st => m recorder (m (failingAfter n) st).2

/-- C65 fails in every way a call can be repeated. Flushing again: the only row of the column gets row
id 1. Encoding again, primitive: the block the sink took is written twice. Encoding again, binary, with
rows held back: a debug build panics. -/
theorem C65_retry_violated :
    (∃ b : PrimitiveBuffer Int32, (PrimitiveBuffer.new false).pushAll [some 7] = .ok b ∧
      ∀ p, ((do PrimitiveEnc.encode p recorder b; retried (PrimitiveEnc.flush p) 0)
        (PrimitiveEnc.Encoder.new 128 false, [])).2.2 = [(1, [4, 7, 0, 0, 0])]) ∧
    (∃ b, (BinaryBuffer.new false).pushAll [some [9]] = .ok b ∧
      ∀ p, ((do BinaryEnc.encode p recorder b; retried (BinaryEnc.flush p) 0)
        (BinaryEnc.Encoder.new 128 false, [])).2.2 = [(1, [1, 9, 1, 1])]) ∧
    (∃ b : PrimitiveBuffer Int32, (PrimitiveBuffer.new false).pushAll [some 1, some 2, some 3] = .ok b ∧
      ∀ p, (retried (fun k => PrimitiveEnc.encode p k b) 1 (PrimitiveEnc.Encoder.new 4 false, [])).2.2 =
        [(0, [4, 1, 0, 0, 0]), (2, [4, 1, 0, 0, 0]), (3, [4, 2, 0, 0, 0]), (4, [4, 3, 0, 0, 0])]) ∧
    (∃ b c, (BinaryBuffer.new false).pushAll [some [1, 2]] = .ok b ∧
      (BinaryBuffer.new false).pushAll [some [3, 4, 5, 6, 7]] = .ok c ∧
      ((do BinaryEnc.encode .debug recorder b; retried (fun k => BinaryEnc.encode .debug k c) 0)
        (BinaryEnc.Encoder.new 4 false, [])).1 = .error (.panic .overflow)) := by
  refine ⟨⟨_, PrimitiveBuffer.new_pushAll _ _ (.inr (by decide +kernel)), fun p => by cases p <;> decide +kernel⟩,
    ⟨_, BinaryBuffer.new_pushAll _ _ (.inr (by decide +kernel)) (by decide +kernel), fun p => by cases p <;> decide +kernel⟩,
    ⟨_, PrimitiveBuffer.new_pushAll _ _ (.inr (by decide +kernel)), fun p => by cases p <;> decide +kernel⟩,
    ⟨_, _, BinaryBuffer.new_pushAll _ _ (.inr (by decide +kernel)) (by decide +kernel),
      BinaryBuffer.new_pushAll _ _ (.inr (by decide +kernel)) (by decide +kernel), by decide +kernel⟩⟩

end Meerkat
