import Verif.Proofs.EncoderHistory

set_option autoImplicit false

/-!
# The blocks an encoder offers to any sink

The counts of `Proofs/EncoderHistory` again, for a sink that may fail: the encoder counts the rows of a block before
it offers the block.
-/

namespace Meerkat
open Spec

/-- The sink `k`, with a list of all blocks it was offered, whether it took them or not. -/
def watched {S : Type} (k : Sink S) : Sink (S × List (Nat × Bytes)) where
  write x rowId data := ((k.write x.1 rowId data).1, ((k.write x.1 rowId data).2, x.2 ++ [(rowId, data)]))

section
variable {E S α β : Type} {rows : E → Nat} {P : E → Prop}

/-- Started in `e`, the call offers blocks whose ids are exact running totals of non-zero row counts,
and leaves the exact, unwrapped total behind. -/
def OffersAt (rows : E → Nat) (P : E → Prop) (m : Run (E × S × List (Nat × Bytes)) α) (e : E) : Prop :=
  ∀ l, ∃ cs bs, (m (e, l)).2.2.2 = l.2 ++ bs ∧ bs.map (·.1) = countIds (rows e) cs ∧ (∀ c ∈ cs, 1 ≤ c) ∧
    rows (m (e, l)).2.1 = rows e + cs.sum ∧ rows (m (e, l)).2.1 < 2 ^ 32 ∧ P (m (e, l)).2.1

theorem OffersAt.idle {m : Run (E × S × List (Nat × Bytes)) α} {e : E}
    (h : ∀ l, (m (e, l)).2.2.2 = l.2 ∧ rows (m (e, l)).2.1 = rows e ∧ P (m (e, l)).2.1) (hr : rows e < 2 ^ 32) :
    OffersAt rows P m e := by
  intro l
  obtain ⟨h1, h2, h3⟩ := h l
  exact ⟨[], [], by simp [h1], rfl, by simp, by simp [h2], by rw [h2]; exact hr, h3⟩

theorem OffersAt.lift (r : Res α) {e : E} (hr : rows e < 2 ^ 32) (hP : P e) :
    OffersAt rows P (Run.lift r : Run (E × S × List (Nat × Bytes)) α) e :=
  .idle (fun l => by cases r <;> exact ⟨rfl, rfl, hP⟩) hr

theorem OffersAt.leaving (r : Res α) {f : E → E} {e : E} (hr : rows e < 2 ^ 32) (he : rows (f e) = rows e)
    (hP : P e) (hf : P (f e)) :
    OffersAt rows P (Run.lift r fun s => (f s.1, s.2) : Run (E × S × List (Nat × Bytes)) α) e :=
  .idle (fun l => by
    cases r
    · exact ⟨rfl, he, hf⟩
    · exact ⟨rfl, rfl, hP⟩) hr

theorem OffersAt.pure (a : α) {e : E} (hr : rows e < 2 ^ 32) (hP : P e) :
    OffersAt rows P (Pure.pure a : Run (E × S × List (Nat × Bytes)) α) e :=
  .idle (fun _ => ⟨rfl, rfl, hP⟩) hr

theorem OffersAt.set {e e' : E} (hr : rows e < 2 ^ 32) (he : rows e' = rows e) (hP : P e') :
    OffersAt rows P (Run.set e' : Run (E × S × List (Nat × Bytes)) Unit) e :=
  .idle (fun _ => ⟨rfl, he, hP⟩) hr

theorem OffersAt.get_bind {f : E → Run (E × S × List (Nat × Bytes)) α} {e : E} (h : OffersAt rows P (f e) e) :
    OffersAt rows P (Run.get >>= f) e := h

theorem OffersAt.bind {m : Run (E × S × List (Nat × Bytes)) α} {f : α → Run (E × S × List (Nat × Bytes)) β} {e : E}
    (h1 : OffersAt rows P m e)
    (h2 : ∀ l a e' l', m (e, l) = (.ok a, (e', l')) → rows e' < 2 ^ 32 → P e' → OffersAt rows P (f a) e') :
    OffersAt rows P (m >>= f) e := by
  intro l
  obtain ⟨cs, bs, g1, g2, g3, g4, g5, g6⟩ := h1 l
  rw [Run.bind_apply]
  rcases hm : m (e, l) with ⟨r, e', l'⟩
  rw [hm] at g1 g4 g5 g6
  simp only at g1 g4 g5 g6
  cases r with
  | error x => exact ⟨cs, bs, g1, g2, g3, g4, g5, g6⟩
  | ok a =>
    obtain ⟨cs', bs', k1, k2, k3, k4, k5, k6⟩ := h2 l a e' l' hm g5 g6 l'
    refine ⟨cs ++ cs', bs ++ bs', ?_, ?_, ?_, ?_, k5, k6⟩
    · simp only; rw [k1, g1, List.append_assoc]
    · rw [List.map_append, g2, k2, countIds_append, g4]
    · intro c hc
      rcases List.mem_append.mp hc with h | h
      · exact g3 c h
      · exact k3 c h
    · simp only; rw [k4, g4, List.sum_append, Nat.add_assoc]

end

theorem lift_inv' {E S γ : Type} {r : Res γ} {left : E × S × List (Nat × Bytes) → E × S × List (Nat × Bytes)} {e e' : E}
    {l l' : S × List (Nat × Bytes)} {a : γ}
    (h : (Run.lift r left : Run (E × S × List (Nat × Bytes)) γ) (e, l) = (.ok a, (e', l'))) : r = .ok a ∧ e' = e := by
  cases r with
  | error x => cases (Prod.mk.inj h).1
  | ok y =>
    obtain ⟨h1, h2⟩ := Prod.mk.inj h
    cases h1; cases h2
    exact ⟨rfl, rfl⟩

namespace PrimitiveEnc
variable {α : Type} [Element α] {S : Type} {k : Sink S}

theorem writeRange_offers (p : Profile) (buf : PrimitiveBuffer α) (start stop bitPos : Nat) (hne : start ≠ stop)
    (e : Encoder α) (hr : e.numRows < 2 ^ 32) (hP : SizeOk e) :
    OffersAt Encoder.numRows SizeOk (writeRange p (watched k) buf start stop bitPos) e := by
  intro l
  simp only [writeRange, Run.bind_apply, Run.get_apply]
  rcases h1 : encodePrimitiveBuffer p buf start stop bitPos e.bitmapEncoder with x | ⟨res, data, be⟩
  · exact ⟨[], [], by simp [Run.lift], rfl, by simp, rfl, hr, hP⟩
  · have hn := encodePrimitiveBuffer_rows hne h1
    simp only at hn
    simp only [Run.lift_ok, Run.set_apply, addRows_eq]
    by_cases hlt : e.numRows + res.numRows < 2 ^ 32
    · rw [if_pos hlt]
      simp only [Run.lift_ok, Profile.sub_ok p (show 1 ≤ e.numRows + res.numRows by omega)]
      simp only [Run.emit, watched]
      cases (k.write l.1 (e.numRows + res.numRows - 1) data).1 <;>
        exact ⟨[res.numRows], [(e.numRows + res.numRows - 1, data)], rfl, rfl, by simpa using hn, by simp [Run.pure_apply], hlt, hP⟩
    · rw [if_neg hlt]
      exact ⟨[], [], by simp [Run.lift], rfl, by simp, rfl, hr, hP⟩

theorem writeRemaining_offers (p : Profile) (e : Encoder α) (hl : e.remaining.len > 0) (hr : e.numRows < 2 ^ 32)
    (hP : SizeOk e) : OffersAt Encoder.numRows SizeOk (writeRemaining p (watched k)) e :=
  .get_bind (writeRange_offers p _ _ _ _ (by omega) e hr hP)

theorem leaving_offers {γ : Type} (r : Res γ) (rem : PrimitiveBuffer α) {e : Encoder α} (hr : e.numRows < 2 ^ 32)
    (hP : SizeOk e) : OffersAt (S := S) Encoder.numRows SizeOk (Run.lift r (leaving rem)) e :=
  .leaving r (f := fun e => { e with remaining := rem }) hr rfl hP hP

theorem encodeLoop_offers (p : Profile) (src : PrimitiveBuffer α) (fuel : Nat) : ∀ (bp vp : Nat) (e : Encoder α),
    e.numRows < 2 ^ 32 → SizeOk e → OffersAt Encoder.numRows SizeOk (encodeLoop p (watched k) src fuel bp vp) e := by
  induction fuel with
  | zero => intro bp vp e hr hP; exact .lift _ hr hP
  | succ fuel ih =>
    intro bp vp e hr hP
    rw [encodeLoop]
    split
    · rename_i hlt
      refine .get_bind (.bind (.lift _ hr hP) fun l stop e1 l1 h1 hr1 hP1 => ?_)
      obtain ⟨hc, rfl⟩ := lift_inv' h1
      · have hne := chunk_ne hlt hP.1 hP.2 hc
        refine .bind (.lift _ hr hP) fun l n e2 l2 h2 hr2 hP2 => ?_
        obtain ⟨_, rfl⟩ := lift_inv' h2
        dsimp only
        split
        · refine .bind (leaving_offers _ _ hr2 hP2) fun l r e3 l3 h3 hr3 hP3 => ?_
          obtain ⟨_, rfl⟩ := lift_inv' h3
          exact .set hr3 rfl hP
        · refine .bind (writeRange_offers p src bp stop vp hne e2 hr2 hP2) fun l r e3 l3 h3 hr3 hP3 => ?_
          exact ih stop r.lastValidityPos e3 hr3 hP3
    · exact .pure _ hr hP

theorem encode_offers (p : Profile) (src : PrimitiveBuffer α) (e : Encoder α)
    (hr : e.numRows < 2 ^ 32) (hP : SizeOk e) : OffersAt Encoder.numRows SizeOk (encode p (watched k) src) e := by
  refine .get_bind ?_
  split
  · rename_i hl
    refine .bind (.lift _ hr hP) fun l room e1 l1 h1 hr1 hP1 => ?_
    obtain ⟨_, rfl⟩ := lift_inv' h1
    refine .bind (.lift _ hr hP) fun l stop e1 l1 h1 hr1 hP1 => ?_
    obtain ⟨_, rfl⟩ := lift_inv' h1
    refine .bind (leaving_offers _ _ hr hP) fun l rem e1 l1 h1 hr1 hP1 => ?_
    obtain ⟨ha, rfl⟩ := lift_inv' h1
    have hlen := appendFrom_len ha
    refine .bind (.set hr rfl hP) fun l u e2 l2 h2 hr2 hP2 => ?_
    have he2 : e2 = { e1 with remaining := rem.1 } := by
      obtain ⟨_, h⟩ := Prod.mk.inj h2; cases h; rfl
    subst he2
    dsimp only
    split
    · exact .pure _ hr2 hP2
    · refine .bind (writeRemaining_offers p _ (by simp only; omega) hr2 hP2) fun l r e3 l3 h3 hr3 hP3 => ?_
      refine .get_bind (.bind (.set hr3 rfl hP3) fun l r e4 l4 h4 hr4 hP4 => ?_)
      exact encodeLoop_offers p src _ _ _ _ hr4 hP4
  · exact encodeLoop_offers p src _ _ _ _ hr hP

theorem flush_offers (p : Profile) (e : Encoder α) (hr : e.numRows < 2 ^ 32) (hP : SizeOk e) :
    OffersAt Encoder.numRows SizeOk (flush p (watched k)) e := by
  refine .get_bind ?_
  split
  · rename_i hl
    exact .bind (writeRemaining_offers p e hl hr hP) fun l r e3 l3 h3 hr3 hP3 => .pure _ hr3 hP3
  · exact .pure _ hr hP

end PrimitiveEnc

namespace BinaryEnc
variable {S : Type} {k : Sink S}

theorem writeBlock_offers (p : Profile) (buf : BinaryBuffer) (c : BinaryChunk) (hc : LenOk c) (bitPos : Nat)
    (e : Encoder) (hr : e.numRows < 2 ^ 32) :
    OffersAt Encoder.numRows (fun _ => True) (writeBlock p (watched k) buf c bitPos) e := by
  intro l
  simp only [writeBlock, Run.bind_apply, Run.get_apply]
  rcases h1 : encodeBinaryBuffer p buf c bitPos e.bitmapEncoder with x | r
  · exact ⟨[], [], by simp [Run.lift], rfl, by simp, rfl, hr, trivial⟩
  · have hn := encodeBinaryBuffer_rows (hc (encodeBinaryBuffer_progress p buf c bitPos _ h1)) h1
    simp only [Run.lift_ok, Run.set_apply, addRows_eq]
    by_cases hlt : e.numRows + r.result.numRows < 2 ^ 32
    · rw [if_pos hlt]
      simp only [Run.lift_ok, Profile.sub_ok p (show 1 ≤ e.numRows + r.result.numRows by omega)]
      simp only [Run.emit, watched]
      cases (k.write l.1 (e.numRows + r.result.numRows - 1) r.data).1 <;>
        exact ⟨[r.result.numRows], [(e.numRows + r.result.numRows - 1, r.data)], rfl, rfl, by simpa using hn, by simp [Run.pure_apply], hlt, trivial⟩
    · rw [if_neg hlt]
      exact ⟨[], [], by simp [Run.lift], rfl, by simp, rfl, hr, trivial⟩

theorem writeRemaining_offers (p : Profile) (e : Encoder) (hr : e.numRows < 2 ^ 32) :
    OffersAt Encoder.numRows (fun _ => True) (writeRemaining p (watched k)) e := by
  refine .get_bind (.bind (.lift _ hr trivial) fun l c e1 l1 h1 hr1 _ => ?_)
  obtain ⟨hc, rfl⟩ := lift_inv' h1
  exact writeBlock_offers p _ c (wholeChunk_lenOk hc) 0 e1 hr

theorem leaving_offers {γ : Type} (r : Res γ) (rem : BinaryBuffer) {e : Encoder} (hr : e.numRows < 2 ^ 32) :
    OffersAt (S := S) Encoder.numRows (fun _ => True) (Run.lift r (leaving rem)) e :=
  .leaving r (f := fun e => { e with remaining := rem }) hr rfl trivial trivial

theorem encodeLoop_offers (p : Profile) (src : BinaryBuffer) (fuel : Nat) : ∀ (bp vp : Nat) (e : Encoder),
    e.numRows < 2 ^ 32 → OffersAt Encoder.numRows (fun _ => True) (encodeLoop p (watched k) src fuel bp vp) e := by
  induction fuel with
  | zero => intro bp vp e hr; exact .lift _ hr trivial
  | succ fuel ih =>
    intro bp vp e hr
    rw [encodeLoop]
    split
    · refine .get_bind (.bind (.lift _ hr trivial) fun l c e1 l1 h1 hr1 _ => ?_)
      obtain ⟨hc, rfl⟩ := lift_inv' h1
      split
      · refine .bind (leaving_offers _ _ hr) fun l r e3 l3 h3 hr3 _ => ?_
        obtain ⟨_, rfl⟩ := lift_inv' h3
        exact .set hr rfl trivial
      · exact .bind (writeBlock_offers p src c (chunk_lenOk hc) vp e1 hr) fun l r e3 l3 h3 hr3 _ => ih _ _ e3 hr3
    · exact .pure _ hr trivial

theorem encode_offers (p : Profile) (src : BinaryBuffer) (e : Encoder)
    (hr : e.numRows < 2 ^ 32) : OffersAt Encoder.numRows (fun _ => True) (encode p (watched k) src) e := by
  refine .get_bind ?_
  split
  · refine .bind (.lift _ hr trivial) fun l room e1 l1 h1 hr1 _ => ?_
    obtain ⟨_, rfl⟩ := lift_inv' h1
    refine .bind (.lift _ hr trivial) fun l stop e1 l1 h1 hr1 _ => ?_
    obtain ⟨_, rfl⟩ := lift_inv' h1
    refine .bind (leaving_offers _ _ hr) fun l rem e1 l1 h1 hr1 _ => ?_
    obtain ⟨ha, rfl⟩ := lift_inv' h1
    refine .bind (.set hr rfl trivial) fun l u e2 l2 h2 hr2 _ => ?_
    dsimp only
    split
    · exact .pure _ hr2 trivial
    · refine .bind (writeRemaining_offers p _ hr2) fun l r e3 l3 h3 hr3 _ => ?_
      refine .get_bind (.bind (.set hr3 rfl trivial) fun l r e4 l4 h4 hr4 _ => ?_)
      exact encodeLoop_offers p src _ _ _ _ hr4
  · exact encodeLoop_offers p src _ _ _ _ hr

theorem flush_offers (p : Profile) (e : Encoder) (hr : e.numRows < 2 ^ 32) :
    OffersAt Encoder.numRows (fun _ => True) (flush p (watched k)) e := by
  refine .get_bind ?_
  split
  · exact .bind (writeRemaining_offers p e hr) fun l r e3 l3 h3 hr3 _ => .pure _ hr3 trivial
  · exact .pure _ hr trivial

end BinaryEnc

end Meerkat
