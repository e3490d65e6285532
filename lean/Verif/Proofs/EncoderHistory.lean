import Verif.Proofs.BinaryInv
import Verif.Proofs.PrimitiveEnc
import Verif.Spec.RowIds

set_option autoImplicit false

/-! # Row counts and sinks over every history of both encoders -/

namespace Meerkat
open Spec

/-! ## Running totals -/

theorem countIds_append (n : Nat) (as bs : List Nat) :
    countIds n (as ++ bs) = countIds n as ++ countIds (n + as.sum) bs := by
  induction as generalizing n with
  | nil => simp [countIds]
  | cons a as ih => simp [countIds, ih, Nat.add_assoc]

theorem countIds_ge (n : Nat) (cs : List Nat) (h : ∀ c ∈ cs, 1 ≤ c) : ∀ i ∈ countIds n cs, n ≤ i := by
  induction cs generalizing n with
  | nil => simp [countIds]
  | cons c cs ih =>
    intro i hi
    rw [countIds] at hi
    have hc := h c (by simp)
    rcases List.mem_cons.mp hi with rfl | hi
    · omega
    · have := ih (n + c) (fun x hx => h x (by simp [hx])) i hi
      omega

theorem countIds_lt (n : Nat) (cs : List Nat) (h : ∀ c ∈ cs, 1 ≤ c) : ∀ i ∈ countIds n cs, i < n + cs.sum := by
  induction cs generalizing n with
  | nil => simp [countIds]
  | cons c cs ih =>
    intro i hi
    rw [countIds] at hi
    have hc := h c (by simp)
    rw [List.sum_cons]
    rcases List.mem_cons.mp hi with rfl | hi
    · omega
    · have := ih (n + c) (fun x hx => h x (by simp [hx])) i hi
      omega

theorem countIds_sorted (n : Nat) (cs : List Nat) (h : ∀ c ∈ cs, 1 ≤ c) :
    (countIds n cs).Pairwise (· < ·) := by
  induction cs generalizing n with
  | nil => simp [countIds]
  | cons c cs ih =>
    rw [countIds, List.pairwise_cons]
    refine ⟨fun i hi => ?_, ih _ (fun x hx => h x (by simp [hx]))⟩
    have := countIds_ge (n + c) cs (fun x hx => h x (by simp [hx])) i hi
    have := h c (by simp)
    omega

section
variable {E α β : Type} {rows : E → Nat} {P : E → Prop}

/-- Started in `e`, the call offers blocks whose ids are exact running totals of non-zero row counts,
and leaves the exact, unwrapped total behind. -/
def CountsAt (rows : E → Nat) (P : E → Prop) (m : Run (E × List (Nat × Bytes)) α) (e : E) : Prop :=
  ∀ l, ∃ cs bs, (m (e, l)).2.2 = l ++ bs ∧ bs.map (·.1) = countIds (rows e) cs ∧ (∀ c ∈ cs, 1 ≤ c) ∧
    rows (m (e, l)).2.1 = rows e + cs.sum ∧ rows (m (e, l)).2.1 < 2 ^ 32 ∧ P (m (e, l)).2.1

theorem CountsAt.idle {m : Run (E × List (Nat × Bytes)) α} {e : E}
    (h : ∀ l, (m (e, l)).2.2 = l ∧ rows (m (e, l)).2.1 = rows e ∧ P (m (e, l)).2.1) (hr : rows e < 2 ^ 32) :
    CountsAt rows P m e := by
  intro l
  obtain ⟨h1, h2, h3⟩ := h l
  exact ⟨[], [], by simp [h1], rfl, by simp, by simp [h2], by rw [h2]; exact hr, h3⟩

theorem CountsAt.lift (r : Res α) {e : E} (hr : rows e < 2 ^ 32) (hP : P e) :
    CountsAt rows P (Run.lift r : Run (E × List (Nat × Bytes)) α) e :=
  .idle (fun l => by cases r <;> exact ⟨rfl, rfl, hP⟩) hr

theorem CountsAt.leaving (r : Res α) {f : E → E} {e : E} (hr : rows e < 2 ^ 32) (he : rows (f e) = rows e)
    (hP : P e) (hf : P (f e)) :
    CountsAt rows P (Run.lift r fun s => (f s.1, s.2) : Run (E × List (Nat × Bytes)) α) e :=
  .idle (fun l => by
    cases r
    · exact ⟨rfl, he, hf⟩
    · exact ⟨rfl, rfl, hP⟩) hr

theorem CountsAt.pure (a : α) {e : E} (hr : rows e < 2 ^ 32) (hP : P e) :
    CountsAt rows P (Pure.pure a : Run (E × List (Nat × Bytes)) α) e :=
  .idle (fun _ => ⟨rfl, rfl, hP⟩) hr

theorem CountsAt.set {e e' : E} (hr : rows e < 2 ^ 32) (he : rows e' = rows e) (hP : P e') :
    CountsAt rows P (Run.set e' : Run (E × List (Nat × Bytes)) Unit) e :=
  .idle (fun _ => ⟨rfl, he, hP⟩) hr

theorem CountsAt.get_bind {f : E → Run (E × List (Nat × Bytes)) α} {e : E} (h : CountsAt rows P (f e) e) :
    CountsAt rows P (Run.get >>= f) e := h

theorem CountsAt.bind {m : Run (E × List (Nat × Bytes)) α} {f : α → Run (E × List (Nat × Bytes)) β} {e : E}
    (h1 : CountsAt rows P m e)
    (h2 : ∀ l a e' l', m (e, l) = (.ok a, (e', l')) → rows e' < 2 ^ 32 → P e' → CountsAt rows P (f a) e') :
    CountsAt rows P (m >>= f) e := by
  intro l
  obtain ⟨cs, bs, g1, g2, g3, g4, g5, g6⟩ := h1 l
  rw [Run.bind_apply]
  rcases hm : m (e, l) with ⟨r, e', l'⟩
  rw [hm] at g1 g4 g5 g6
  simp only at g1 g4 g5 g6
  cases r with
  | error x => exact ⟨cs, bs, g1, g2, g3, g4, g5, g6⟩
  | ok a =>
    obtain ⟨cs', bs', k1, k2, k3, k4, k5, k6⟩ := h2 l a e' l' hm g5 g6 l'
    refine ⟨cs ++ cs', bs ++ bs', ?_, ?_, ?_, ?_, k5, k6⟩
    · simp only; rw [k1, g1, List.append_assoc]
    · rw [List.map_append, g2, k2, countIds_append, g4]
    · intro c hc
      rcases List.mem_append.mp hc with h | h
      · exact g3 c h
      · exact k3 c h
    · simp only; rw [k4, g4, List.sum_append, Nat.add_assoc]

end

theorem lift_inv {E γ : Type} {r : Res γ} {left : E × List (Nat × Bytes) → E × List (Nat × Bytes)} {e e' : E}
    {l l' : List (Nat × Bytes)} {a : γ}
    (h : (Run.lift r left : Run (E × List (Nat × Bytes)) γ) (e, l) = (.ok a, (e', l'))) : r = .ok a ∧ e' = e := by
  cases r with
  | error x => cases (Prod.mk.inj h).1
  | ok y =>
    obtain ⟨h1, h2⟩ := Prod.mk.inj h
    cases h1; cases h2
    exact ⟨rfl, rfl⟩

theorem putFromLoop_ge (p : Profile) (bm : Bitmap) : ∀ (d pos n : Nat) (e : Rle.Encoder), bm.len - pos = d →
    ∀ e' pos', Rle.Encoder.putFromLoop p e bm pos n = .ok (e', pos') → pos + (if n = 0 then 0 else 1) ≤ pos' := by
  intro d
  induction d with
  | zero =>
    intro pos n e hd e' pos' h
    rw [Rle.Encoder.putFromLoop] at h
    split at h
    · rename_i hn; cases h; simp [hn]
    · split at h
      · omega
      · cases h
  | succ d ih =>
    intro pos n e hd e' pos' h
    rw [Rle.Encoder.putFromLoop] at h
    split at h
    · rename_i hn; cases h; simp [hn]
    · rename_i hn
      split at h
      · rcases hb : bm.isSet pos with x | b
        · rw [hb] at h; cases h
        · rw [hb, ok_bind] at h
          rcases hp : e.put p b with x | e1
          · rw [hp] at h; cases h
          · rw [hp, ok_bind] at h
            have := ih (pos + 1) (n - b.toNat) e1 (by omega) e' pos' h
            rw [if_neg hn]
            omega
      · cases h

theorem encodeValidity_rows {p : Profile} {v : Option Bitmap} {bitPos n : Nat} {be : Rle.Encoder}
    {r : PrimitiveEnc.EncodeResult × Bytes × Rle.Encoder} (hn : 1 ≤ n)
    (h : PrimitiveEnc.encodeValidity p v bitPos n be = .ok r) : 1 ≤ r.1.numRows := by
  cases v with
  | none => simp only [PrimitiveEnc.encodeValidity, Except.ok.injEq] at h; subst h; exact hn
  | some bm =>
    simp only [PrimitiveEnc.encodeValidity] at h
    rcases hp : be.clear.putFrom p bm bitPos n with x | ⟨be1, pos⟩
    · rw [hp] at h; cases h
    · rw [hp, ok_bind] at h
      rcases hf : be1.flush p with x | be2
      · simp only [hf] at h; cases h
      · simp only [hf, ok_bind, pure_eq_ok, Except.ok.injEq] at h
        subst h
        have := putFromLoop_ge p bm _ bitPos n be.clear rfl be1 pos hp
        rw [if_neg (by omega)] at this
        simp only
        omega

/-! ## The primitive encoder -/

namespace PrimitiveEnc
variable {α : Type} [Element α] {S : Type}

/-- A block size above zero, in range of its type. -/
def SizeOk (e : Encoder α) : Prop := 0 < e.minBlockSize ∧ e.minBlockSize < 2 ^ 64

theorem addRows_eq (a b : Nat) : addRows a b = if a + b < 2 ^ 32 then .ok (a + b) else .error .expect := by
  rw [addRows]
  by_cases h : a + b < 2 ^ 32
  · rw [if_pos ⟨by omega, h⟩, if_pos h]
  · rw [if_neg (fun hn => h hn.2), if_neg h]

theorem encodePrimitiveBuffer_rows {p : Profile} {buf : PrimitiveBuffer α} {start stop bitPos : Nat}
    {be : Rle.Encoder} {r : EncodeResult × Bytes × Rle.Encoder} (hne : start ≠ stop)
    (h : encodePrimitiveBuffer p buf start stop bitPos be = .ok r) : 1 ≤ r.1.numRows := by
  rw [encodePrimitiveBuffer] at h
  rcases h1 : p.sub 64 stop start with x | n
  · rw [h1] at h; cases h
  · rw [h1] at h
    simp only [ok_bind] at h
    rcases h2 : Varint.putVarint [] (Element.size α * n) with x | d
    · rw [h2] at h; cases h
    · rw [h2, ok_bind] at h
      rcases h3 : slice buf.values start stop with x | ch
      · rw [h3] at h; cases h
      · rw [h3, ok_bind] at h
        have hle : start ≤ stop := by
          rw [slice] at h3
          split at h3
          · omega
          · cases h3
        rw [Profile.sub_ok p hle] at h1
        cases h1
        rcases h4 : encodeValidity p buf.validity bitPos (stop - start) be with x | ⟨a, b, c⟩
        · rw [h4] at h; cases h
        · rw [h4] at h
          simp only [ok_bind, pure_eq_ok, Except.ok.injEq] at h
          subst h
          exact encodeValidity_rows (n := stop - start) (r := (a, b, c)) (by omega) h4

theorem writeRange_counts (p : Profile) (buf : PrimitiveBuffer α) (start stop bitPos : Nat) (hne : start ≠ stop)
    (e : Encoder α) (hr : e.numRows < 2 ^ 32) (hP : SizeOk e) :
    CountsAt Encoder.numRows SizeOk (writeRange p recorder buf start stop bitPos) e := by
  intro l
  simp only [writeRange, Run.bind_apply, Run.get_apply]
  rcases h1 : encodePrimitiveBuffer p buf start stop bitPos e.bitmapEncoder with x | ⟨res, data, be⟩
  · exact ⟨[], [], by simp [Run.lift], rfl, by simp, rfl, hr, hP⟩
  · have hn := encodePrimitiveBuffer_rows hne h1
    simp only at hn
    simp only [Run.lift_ok, Run.set_apply, addRows_eq]
    by_cases hlt : e.numRows + res.numRows < 2 ^ 32
    · rw [if_pos hlt]
      simp only [Run.lift_ok, Profile.sub_ok p (show 1 ≤ e.numRows + res.numRows by omega)]
      exact ⟨[res.numRows], [(e.numRows + res.numRows - 1, data)], rfl, rfl, by simpa using hn, by simp [Run.pure_apply, Run.emit, recorder], hlt, hP⟩
    · rw [if_neg hlt]
      exact ⟨[], [], by simp [Run.lift], rfl, by simp, rfl, hr, hP⟩

theorem chunk_ne {p : Profile} {b : PrimitiveBuffer α} {start m stop : Nat} (hs : start < b.len) (hm : 0 < m)
    (hm64 : m < 2 ^ 64) (h : chunk p b start m = .ok stop) : start ≠ stop := by
  rw [chunk] at h
  have hc : 0 < m / Element.size α + (if m % Element.size α ≠ 0 then 1 else 0) ∧
      m / Element.size α + (if m % Element.size α ≠ 0 then 1 else 0) ≤ m := by
    rcases Element.size_eq (α := α) with h4 | h8
    · rw [h4]; split <;> omega
    · rw [h8]; split <;> omega
  obtain ⟨hc1, hc2⟩ := hc
  generalize m / Element.size α + (if m % Element.size α ≠ 0 then 1 else 0) = c at h hc1 hc2
  rcases ha : p.add 64 start c with x | en
  · rw [ha] at h; cases h
  · rw [ha, ok_bind] at h
    split at h
    · cases h; omega
    · cases h
      simp only [Profile.add] at ha
      split at ha
      · cases ha; omega
      · cases p with
        | debug => cases ha
        | release =>
          simp only [Except.ok.injEq] at ha
          intro he
          rw [← ha] at he
          omega

theorem writeRemaining_counts (p : Profile) (e : Encoder α) (hl : e.remaining.len > 0) (hr : e.numRows < 2 ^ 32)
    (hP : SizeOk e) : CountsAt Encoder.numRows SizeOk (writeRemaining p recorder) e :=
  .get_bind (writeRange_counts p _ _ _ _ (by omega) e hr hP)

theorem leaving_counts {γ : Type} (r : Res γ) (rem : PrimitiveBuffer α) {e : Encoder α} (hr : e.numRows < 2 ^ 32)
    (hP : SizeOk e) : CountsAt Encoder.numRows SizeOk (Run.lift r (leaving rem)) e :=
  .leaving r (f := fun e => { e with remaining := rem }) hr rfl hP hP

theorem encodeLoop_counts (p : Profile) (src : PrimitiveBuffer α) (fuel : Nat) : ∀ (bp vp : Nat) (e : Encoder α),
    e.numRows < 2 ^ 32 → SizeOk e → CountsAt Encoder.numRows SizeOk (encodeLoop p recorder src fuel bp vp) e := by
  induction fuel with
  | zero => intro bp vp e hr hP; exact .lift _ hr hP
  | succ fuel ih =>
    intro bp vp e hr hP
    rw [encodeLoop]
    split
    · rename_i hlt
      refine .get_bind (.bind (.lift _ hr hP) fun l stop e1 l1 h1 hr1 hP1 => ?_)
      obtain ⟨hc, rfl⟩ := lift_inv h1
      · have hne := chunk_ne hlt hP.1 hP.2 hc
        refine .bind (.lift _ hr hP) fun l n e2 l2 h2 hr2 hP2 => ?_
        obtain ⟨_, rfl⟩ := lift_inv h2
        dsimp only
        split
        · refine .bind (leaving_counts _ _ hr2 hP2) fun l r e3 l3 h3 hr3 hP3 => ?_
          obtain ⟨_, rfl⟩ := lift_inv h3
          exact .set hr3 rfl hP
        · refine .bind (writeRange_counts p src bp stop vp hne e2 hr2 hP2) fun l r e3 l3 h3 hr3 hP3 => ?_
          exact ih stop r.lastValidityPos e3 hr3 hP3
    · exact .pure _ hr hP

omit [Element α] in
theorem appendFrom_len {p : PrimitiveBuffer α} {src : PrimitiveBuffer α} {a b v : Nat} {r}
    (h : p.appendFrom src a b v = .ok r) : p.len ≤ r.1.len := by
  rw [PrimitiveBuffer.appendFrom] at h
  rcases h1 : slice src.values a b with x | ch
  · rw [h1] at h; cases h
  · rw [h1, ok_bind] at h
    dsimp only at h
    split at h
    · rcases h2 : validityAppendFrom p.validity src.validity v (b - a) with x | ⟨y, z⟩
      · rw [h2] at h; cases h
      · rw [h2] at h
        simp only [ok_bind, pure_eq_ok, Except.ok.injEq] at h
        subst h
        simp only [PrimitiveBuffer.len, List.length_append]
        omega
    · cases h

theorem encode_counts (p : Profile) (src : PrimitiveBuffer α) (e : Encoder α)
    (hr : e.numRows < 2 ^ 32) (hP : SizeOk e) : CountsAt Encoder.numRows SizeOk (encode p recorder src) e := by
  refine .get_bind ?_
  split
  · rename_i hl
    refine .bind (.lift _ hr hP) fun l room e1 l1 h1 hr1 hP1 => ?_
    obtain ⟨_, rfl⟩ := lift_inv h1
    refine .bind (.lift _ hr hP) fun l stop e1 l1 h1 hr1 hP1 => ?_
    obtain ⟨_, rfl⟩ := lift_inv h1
    refine .bind (leaving_counts _ _ hr hP) fun l rem e1 l1 h1 hr1 hP1 => ?_
    obtain ⟨ha, rfl⟩ := lift_inv h1
    have hlen := appendFrom_len ha
    refine .bind (.set hr rfl hP) fun l u e2 l2 h2 hr2 hP2 => ?_
    have he2 : e2 = { e1 with remaining := rem.1 } := by
      obtain ⟨_, h⟩ := Prod.mk.inj h2; cases h; rfl
    subst he2
    dsimp only
    split
    · exact .pure _ hr2 hP2
    · refine .bind (writeRemaining_counts p _ (by simp only; omega) hr2 hP2) fun l r e3 l3 h3 hr3 hP3 => ?_
      refine .get_bind (.bind (.set hr3 rfl hP3) fun l r e4 l4 h4 hr4 hP4 => ?_)
      exact encodeLoop_counts p src _ _ _ _ hr4 hP4
  · exact encodeLoop_counts p src _ _ _ _ hr hP

theorem flush_counts (p : Profile) (e : Encoder α) (hr : e.numRows < 2 ^ 32) (hP : SizeOk e) :
    CountsAt Encoder.numRows SizeOk (flush p recorder) e := by
  refine .get_bind ?_
  split
  · rename_i hl
    exact .bind (writeRemaining_counts p e hl hr hP) fun l r e3 l3 h3 hr3 hP3 => .pure _ hr3 hP3
  · exact .pure _ hr hP

theorem encodeAll_counts (p : Profile) (srcs : List (PrimitiveBuffer α)) : ∀ (e : Encoder α),
    e.numRows < 2 ^ 32 → SizeOk e → CountsAt Encoder.numRows SizeOk (encodeAll p recorder srcs) e := by
  induction srcs with
  | nil => intro e hr hP; exact .pure _ hr hP
  | cons b bs ih =>
    intro e hr hP
    exact .bind (encode_counts p b e hr hP) fun _ _ e' _ _ hr' hP' => ih e' hr' hP'

theorem encodeColumn_counts (p : Profile) (srcs : List (PrimitiveBuffer α)) (e : Encoder α)
    (hr : e.numRows < 2 ^ 32) (hP : SizeOk e) : CountsAt Encoder.numRows SizeOk (encodeColumn p recorder srcs) e :=
  .bind (encodeAll_counts p srcs e hr hP) fun _ _ e' _ _ hr' hP' => flush_counts p e' hr' hP'

/-! ### Sinks -/

theorem writeRange_follows (p : Profile) (k : Sink S) (buf : PrimitiveBuffer α) (start stop bitPos : Nat) :
    Follows k (writeRange p k buf start stop bitPos) (writeRange p recorder buf start stop bitPos) :=
  .bind .get fun _ => .bind (.lift _) fun _ => .bind (.set _) fun _ => .bind (.lift _) fun _ =>
    .bind (.set _) fun _ => .bind (.lift _) fun _ => .bind (.emit _ _) fun _ => .pure _

theorem writeRemaining_follows (p : Profile) (k : Sink S) :
    Follows k (writeRemaining (α := α) p k) (writeRemaining p recorder) :=
  .bind .get fun _ => writeRange_follows _ _ _ _ _ _

theorem leaving_follows {γ : Type} {k : Sink S} (r : Res γ) (rem : PrimitiveBuffer α) :
    Follows k (Run.lift r (leaving rem)) (Run.lift r (leaving rem)) :=
  .leaving r fun (e : Encoder α) => { e with remaining := rem }

theorem encodeLoop_follows (p : Profile) (k : Sink S) (src : PrimitiveBuffer α) (fuel : Nat) : ∀ (bp vp : Nat),
    Follows k (encodeLoop p k src fuel bp vp) (encodeLoop p recorder src fuel bp vp) := by
  induction fuel with
  | zero => intro bp vp; exact .lift _
  | succ fuel ih =>
    intro bp vp
    rw [encodeLoop, encodeLoop]
    split
    · refine .bind .get fun e => .bind (.lift _) fun stop => .bind (.lift _) fun n => ?_
      dsimp only
      split
      · exact .bind (leaving_follows _ _) fun _ => .set _
      · exact .bind (writeRange_follows _ _ _ _ _ _) fun _ => ih _ _
    · exact .pure _

theorem encode_follows (p : Profile) (k : Sink S) (src : PrimitiveBuffer α) :
    Follows k (encode p k src) (encode p recorder src) := by
  refine .bind .get fun e => ?_
  split
  · refine .bind (.lift _) fun room => .bind (.lift _) fun stop => .bind (leaving_follows _ _) fun r => .bind (.set _) fun _ => ?_
    dsimp only
    split
    · exact .pure _
    · exact .bind (writeRemaining_follows _ _) fun _ => .bind .get fun _ => .bind (.set _) fun _ =>
        encodeLoop_follows _ _ _ _ _ _
  · exact encodeLoop_follows _ _ _ _ _ _

theorem flush_follows (p : Profile) (k : Sink S) :
    Follows k (flush (α := α) p k) (flush p recorder) := by
  refine .bind .get fun e => ?_
  split
  · exact .bind (writeRemaining_follows _ _) fun _ => .pure _
  · exact .pure _

theorem encodeAll_follows (p : Profile) (k : Sink S) (srcs : List (PrimitiveBuffer α)) :
    Follows k (encodeAll p k srcs) (encodeAll p recorder srcs) := by
  induction srcs with
  | nil => exact .pure _
  | cons b bs ih => exact .bind (encode_follows _ _ _) fun _ => ih

theorem encodeColumn_follows (p : Profile) (k : Sink S) (srcs : List (PrimitiveBuffer α)) :
    Follows k (encodeColumn p k srcs) (encodeColumn p recorder srcs) :=
  .bind (encodeAll_follows _ _ _) fun _ => flush_follows _ _

end PrimitiveEnc
/-! ## The binary encoder -/

namespace BinaryEnc
variable {S : Type}

theorem addRows_eq (a b : Nat) : addRows a b = if a + b < 2 ^ 32 then .ok (a + b) else .error .expect := by
  rw [addRows]
  by_cases h : a + b < 2 ^ 32
  · rw [if_pos ⟨by omega, h⟩, if_pos h]
  · rw [if_neg (fun hn => h hn.2), if_neg h]

theorem encodeBinaryBuffer_rows {p : Profile} {buf : BinaryBuffer} {c : BinaryChunk} {bitPos : Nat}
    {be : Rle.Encoder} {r : Encoded} (hlen : 1 ≤ c.len)
    (h : encodeBinaryBuffer p buf c bitPos be = .ok r) : 1 ≤ r.result.numRows := by
  rw [encodeBinaryBuffer] at h
  rcases h1 : Varint.putVarint [] c.size with x | d
  · rw [h1] at h; cases h
  · rw [h1, ok_bind] at h
    rcases h2 : slice buf.data c.startOffset c.endOffset with x | d2
    · rw [h2] at h; cases h
    · rw [h2, ok_bind] at h
      rcases h3 : itemLens p buf (c.endPos - c.startPos) c.startPos with x | ls
      · rw [h3] at h; cases h
      · rw [h3, ok_bind] at h
        rcases h4 : Offsets.encode p ls (d ++ d2) with x | ⟨y, z⟩
        · rw [h4] at h; cases h
        · rw [h4] at h
          simp only [ok_bind] at h
          rcases h5 : PrimitiveEnc.encodeValidity p buf.validity bitPos c.len be with x | ⟨a, b, c'⟩
          · rw [h5] at h; cases h
          · rw [h5] at h
            simp only [ok_bind, pure_eq_ok, Except.ok.injEq] at h
            subst h
            exact encodeValidity_rows (n := c.len) (r := (a, b, c')) hlen h5

/-- A chunk whose length agrees with its positions. -/
def LenOk (c : BinaryChunk) : Prop := c.startPos < c.endPos → 1 ≤ c.len

theorem chunk_lenOk {p : Profile} {b : BinaryBuffer} {start m : Nat} {c : BinaryChunk}
    (h : chunk p b start m = .ok c) : LenOk c := by
  rw [chunk] at h
  rcases h1 : index b.offsets start with x | so
  · rw [h1] at h; cases h
  · rw [h1, ok_bind] at h
    rcases h2 : findPosition p so m (b.offsets.drop start) 0 with x | f
    · rw [h2] at h; cases h
    · rw [h2, ok_bind] at h
      rcases h3 : chunkEnd b f with x | ⟨ep, eo⟩
      · rw [h3] at h; cases h
      · rw [h3] at h
        simp only [ok_bind] at h
        rcases h4 : p.sub 32 eo so with x | sz
        · rw [h4] at h; cases h
        · rw [h4, ok_bind] at h
          rcases h5 : p.sub 64 ep start with x | n
          · rw [h5] at h; cases h
          · rw [h5, ok_bind] at h
            cases h
            intro hlt
            simp only at hlt ⊢
            rw [Profile.sub_ok p (by omega)] at h5
            cases h5
            omega

theorem wholeChunk_lenOk {b : BinaryBuffer} {c : BinaryChunk} (h : wholeChunk b = .ok c) : LenOk c := by
  rw [wholeChunk] at h
  split at h
  · cases h
    intro hlt
    simp only [BinaryBuffer.len] at hlt ⊢
    omega
  · cases h

theorem writeBlock_counts (p : Profile) (buf : BinaryBuffer) (c : BinaryChunk) (hc : LenOk c) (bitPos : Nat)
    (e : Encoder) (hr : e.numRows < 2 ^ 32) :
    CountsAt Encoder.numRows (fun _ => True) (writeBlock p recorder buf c bitPos) e := by
  intro l
  simp only [writeBlock, Run.bind_apply, Run.get_apply]
  rcases h1 : encodeBinaryBuffer p buf c bitPos e.bitmapEncoder with x | r
  · exact ⟨[], [], by simp [Run.lift], rfl, by simp, rfl, hr, trivial⟩
  · have hn := encodeBinaryBuffer_rows (hc (encodeBinaryBuffer_progress p buf c bitPos _ h1)) h1
    simp only [Run.lift_ok, Run.set_apply, addRows_eq]
    by_cases hlt : e.numRows + r.result.numRows < 2 ^ 32
    · rw [if_pos hlt]
      simp only [Run.lift_ok, Profile.sub_ok p (show 1 ≤ e.numRows + r.result.numRows by omega)]
      exact ⟨[r.result.numRows], [(e.numRows + r.result.numRows - 1, r.data)], rfl, rfl, by simpa using hn,
        by simp [Run.pure_apply, Run.emit, recorder], hlt, trivial⟩
    · rw [if_neg hlt]
      exact ⟨[], [], by simp [Run.lift], rfl, by simp, rfl, hr, trivial⟩

theorem writeRemaining_counts (p : Profile) (e : Encoder) (hr : e.numRows < 2 ^ 32) :
    CountsAt Encoder.numRows (fun _ => True) (writeRemaining p recorder) e := by
  refine .get_bind (.bind (.lift _ hr trivial) fun l c e1 l1 h1 hr1 _ => ?_)
  obtain ⟨hc, rfl⟩ := lift_inv h1
  exact writeBlock_counts p _ c (wholeChunk_lenOk hc) 0 e1 hr

theorem leaving_counts {γ : Type} (r : Res γ) (rem : BinaryBuffer) {e : Encoder} (hr : e.numRows < 2 ^ 32) :
    CountsAt Encoder.numRows (fun _ => True) (Run.lift r (leaving rem)) e :=
  .leaving r (f := fun e => { e with remaining := rem }) hr rfl trivial trivial

theorem encodeLoop_counts (p : Profile) (src : BinaryBuffer) (fuel : Nat) : ∀ (bp vp : Nat) (e : Encoder),
    e.numRows < 2 ^ 32 → CountsAt Encoder.numRows (fun _ => True) (encodeLoop p recorder src fuel bp vp) e := by
  induction fuel with
  | zero => intro bp vp e hr; exact .lift _ hr trivial
  | succ fuel ih =>
    intro bp vp e hr
    rw [encodeLoop]
    split
    · refine .get_bind (.bind (.lift _ hr trivial) fun l c e1 l1 h1 hr1 _ => ?_)
      obtain ⟨hc, rfl⟩ := lift_inv h1
      split
      · refine .bind (leaving_counts _ _ hr) fun l r e3 l3 h3 hr3 _ => ?_
        obtain ⟨_, rfl⟩ := lift_inv h3
        exact .set hr rfl trivial
      · exact .bind (writeBlock_counts p src c (chunk_lenOk hc) vp e1 hr) fun l r e3 l3 h3 hr3 _ => ih _ _ e3 hr3
    · exact .pure _ hr trivial

theorem encode_counts (p : Profile) (src : BinaryBuffer) (e : Encoder)
    (hr : e.numRows < 2 ^ 32) : CountsAt Encoder.numRows (fun _ => True) (encode p recorder src) e := by
  refine .get_bind ?_
  split
  · refine .bind (.lift _ hr trivial) fun l room e1 l1 h1 hr1 _ => ?_
    obtain ⟨_, rfl⟩ := lift_inv h1
    refine .bind (.lift _ hr trivial) fun l stop e1 l1 h1 hr1 _ => ?_
    obtain ⟨_, rfl⟩ := lift_inv h1
    refine .bind (leaving_counts _ _ hr) fun l rem e1 l1 h1 hr1 _ => ?_
    obtain ⟨ha, rfl⟩ := lift_inv h1
    refine .bind (.set hr rfl trivial) fun l u e2 l2 h2 hr2 _ => ?_
    dsimp only
    split
    · exact .pure _ hr2 trivial
    · refine .bind (writeRemaining_counts p _ hr2) fun l r e3 l3 h3 hr3 _ => ?_
      refine .get_bind (.bind (.set hr3 rfl trivial) fun l r e4 l4 h4 hr4 _ => ?_)
      exact encodeLoop_counts p src _ _ _ _ hr4
  · exact encodeLoop_counts p src _ _ _ _ hr

theorem flush_counts (p : Profile) (e : Encoder) (hr : e.numRows < 2 ^ 32) :
    CountsAt Encoder.numRows (fun _ => True) (flush p recorder) e := by
  refine .get_bind ?_
  split
  · exact .bind (writeRemaining_counts p e hr) fun l r e3 l3 h3 hr3 _ => .pure _ hr3 trivial
  · exact .pure _ hr trivial

theorem encodeAll_counts (p : Profile) (srcs : List BinaryBuffer) : ∀ (e : Encoder),
    e.numRows < 2 ^ 32 → CountsAt Encoder.numRows (fun _ => True) (encodeAll p recorder srcs) e := by
  induction srcs with
  | nil => intro e hr; exact .pure _ hr trivial
  | cons b bs ih =>
    intro e hr
    exact .bind (encode_counts p b e hr) fun _ _ e' _ _ hr' _ => ih e' hr'

theorem encodeColumn_counts (p : Profile) (srcs : List BinaryBuffer) (e : Encoder)
    (hr : e.numRows < 2 ^ 32) : CountsAt Encoder.numRows (fun _ => True) (encodeColumn p recorder srcs) e :=
  .bind (encodeAll_counts p srcs e hr) fun _ _ e' _ _ hr' _ => flush_counts p e' hr'

/-! ### Sinks -/

theorem writeBlock_follows (p : Profile) (k : Sink S) (buf : BinaryBuffer) (c : BinaryChunk) (bitPos : Nat) :
    Follows k (writeBlock p k buf c bitPos) (writeBlock p recorder buf c bitPos) :=
  .bind .get fun _ => .bind (.lift _) fun _ => .bind (.set _) fun _ => .bind (.lift _) fun _ =>
    .bind (.set _) fun _ => .bind (.lift _) fun _ => .bind (.emit _ _) fun _ => .pure _

theorem writeRemaining_follows (p : Profile) (k : Sink S) :
    Follows k (writeRemaining p k) (writeRemaining p recorder) :=
  .bind .get fun _ => .bind (.lift _) fun _ => writeBlock_follows _ _ _ _ _

theorem leaving_follows {γ : Type} {k : Sink S} (r : Res γ) (rem : BinaryBuffer) :
    Follows k (Run.lift r (leaving rem)) (Run.lift r (leaving rem)) :=
  .leaving r fun (e : Encoder) => { e with remaining := rem }

theorem encodeLoop_follows (p : Profile) (k : Sink S) (src : BinaryBuffer) (fuel : Nat) : ∀ (bp vp : Nat),
    Follows k (encodeLoop p k src fuel bp vp) (encodeLoop p recorder src fuel bp vp) := by
  induction fuel with
  | zero => intro bp vp; exact .lift _
  | succ fuel ih =>
    intro bp vp
    rw [encodeLoop, encodeLoop]
    split
    · refine .bind .get fun e => .bind (.lift _) fun c => ?_
      split
      · exact .bind (leaving_follows _ _) fun _ => .set _
      · exact .bind (writeBlock_follows _ _ _ _ _) fun _ => ih _ _
    · exact .pure _

theorem encode_follows (p : Profile) (k : Sink S) (src : BinaryBuffer) :
    Follows k (encode p k src) (encode p recorder src) := by
  refine .bind .get fun e => ?_
  split
  · refine .bind (.lift _) fun room => .bind (.lift _) fun stop => .bind (leaving_follows _ _) fun r => .bind (.set _) fun _ => ?_
    dsimp only
    split
    · exact .pure _
    · exact .bind (writeRemaining_follows _ _) fun _ => .bind .get fun _ => .bind (.set _) fun _ =>
        encodeLoop_follows _ _ _ _ _ _
  · exact encodeLoop_follows _ _ _ _ _ _

theorem flush_follows (p : Profile) (k : Sink S) :
    Follows k (flush p k) (flush p recorder) := by
  refine .bind .get fun e => ?_
  split
  · exact .bind (writeRemaining_follows _ _) fun _ => .pure _
  · exact .pure _

theorem encodeAll_follows (p : Profile) (k : Sink S) (srcs : List BinaryBuffer) :
    Follows k (encodeAll p k srcs) (encodeAll p recorder srcs) := by
  induction srcs with
  | nil => exact .pure _
  | cons b bs ih => exact .bind (encode_follows _ _ _) fun _ => ih

theorem encodeColumn_follows (p : Profile) (k : Sink S) (srcs : List BinaryBuffer) :
    Follows k (encodeColumn p k srcs) (encodeColumn p recorder srcs) :=
  .bind (encodeAll_follows _ _ _) fun _ => flush_follows _ _

end BinaryEnc
end Meerkat
