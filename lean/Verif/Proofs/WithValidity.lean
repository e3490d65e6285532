import Verif.Proofs.Alike
import Verif.Proofs.RleCanonical

set_option autoImplicit false

/-! # An encoder of a nullable column beside the encoder of its values

`ResI` and `RunI` say that what returns on the left returns on the right, with related results. -/

namespace Meerkat
open Spec

/-- Whenever the first returns, so does the second, with a related result. -/
def ResI {ε γ δ : Type} (Q : γ → δ → Prop) (r : Except ε γ) (s : Except ε δ) : Prop :=
  ∀ a, r = .ok a → ∃ b, s = .ok b ∧ Q a b

namespace ResI
variable {ε γ δ γ' δ' : Type} {Q : γ → δ → Prop} {Q' : γ' → δ' → Prop}

theorem ok {a : γ} {b : δ} (h : Q a b) : ResI (ε := ε) Q (.ok a) (.ok b) := by
  intro x hx; cases hx; exact ⟨b, rfl, h⟩

theorem error {x : ε} {s : Except ε δ} : ResI (γ := γ) Q (.error x) s := by intro a ha; cases ha

theorem refl (r : Except ε γ) : ResI Eq r r := fun a h => ⟨a, h, rfl⟩

theorem bind {r : Except ε γ} {s : Except ε δ} {f : γ → Except ε γ'} {g : δ → Except ε δ'} (h : ResI Q r s)
    (hf : ∀ a b, Q a b → ResI Q' (f a) (g b)) : ResI Q' (r >>= f) (s >>= g) := by
  intro x hx
  rcases r with e | a
  · cases hx
  · obtain ⟨b, hb, hq⟩ := h a rfl
    subst hb
    exact hf a b hq x hx

theorem inv {m : Except ε γ} {f : γ → Except ε γ'} {c : γ'} (h : (m >>= f) = .ok c) : ∃ b, m = .ok b ∧ f b = .ok c := by
  cases m with
  | error x => cases h
  | ok b => exact ⟨b, rfl, h⟩

end ResI

/-- Whenever the first call returns, so does the second, with a related result, and leaves related states. -/
def RunI {σ τ γ δ : Type} (R R' : σ → τ → Prop) (Q : γ → δ → Prop) (m : Run σ γ) (m' : Run τ δ) : Prop :=
  ∀ s t, R s t → ∀ a s1, m s = (.ok a, s1) → ∃ b t1, m' t = (.ok b, t1) ∧ Q a b ∧ R' s1 t1

namespace RunI
variable {σ τ γ δ γ' δ' : Type} {R R' R'' : σ → τ → Prop} {Q : γ → δ → Prop} {Q' : γ' → δ' → Prop}

theorem pure {a : γ} {b : δ} (h : Q a b) : RunI R R Q (Pure.pure a) (Pure.pure b) := by
  intro s t hR x s1 hx
  cases hx
  exact ⟨b, t, rfl, h, hR⟩

theorem bind {m : Run σ γ} {m' : Run τ δ} {f : γ → Run σ γ'} {f' : δ → Run τ δ'} (h : RunI R R' Q m m')
    (hf : ∀ a b, Q a b → RunI R' R'' Q' (f a) (f' b)) : RunI R R'' Q' (m >>= f) (m' >>= f') := by
  intro s t hR x s2 hx
  rw [Run.bind_apply] at hx
  rcases hm : m s with ⟨r, s1⟩
  rw [hm] at hx
  rcases r with e | a
  · cases hx
  · obtain ⟨b, t1, hb, hq, hR'⟩ := h s t hR a s1 hm
    obtain ⟨y, t2, hy, hq', hR''⟩ := hf a b hq s1 t1 hR' x s2 hx
    exact ⟨y, t2, by rw [Run.bind_apply, hb]; exact hy, hq', hR''⟩

theorem lift {r : Res γ} {r' : Res δ} {left : σ → σ} {left' : τ → τ} (h : ResI Q r r') :
    RunI R R Q (Run.lift r left) (Run.lift r' left') := by
  intro s t hR a s1 ha
  rcases r with x | a'
  · cases ha
  · cases ha
    obtain ⟨b, hb, hq⟩ := h a rfl
    subst hb
    exact ⟨b, t, rfl, hq, hR⟩

theorem error {r : Panic} {left : σ → σ} {m' : Run τ δ} : RunI R R' Q (Run.lift (.error r : Res γ) left) m' := by
  intro s t hR a s1 ha; cases ha

theorem mono {m : Run σ γ} {m' : Run τ δ} (h : RunI R R' Q m m') (hR : ∀ s t, R' s t → R'' s t) : RunI R R'' Q m m' := by
  intro s t hs a s1 ha
  obtain ⟨b, t1, h1, h2, h3⟩ := h s t hs a s1 ha
  exact ⟨b, t1, h1, h2, hR _ _ h3⟩

theorem pre {m : Run σ γ} {m' : Run τ δ} (h : RunI R' R'' Q m m') (hR : ∀ s t, R s t → R' s t) : RunI R R'' Q m m' :=
  fun s t hs => h s t (hR _ _ hs)

end RunI

section
variable {E F : Type} {RE RE' : E → F → Prop} {B : Nat × Bytes → Nat × Bytes → Prop}

theorem RunI.get : RunI (Both RE B) (Both RE B) RE Run.get Run.get := by
  intro s t h a s1 ha
  cases ha
  exact ⟨t.1, t, rfl, h.1, h⟩

theorem RunI.set {e : E} {e' : F} (h : RE' e e') : RunI (Both RE B) (Both RE' B) (fun _ _ => True) (Run.set e) (Run.set e') := by
  intro s t hR a s1 ha
  cases ha
  exact ⟨(), (e', t.2), rfl, trivial, h, hR.2⟩

theorem RunI.emit {id id' : Nat} {d d' : Bytes} (h : B (id, d) (id', d')) :
    RunI (Both RE B) (Both RE B) (fun _ _ => True) (Run.emit recorder id d) (Run.emit recorder id' d') := by
  intro s t hR a s1 ha
  cases ha
  exact ⟨(), (t.1, t.2 ++ [(id', d')]), rfl, trivial, hR.1, hR.2.append (.single h)⟩

end

/-! ## The validity of a block counts at least the items -/

/-- A validity without nulls. -/
def AllSet (v : Option Bitmap) : Prop := ∀ bm, v = some bm → bm.Inv ∧ ∀ i, i < bm.len → bm.bitAt i = true

namespace AllSet

theorem none : AllSet none := by intro bm h; cases h

theorem clear {v : Option Bitmap} : AllSet (v.map Bitmap.clear) := by
  intro bm h
  cases v with
  | none => cases h
  | some w =>
    cases h
    exact ⟨Bitmap.clear_inv w, fun i hi => absurd hi (Nat.not_lt_zero i)⟩

theorem new : AllSet (some Bitmap.new) := by
  intro bm h
  cases h
  exact ⟨Bitmap.new_inv, fun i hi => absurd hi (Nat.not_lt_zero i)⟩

theorem ofNew (nullable : Bool) : AllSet (if nullable then some Bitmap.new else Option.none) := by
  cases nullable
  · exact .none
  · exact .new

theorem append {bm bm' : Bitmap} (h : AllSet (some bm)) (ha : bm.append true = .ok bm') : AllSet (some bm') := by
  obtain ⟨hI, hs⟩ := h bm rfl
  obtain ⟨m', h1, h2, h3, h4⟩ := Bitmap.append_spec hI true
  rw [ha] at h1
  cases h1
  intro b hb
  cases hb
  refine ⟨h3, fun i hi => ?_⟩
  rw [h4]
  split
  · rfl
  · exact hs i (by omega)

theorem isSet {bm : Bitmap} (h : AllSet (some bm)) {i : Nat} {b : Bool} (hi : bm.isSet i = .ok b) : b = true := by
  obtain ⟨hI, hs⟩ := h bm rfl
  by_cases hl : i < bm.len
  · rw [Bitmap.isSet_of_lt hI hl, hs i hl] at hi
    cases hi; rfl
  · rw [Bitmap.isSet_of_ge (by omega)] at hi
    cases hi

theorem appendFromLoop {src : Bitmap} (hsrc : AllSet (some src)) : ∀ (d pos n : Nat) (dst : Bitmap), src.len - pos = d →
    AllSet (some dst) → ∀ x, dst.appendFromLoop src pos n = .ok x → AllSet (some x.1) := by
  intro d
  induction d with
  | zero =>
    intro pos n dst hd h x hx
    rw [Bitmap.appendFromLoop] at hx
    split at hx
    · cases hx; exact h
    · rw [dif_neg (by omega)] at hx
      cases hx
  | succ d ih =>
    intro pos n dst hd h x hx
    rw [Bitmap.appendFromLoop] at hx
    split at hx
    · cases hx; exact h
    · rw [dif_pos (by omega)] at hx
      obtain ⟨b, hb, hx⟩ := ResI.inv hx
      obtain ⟨dst1, h1, hx⟩ := ResI.inv hx
      rw [hsrc.isSet hb] at h1
      exact ih (pos + 1) _ dst1 (by omega) (h.append h1) x hx

theorem appendFrom {dst src : Option Bitmap} (hd : AllSet dst) (hs : AllSet src) {pos n : Nat} {x : Option Bitmap × Nat}
    (h : validityAppendFrom dst src pos n = .ok x) : AllSet x.1 := by
  cases src with
  | none =>
    cases dst with
    | none => cases h; exact .none
    | some _ => cases h
  | some s =>
    cases dst with
    | none => cases h
    | some d =>
      obtain ⟨y, h1, h⟩ := ResI.inv h
      cases h
      exact appendFromLoop hs _ pos n d rfl hd y h1

theorem appendTrue {v v' : Option Bitmap} (hv : AllSet v) (h : validityAppendTrue v = .ok v') : AllSet v' := by
  cases v with
  | none => cases h; exact .none
  | some bm =>
    obtain ⟨y, h1, h⟩ := ResI.inv h
    cases h
    exact hv.append h1

end AllSet

/-- The rows that `put_from` puts. -/
theorem PrimitiveEnc.putFromLoop_rows (p : Profile) (bm : Bitmap) : ∀ (d pos n : Nat) (e : Rle.Encoder), bm.len - pos = d →
    ∀ e' pos', Rle.Encoder.putFromLoop p e bm pos n = .ok (e', pos') →
    ∃ rows, e.putAll p rows = .ok e' ∧ pos' = pos + rows.length ∧ ∀ b ∈ rows, ∃ i, bm.isSet i = .ok b := by
  intro d
  induction d with
  | zero =>
    intro pos n e hd e' pos' h
    rw [Rle.Encoder.putFromLoop] at h
    split at h
    · cases h; exact ⟨[], rfl, rfl, by simp⟩
    · rw [dif_neg (by omega)] at h
      cases h
  | succ d ih =>
    intro pos n e hd e' pos' h
    rw [Rle.Encoder.putFromLoop] at h
    split at h
    · cases h; exact ⟨[], rfl, rfl, by simp⟩
    · rw [dif_pos (by omega)] at h
      obtain ⟨b, hb, h⟩ := ResI.inv h
      obtain ⟨e1, he, h⟩ := ResI.inv h
      obtain ⟨rows, h1, h2, h3⟩ := ih (pos + 1) (n - b.toNat) e1 (by omega) e' pos' h
      refine ⟨b :: rows, ?_, by simp only [List.length_cons]; omega, ?_⟩
      · simp only [Rle.Encoder.putAll, List.foldlM_cons, he, ok_bind] at h1 ⊢
        exact h1
      · intro c hc
        rcases List.mem_cons.1 hc with rfl | hc
        · exact ⟨pos, hb⟩
        · exact h3 c hc

theorem PrimitiveEnc.putFromLoop_far (p : Profile) (bm : Bitmap) : ∀ (d pos n : Nat) (e : Rle.Encoder), bm.len - pos = d →
    ∀ e' pos', Rle.Encoder.putFromLoop p e bm pos n = .ok (e', pos') → pos + n ≤ pos' := by
  intro d
  induction d with
  | zero =>
    intro pos n e hd e' pos' h
    rw [Rle.Encoder.putFromLoop] at h
    split at h
    · cases h; omega
    · rw [dif_neg (by omega)] at h
      cases h
  | succ d ih =>
    intro pos n e hd e' pos' h
    rw [Rle.Encoder.putFromLoop] at h
    split at h
    · cases h; omega
    · rw [dif_pos (by omega)] at h
      obtain ⟨b, _, h⟩ := ResI.inv h
      obtain ⟨e1, _, h⟩ := ResI.inv h
      have := ih (pos + 1) (n - b.toNat) e1 (by omega) e' pos' h
      cases b <;> simp at this <;> omega

/-- Encoding the validity of a nullable buffer beside that of one that is not: more bytes, and at least as many rows. -/
theorem PrimitiveEnc.encodeValidity_without (p : Profile) {full : Bool} {v : Option Bitmap} (hv : full = true → AllSet v)
    (pos pos' n : Nat) (be be' : Rle.Encoder) :
    ResI (fun x y => y.2.1 = [] ∧ y.1.numRows = n ∧ n ≤ x.1.numRows ∧ (x.1.numRows < 2 ^ 32 → IsValidity full x.2.1))
      (encodeValidity p v pos n be) (encodeValidity p none pos' n be') := by
  intro x hx
  refine ⟨_, rfl, rfl, rfl, ?_⟩
  rcases v with _ | v
  · cases hx
    exact ⟨Nat.le_refl _, fun _ => ⟨[], by simp, ⟨[], 0, by omega, rfl, [], trivial, rfl, rfl⟩, by simp⟩⟩
  · obtain ⟨⟨be1, last⟩, h1, hx⟩ := ResI.inv hx
    obtain ⟨be2, h2, hx⟩ := ResI.inv hx
    cases hx
    refine ⟨?_, fun (hlt : last < 2 ^ 32) => ?_⟩
    · have := putFromLoop_far p v _ pos n be.clear rfl be1 last h1
      show n ≤ last
      omega
    · obtain ⟨rows, g1, g2, g3⟩ := putFromLoop_rows p v _ pos n be.clear rfl be1 last h1
      obtain ⟨e, e', bytes, pad, k1, k2, k3, k4, k5⟩ := Rle.Encoder.new_compressed p rows (by omega)
      have hr := Rle.Encoder.run_clear p be rows
      simp only [Rle.Encoder.run, g1, k1, h2, k2, ok_bind, pure_eq_ok, Except.ok.injEq] at hr
      refine ⟨rows, by omega, ⟨bytes, pad, k5, k4, ?_⟩, fun hf hm => ?_⟩
      · show Compressed bytes be2.encodedValues
        rw [hr]
        exact k3
      · obtain ⟨i, hi⟩ := g3 false hm
        have := (hv hf).isSet hi
        cases this

theorem PrimitiveEnc.addRows_without (c c' n n' : Nat) (hc : c' ≤ c) (hn : n' ≤ n) :
    ResI (fun x y => x = c + n ∧ y = c' + n' ∧ x < 2 ^ 32) (addRows c n) (addRows c' n') := by
  intro x hx
  simp only [addRows] at hx ⊢
  split at hx
  · cases hx
    rw [if_pos (by omega)]
    exact ⟨_, rfl, rfl, rfl, by omega⟩
  · cases hx

theorem sub_without (p : Profile) (x y : Nat) (hy : 1 ≤ y) (hxy : y ≤ x) :
    ResI (fun a b => b ≤ a) (p.sub 32 x 1) (p.sub 32 y 1) := by
  intro a ha
  rw [Profile.sub_ok _ (by omega)] at ha ⊢
  cases ha
  exact ⟨_, rfl, by omega⟩

/-! ## Primitive columns -/

namespace PrimitiveEnc
variable {α : Type} [Element α] {full : Bool}

/-- A buffer and the one, not nullable, of its values. -/
structure BufV (full : Bool) (b b' : PrimitiveBuffer α) : Prop where
  values : b.values = b'.values
  none : b'.validity = none
  all : full = true → AllSet b.validity

structure EncV (full : Bool) (m : Nat) (e e' : Encoder α) : Prop where
  remaining : BufV full e.remaining e'.remaining
  size : e.minBlockSize = m
  size' : e'.minBlockSize = m
  rows : e'.numRows ≤ e.numRows

abbrev StatesV (full : Bool) (m : Nat) := Both (EncV (α := α) full m) (WithValidity full)

theorem chunk_without (p : Profile) {b b' : PrimitiveBuffer α} (h : BufV full b b') (start m : Nat) :
    chunk p b start m = chunk p b' start m := by
  have hl : b.len = b'.len := by simp only [PrimitiveBuffer.len, h.values]
  simp only [chunk, hl]

omit [Element α] in
theorem appendFrom_without {b c b' c' : PrimitiveBuffer α} (h : BufV full b b') (hc : BufV full c c') (i j pos pos' : Nat) :
    ResI (fun x y => BufV full x.1 y.1 ∧ (b.values <+: x.1.values)) (b.appendFrom c i j pos) (b'.appendFrom c' i j pos') := by
  simp only [PrimitiveBuffer.appendFrom, h.values, hc.values, h.none, hc.none]
  refine .bind (.refl _) fun a a' ha => ?_
  subst ha
  split
  · intro x hx
    obtain ⟨v, hv, hx⟩ := ResI.inv hx
    cases hx
    exact ⟨_, rfl, ⟨rfl, rfl, fun hf => (h.all hf).appendFrom (hc.all hf) hv⟩, List.prefix_append _ _⟩
  · exact .error

theorem encodePrimitiveBuffer_without (p : Profile) {b b' : PrimitiveBuffer α} (h : BufV full b b') (i j pos pos' n : Nat)
    (hn : p.sub 64 j i = .ok n) (be be' : Rle.Encoder) :
    ResI (fun x y => y.1.numRows = n ∧ n ≤ x.1.numRows ∧ ∃ v, x.2.1 = y.2.1 ++ v ∧ (x.1.numRows < 2 ^ 32 → IsValidity full v))
      (encodePrimitiveBuffer p b i j pos be) (encodePrimitiveBuffer p b' i j pos' be') := by
  simp only [encodePrimitiveBuffer, h.values, h.none, hn, ok_bind]
  refine .bind (.refl _) fun d d' hd => ?_
  subst hd
  refine .bind (.refl _) fun a a' ha => ?_
  subst ha
  refine .bind (encodeValidity_without p h.all pos pos' n be be') fun x y hxy => ?_
  exact .ok ⟨hxy.2.1, hxy.2.2.1, x.2.1, by simp [hxy.1], hxy.2.2.2⟩

theorem writeRange_without (m : Nat) (p : Profile) {b b' : PrimitiveBuffer α} (h : BufV full b b') (i j pos pos' n : Nat)
    (hn : p.sub 64 j i = .ok n) (h1 : 1 ≤ n) :
    RunI (StatesV full m) (StatesV full m) (fun _ _ => True) (writeRange p recorder b i j pos) (writeRange p recorder b' i j pos') := by
  refine .bind .get fun e e' he => ?_
  refine .bind (.lift (encodePrimitiveBuffer_without p h i j pos pos' n hn _ _)) fun x y hxy => ?_
  obtain ⟨r, d, be⟩ := x
  obtain ⟨r', d', be'⟩ := y
  obtain ⟨g1, g2, v, g3, g4⟩ := hxy
  simp only at g1 g2 g3 g4
  refine .bind (R' := StatesV full m) (.set ⟨he.remaining, he.size, he.size', he.rows⟩) fun _ _ _ => ?_
  refine .bind (.lift (addRows_without _ _ _ _ he.rows (by omega))) fun k k' hk => ?_
  obtain ⟨hk1, hk2, hk3⟩ := hk
  have hr := he.rows
  refine .bind (R' := StatesV full m) (.set ⟨he.remaining, he.size, he.size', by simp only; omega⟩) fun _ _ _ => ?_
  refine .bind (.lift (sub_without p _ _ (by omega) (by omega))) fun id id' hid => ?_
  exact .bind (.emit ⟨hid, v, g3, g4 (by omega)⟩) fun _ _ _ => .pure trivial

theorem encodeLoop_without (m : Nat) (hm : 0 < m) (p : Profile) {b b' : PrimitiveBuffer α} (h : BufV full b b') (fuel : Nat) :
    ∀ (bp vp vp' : Nat), RunI (StatesV full m) (StatesV full m) (fun _ _ => True) (encodeLoop p recorder b fuel bp vp)
      (encodeLoop p recorder b' fuel bp vp') := by
  induction fuel with
  | zero => intro bp vp vp'; exact .error
  | succ fuel ih =>
    intro bp vp vp'
    rw [encodeLoop, encodeLoop, PrimitiveBuffer.len, PrimitiveBuffer.len, h.values]
    split
    · refine .bind .get fun e e' he => ?_
      rw [chunk_without p h, he.size, he.size']
      refine .bind (.lift (.refl _)) fun c c' hc => ?_
      subst hc
      refine .bind (.lift (Q := fun x y => x = y ∧ p.sub 64 c bp = .ok x) fun x hx => ⟨x, hx, rfl, hx⟩) fun n n' hn => ?_
      obtain ⟨rfl, hn⟩ := hn
      simp only
      split
      · refine .bind (.lift (appendFrom_without he.remaining h _ _ _ _)) fun x y hxy => ?_
        exact .set ⟨hxy.1, rfl, rfl, he.rows⟩
      · rename_i hlt
        refine .bind (writeRange_without m p h _ _ _ _ n hn ?_) fun x y hxy => ih _ _ _
        rcases n with _ | n
        · simp at hlt; omega
        · omega
    · exact .pure trivial

theorem writeRemaining_without (m : Nat) (p : Profile) :
    RunI (fun s t => StatesV (α := α) full m s t ∧ 0 < s.1.remaining.len) (StatesV full m) (fun _ _ => True) (writeRemaining (α := α) p recorder)
      (writeRemaining (α := α) p recorder) := by
  intro s t hR
  have he := hR.1.1
  have hl : s.1.remaining.len = t.1.remaining.len := by simp only [PrimitiveBuffer.len, he.remaining.values]
  simp only [writeRemaining, Run.bind_apply, Run.get_apply]
  rw [← hl]
  exact writeRange_without m p he.remaining 0 _ 0 0 _ (Profile.sub_ok _ (by omega)) (by omega) s t hR.1

omit [Element α] in
theorem BufV.clear {b b' : PrimitiveBuffer α} (h : BufV full b b') : BufV full b.clear b'.clear :=
  ⟨rfl, by simp only [PrimitiveBuffer.clear, h.none, Option.map_none], fun _ => AllSet.clear⟩

theorem encode_without (m : Nat) (hm : 0 < m) (p : Profile) {b b' : PrimitiveBuffer α} (h : BufV full b b') :
    RunI (StatesV full m) (StatesV full m) (fun _ _ => True) (encode p recorder b) (encode p recorder b') := by
  have hl : b.len = b'.len := by simp only [PrimitiveBuffer.len, h.values]
  simp only [encode, encodeFuel, hl]
  refine .bind .get fun e e' he => ?_
  have hl' : e.remaining.len = e'.remaining.len := by simp only [PrimitiveBuffer.len, he.remaining.values]
  rw [hl', he.size, he.size']
  split
  · rename_i hpos
    refine .bind (.lift (.refl _)) fun n n' hn => ?_
    subst hn
    rw [chunk_without p h]
    refine .bind (.lift (.refl _)) fun c c' hc => ?_
    subst hc
    refine .bind (.lift (appendFrom_without he.remaining h _ _ _ _)) fun x y hxy => ?_
    obtain ⟨x, vp⟩ := x
    obtain ⟨y, vp'⟩ := y
    obtain ⟨h1, h2⟩ := hxy
    simp only at h1 h2
    have hx : 0 < x.len := by
      have := h2.length_le
      simp only [PrimitiveBuffer.len] at hl' hpos ⊢
      omega
    refine .bind (Q := fun _ _ => True) (R' := fun s t => StatesV full m s t ∧ 0 < s.1.remaining.len) ?_ fun _ _ _ => ?_
    · intro s t hR a s1 ha
      cases ha
      exact ⟨(), _, rfl, trivial, ⟨⟨h1, rfl, rfl, he.rows⟩, hR.2⟩, hx⟩
    · simp only
      rw [show x.len = y.len by simp only [PrimitiveBuffer.len, h1.values]]
      split
      · exact .pre (.pure trivial) fun _ _ h => h.1
      · refine .bind (writeRemaining_without m p) fun _ _ _ => .bind .get fun e2 e2' he2 => ?_
        exact .bind (R' := StatesV full m) (.set ⟨he2.remaining.clear, he2.size, he2.size', he2.rows⟩) fun _ _ _ =>
          encodeLoop_without m hm p h _ _ _ _
  · exact encodeLoop_without m hm p h _ _ _ _

theorem flush_without (m : Nat) (p : Profile) :
    RunI (StatesV full m) (StatesV full m) (fun _ _ => True) (flush (α := α) p recorder) (flush (α := α) p recorder) := by
  intro s t hR
  have he := hR.1
  have hl : s.1.remaining.len = t.1.remaining.len := by simp only [PrimitiveBuffer.len, he.remaining.values]
  simp only [flush]
  intro a s1 h
  rw [Run.bind_apply, Run.get_apply] at h ⊢
  simp only at h ⊢
  rw [← hl]
  split at h
  · rename_i hpos
    rw [if_pos hpos]
    exact RunI.bind (writeRemaining_without m p) (fun _ _ _ => RunI.pure (Q := fun _ _ => True) trivial) s t ⟨hR, hpos⟩ a s1 h
  · rename_i hpos
    rw [if_neg hpos]
    exact RunI.pure (Q := fun _ _ => True) trivial s t hR a s1 h

theorem encodeColumn_without (m : Nat) (hm : 0 < m) (p : Profile) {bs bs' : List (PrimitiveBuffer α)}
    (h : Matched (BufV full) bs bs') : RunI (StatesV full m) (StatesV full m) (fun _ _ => True) (encodeColumn p recorder bs) (encodeColumn p recorder bs') := by
  refine .bind (Q := fun _ _ => True) ?_ fun _ _ _ => flush_without m p
  revert h
  refine Matched.induct (P := fun bs bs' => RunI (StatesV full m) (StatesV full m) (fun _ _ => True) (encodeAll p recorder bs) (encodeAll p recorder bs')) ?_ ?_ bs bs'
  · exact .pure trivial
  · intro x y xs ys hxy _ ih
    exact .bind (encode_without m hm p hxy) fun _ _ _ => ih

end PrimitiveEnc

/-! ## Binary columns -/

namespace BinaryEnc
variable {full : Bool}

/-- A buffer and the one, not nullable, of its values. -/
structure BufV (full : Bool) (b b' : BinaryBuffer) : Prop where
  data : b.data = b'.data
  offsets : b.offsets = b'.offsets
  none : b'.validity = none
  all : full = true → AllSet b.validity

/-- `k` rows at least have been counted on the right. -/
structure EncV (full : Bool) (m k : Nat) (e e' : Encoder) : Prop where
  remaining : BufV full e.remaining e'.remaining
  size : e.minBlockSize = m
  size' : e'.minBlockSize = m
  rows : e'.numRows ≤ e.numRows
  counted : k ≤ e'.numRows

abbrev StatesV (full : Bool) (m k : Nat) := Both (EncV full m k) (WithValidity full)

theorem BufV.len {b b' : BinaryBuffer} (h : BufV full b b') : b.len = b'.len := by
  simp only [BinaryBuffer.len, h.offsets]

theorem itemLen_without (p : Profile) {b b' : BinaryBuffer} (h : BufV full b b') (i : Nat) : b.itemLen p i = b'.itemLen p i := by
  simp only [BinaryBuffer.itemLen, h.offsets]

theorem itemLens_without (p : Profile) {b b' : BinaryBuffer} (h : BufV full b b') (k : Nat) : ∀ i,
    itemLens p b k i = itemLens p b' k i := by
  induction k with
  | zero => intro i; rfl
  | succ k ih => intro i; simp only [itemLens, itemLen_without p h, ih]

theorem appendFromOffsets_without (p : Profile) {b b' : BinaryBuffer} (h : BufV full b b') (k : Nat) : ∀ i last,
    b.appendFromOffsets p k i last = b'.appendFromOffsets p k i last := by
  induction k with
  | zero => intro i last; rfl
  | succ k ih => intro i last; simp only [BinaryBuffer.appendFromOffsets, itemLen_without p h, ih]

theorem chunk_without (p : Profile) {b b' : BinaryBuffer} (h : BufV full b b') (start m : Nat) :
    chunk p b start m = chunk p b' start m := by
  simp only [chunk, chunkEnd, h.offsets]

theorem wholeChunk_without {b b' : BinaryBuffer} (h : BufV full b b') : wholeChunk b = wholeChunk b' := by
  simp only [wholeChunk, h.offsets, h.len]

theorem appendFrom_without (p : Profile) {b c b' c' : BinaryBuffer} (h : BufV full b b') (hc : BufV full c c') (i j pos pos' : Nat) :
    ResI (fun x y => BufV full x.1 y.1 ∧ (b.offsets <+: x.1.offsets)) (b.appendFrom p c i j pos) (b'.appendFrom p c' i j pos') := by
  simp only [BinaryBuffer.appendFrom, h.data, h.offsets, hc.data, hc.offsets, h.none, hc.none, appendFromOffsets_without p hc]
  refine .bind (.refl _) fun o o' ho => ?_
  subst ho
  refine .bind (.refl _) fun q q' hq => ?_
  subst hq
  refine .bind (.refl _) fun n n' hn => ?_
  subst hn
  refine .bind (.refl _) fun os os' hos => ?_
  subst hos
  refine .bind (.refl _) fun a a' ha => ?_
  subst ha
  split
  · intro x hx
    obtain ⟨v, hv, hx⟩ := ResI.inv hx
    cases hx
    exact ⟨_, rfl, ⟨rfl, rfl, rfl, fun hf => (h.all hf).appendFrom (hc.all hf) hv⟩, List.prefix_append _ _⟩
  · exact .error

theorem encodeBinaryBuffer_without (p : Profile) {b b' : BinaryBuffer} (h : BufV full b b') (c : BinaryChunk) (pos pos' : Nat)
    (be be' : Rle.Encoder) :
    ResI (fun x y => y.result.numRows = c.len ∧ c.len ≤ x.result.numRows ∧
        ∃ v, x.data = y.data ++ v ∧ (x.result.numRows < 2 ^ 32 → IsValidity full v))
      (encodeBinaryBuffer p b c pos be) (encodeBinaryBuffer p b' c pos' be') := by
  simp only [encodeBinaryBuffer, itemLens_without p h, h.data, h.none]
  refine .bind (.refl _) fun d d' hd => ?_
  subst hd
  refine .bind (.refl _) fun a a' ha => ?_
  subst ha
  refine .bind (.refl _) fun ls ls' hls => ?_
  subst hls
  refine .bind (.refl _) fun z z' hz => ?_
  subst hz
  refine .bind (PrimitiveEnc.encodeValidity_without p h.all pos pos' c.len be be') fun x y hxy => ?_
  exact .ok ⟨hxy.2.1, hxy.2.2.1, x.2.1, by simp [hxy.1], hxy.2.2.2⟩

theorem addRows_without (c c' n n' : Nat) (hc : c' ≤ c) (hn : n' ≤ n) :
    ResI (fun x y => x = c + n ∧ y = c' + n' ∧ x < 2 ^ 32) (addRows c n) (addRows c' n') :=
  PrimitiveEnc.addRows_without c c' n n' hc hn

theorem writeBlock_without (m k : Nat) (p : Profile) {b b' : BinaryBuffer} (h : BufV full b b') (c : BinaryChunk) (pos pos' : Nat)
    (h1 : 1 ≤ k + c.len) :
    RunI (StatesV full m k) (StatesV full m 1) (fun _ _ => True) (writeBlock p recorder b c pos) (writeBlock p recorder b' c pos') := by
  refine .bind .get fun e e' he => ?_
  refine .bind (.lift (encodeBinaryBuffer_without p h c pos pos' _ _)) fun x y hxy => ?_
  obtain ⟨g1, g2, v, g3, g4⟩ := hxy
  refine .bind (R' := StatesV full m k) (.set ⟨he.remaining, he.size, he.size', he.rows, he.counted⟩) fun _ _ _ => ?_
  refine .bind (.lift (addRows_without _ _ _ _ he.rows (by omega))) fun n n' hn => ?_
  obtain ⟨hk1, hk2, hk3⟩ := hn
  have hr := he.rows
  have hc := he.counted
  refine .bind (R' := StatesV full m 1) (.set ⟨he.remaining, he.size, he.size', by simp only; omega, by simp only; omega⟩) fun _ _ _ => ?_
  refine .bind (.lift (sub_without p _ _ (by omega) (by omega))) fun id id' hid => ?_
  exact .bind (.emit ⟨hid, v, g3, g4 (by omega)⟩) fun _ _ _ => .pure trivial

theorem States.weaken {m k : Nat} : ∀ s t, StatesV full m k s t → StatesV full m 0 s t :=
  fun _ _ h => ⟨⟨h.1.remaining, h.1.size, h.1.size', h.1.rows, Nat.zero_le _⟩, h.2⟩

theorem findPosition_at (p : Profile) (o m : Nat) : ∀ (l : List Nat) (k q e : Nat),
    findPosition p o m l k = .ok (some (q, e)) → k ≤ q ∧ l[q - k]? = some e := by
  intro l
  induction l with
  | nil => intro k q e h; cases h
  | cons x l ih =>
    intro k q e h
    obtain ⟨d, _, h⟩ := ResI.inv h
    split at h
    · cases h
      simp
    · obtain ⟨h1, h2⟩ := ih (k + 1) q e h
      refine ⟨by omega, ?_⟩
      rw [show q - k = (q - (k + 1)) + 1 by omega, List.getElem?_cons_succ]
      exact h2

/-- A full chunk at the start of its buffer has an item. -/
theorem chunk_zero_len (p : Profile) (b : BinaryBuffer) (m : Nat) (c : BinaryChunk) (hc : chunk p b 0 m = .ok c)
    (hfull : 0 < c.size) : 1 ≤ c.len := by
  simp only [chunk] at hc
  obtain ⟨o, ho, hc⟩ := ResI.inv hc
  obtain ⟨f, _, hc⟩ := ResI.inv hc
  obtain ⟨⟨ep, eo⟩, hce, hc⟩ := ResI.inv hc
  simp only at hc
  obtain ⟨sz, hsz, hc⟩ := ResI.inv hc
  obtain ⟨ln, hln, hc⟩ := ResI.inv hc
  cases hc
  rw [Profile.sub_ok _ (Nat.zero_le ep)] at hln
  cases hln
  rcases ep with _ | ep
  · exfalso
    have heo : eo = o := by
      have ho' : b.offsets[0]? = some o := by
        simp only [index] at ho
        split at ho
        · rename_i v hv; cases ho; exact hv
        · cases ho
      simp only [chunkEnd] at hce
      split at hce
      · rename_i hf
        cases hce
        have := (findPosition_at p o m _ _ _ _ hf).2
        simp only [List.drop_zero, Nat.sub_self] at this
        rw [ho'] at this
        cases this; rfl
      · obtain ⟨last, hl, hce⟩ := ResI.inv hce
        simp only [pure_eq_ok, Except.ok.injEq, Prod.mk.injEq] at hce
        rw [hce.1, ho, hce.2] at hl
        cases hl; rfl
    subst heo
    rw [Profile.sub_ok _ (Nat.le_refl _)] at hsz
    cases hsz
    simp at hfull
  · simp

theorem encodeLoop_without (m : Nat) (hm : 0 < m) (p : Profile) {b b' : BinaryBuffer} (h : BufV full b b') (fuel : Nat) :
    ∀ (k bp vp vp' : Nat), (bp = 0 ∨ 1 ≤ k) → RunI (StatesV full m k) (StatesV full m 0) (fun _ _ => True)
      (encodeLoop p recorder b fuel bp vp) (encodeLoop p recorder b' fuel bp vp') := by
  induction fuel with
  | zero => intro k bp vp vp' _; exact .error
  | succ fuel ih =>
    intro k bp vp vp' hk
    rw [encodeLoop, encodeLoop, h.offsets]
    split
    · refine .bind .get fun e e' he => ?_
      rw [chunk_without p h, he.size, he.size']
      refine .bind (.lift (Q := fun x y => x = y ∧ chunk p b' bp m = .ok x) fun x hx => ⟨x, hx, rfl, hx⟩) fun c c' hc => ?_
      obtain ⟨rfl, hc⟩ := hc
      split
      · refine .bind (.lift (appendFrom_without p he.remaining h _ _ _ _)) fun x y hxy => ?_
        exact .set ⟨hxy.1, rfl, rfl, he.rows, Nat.zero_le _⟩
      · rename_i hlt
        refine .bind (writeBlock_without m k p h _ _ _ ?_) fun x y hxy => ih 1 _ _ _ (.inr (Nat.le_refl 1))
        rcases hk with rfl | hk
        · have := chunk_zero_len p b' m c hc (by omega)
          omega
        · omega
    · exact .mono (.pure trivial) States.weaken

theorem writeRemaining_without (m k : Nat) (p : Profile) :
    RunI (fun s t => StatesV full m k s t ∧ 0 < s.1.remaining.len) (StatesV full m 1) (fun _ _ => True) (writeRemaining p recorder)
      (writeRemaining p recorder) := by
  intro s t hR
  have he := hR.1.1
  simp only [writeRemaining, Run.bind_apply, Run.get_apply]
  rw [wholeChunk_without he.remaining]
  rcases hw : wholeChunk t.1.remaining with x | c
  · intro a s1 h; cases h
  · have hl : c.len = t.1.remaining.len := by
      simp only [wholeChunk] at hw
      split at hw
      · cases hw; rfl
      · cases hw
    have := he.remaining.len
    exact writeBlock_without m k p he.remaining c 0 0 (by omega) s t hR.1

theorem BufV.clear {b b' : BinaryBuffer} (h : BufV full b b') : BufV full b.clear b'.clear :=
  ⟨rfl, by simp only [BinaryBuffer.clear, h.offsets], by simp only [BinaryBuffer.clear, h.none, Option.map_none],
    fun _ => AllSet.clear⟩

theorem encode_without (m : Nat) (hm : 0 < m) (p : Profile) {b b' : BinaryBuffer} (h : BufV full b b') :
    RunI (StatesV full m 0) (StatesV full m 0) (fun _ _ => True) (encode p recorder b) (encode p recorder b') := by
  simp only [encode, h.offsets]
  refine .bind .get fun e e' he => ?_
  rw [he.remaining.len, he.size, he.size', he.remaining.data]
  split
  · rename_i hpos
    refine .bind (.lift (.refl _)) fun n n' hn => ?_
    subst hn
    rw [chunk_without p h]
    refine .bind (.lift (.refl _)) fun c c' hc => ?_
    subst hc
    refine .bind (.lift (appendFrom_without p he.remaining h _ _ _ _)) fun x y hxy => ?_
    obtain ⟨x, vp⟩ := x
    obtain ⟨y, vp'⟩ := y
    obtain ⟨h1, h2⟩ := hxy
    simp only at h1 h2
    have hx : 0 < x.len := by
      have := h2.length_le
      have hl := he.remaining.len
      simp only [BinaryBuffer.len] at hl hpos ⊢
      omega
    refine .bind (Q := fun _ _ => True) (R' := fun s t => StatesV full m 0 s t ∧ 0 < s.1.remaining.len) ?_ fun _ _ _ => ?_
    · intro s t hR a s1 ha
      cases ha
      exact ⟨(), _, rfl, trivial, ⟨⟨h1, rfl, rfl, he.rows, Nat.zero_le _⟩, hR.2⟩, hx⟩
    · simp only
      rw [h1.data]
      split
      · exact .pre (.pure trivial) fun _ _ h => h.1
      · refine .bind (writeRemaining_without m 0 p) fun _ _ _ => .bind .get fun e2 e2' he2 => ?_
        exact .bind (R' := StatesV full m 1) (.set ⟨he2.remaining.clear, he2.size, he2.size', he2.rows, he2.counted⟩) fun _ _ _ =>
          encodeLoop_without m hm p h _ 1 _ _ _ (.inr (Nat.le_refl 1))
  · exact encodeLoop_without m hm p h _ 0 _ _ _ (.inl rfl)

theorem flush_without (m : Nat) (p : Profile) :
    RunI (StatesV full m 0) (StatesV full m 0) (fun _ _ => True) (flush p recorder) (flush p recorder) := by
  intro s t hR
  have he := hR.1
  simp only [flush]
  intro a s1 h
  rw [Run.bind_apply, Run.get_apply] at h ⊢
  simp only at h ⊢
  rw [← he.remaining.len]
  split at h
  · rename_i hpos
    rw [if_pos hpos]
    exact RunI.bind ((writeRemaining_without m 0 p).mono States.weaken)
      (fun _ _ _ => RunI.pure (Q := fun _ _ => True) trivial) s t ⟨hR, hpos⟩ a s1 h
  · rename_i hpos
    rw [if_neg hpos]
    exact RunI.pure (Q := fun _ _ => True) trivial s t hR a s1 h

theorem encodeColumn_without (m : Nat) (hm : 0 < m) (p : Profile) {bs bs' : List BinaryBuffer}
    (h : Matched (BufV full) bs bs') :
    RunI (StatesV full m 0) (StatesV full m 0) (fun _ _ => True) (encodeColumn p recorder bs) (encodeColumn p recorder bs') := by
  refine .bind (Q := fun _ _ => True) ?_ fun _ _ _ => flush_without m p
  revert h
  refine Matched.induct (P := fun bs bs' => RunI (StatesV full m 0) (StatesV full m 0) (fun _ _ => True) (encodeAll p recorder bs)
    (encodeAll p recorder bs')) ?_ ?_ bs bs'
  · exact .pure trivial
  · intro x y xs ys hxy _ ih
    exact .bind (encode_without m hm p hxy) fun _ _ _ => ih

end BinaryEnc
end Meerkat
