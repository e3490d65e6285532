import Verif.Model.RleSteps
import Verif.Proofs.RleDecode

set_option autoImplicit false

/-! # Counting does not change the decoder; bounds on the count -/

namespace Meerkat

namespace Counted
variable {α β : Type}

@[simp] theorem result_bind (m : Counted α) (f : α → Counted β) :
    (m >>= f).result = m.result >>= fun a => (f a).result := by
  rcases m with ⟨r, n⟩
  cases r <;> rfl

@[simp] theorem result_pure (a : α) : (pure a : Counted α).result = .ok a := rfl
@[simp] theorem steps_pure (a : α) : (pure a : Counted α).steps = 0 := rfl
@[simp] theorem result_lift (r : Res α) : (lift r).result = r := rfl
@[simp] theorem steps_lift (r : Res α) : (lift r).steps = 0 := rfl
@[simp] theorem result_tick : tick.result = .ok () := rfl
@[simp] theorem steps_tick : tick.steps = 1 := rfl

theorem steps_bind_ok {m : Counted α} {f : α → Counted β} {a : α} (h : m.result = .ok a) :
    (m >>= f).steps = m.steps + (f a).steps := by
  rcases m with ⟨r, n⟩
  simp only [result] at h
  subst h
  rfl

theorem steps_bind_error {m : Counted α} {f : α → Counted β} {e : Panic} (h : m.result = .error e) :
    (m >>= f).steps = m.steps := by
  rcases m with ⟨r, n⟩
  simp only [result] at h
  subst h
  rfl

@[simp] theorem steps_tick_bind (f : Unit → Counted β) : (tick >>= f).steps = 1 + (f ()).steps :=
  steps_bind_ok (m := tick) rfl

theorem result_foldlM {σ : Type} (g : σ → α → Counted σ) (f : σ → α → Res σ) (h : ∀ s x, (g s x).result = f s x)
    (l : List α) : ∀ s, (l.foldlM g s).result = l.foldlM f s := by
  induction l with
  | nil => intro s; rfl
  | cons x l ih =>
    intro s
    simp only [List.foldlM_cons, result_bind, h, ih]

theorem steps_foldlM {σ : Type} (g : σ → α → Counted σ) (c : Nat) (h : ∀ s x, (g s x).steps ≤ c)
    (l : List α) : ∀ s, (l.foldlM g s).steps ≤ c * l.length := by
  induction l with
  | nil => intro s; simp
  | cons x l ih =>
    intro s
    simp only [List.foldlM_cons, List.length_cons]
    cases hr : (g s x).result with
    | error e =>
      rw [steps_bind_error hr]
      have := h s x
      rw [Nat.mul_add]; omega
    | ok a =>
      rw [steps_bind_ok hr]
      have := h s x
      have := ih a
      rw [Nat.mul_add]; omega

end Counted

namespace Rle.Decoder
open Counted Spec Varint

theorem result_byte (p : Profile) (d : Decoder) (b : Byte) : (decodeByteC p d b).result = decodeByte p d b := by
  simp only [decodeByteC, decodeByte]
  apply result_foldlM
  intro s x
  simp

theorem result_ones (p : Profile) (n : Nat) : ∀ d, (onesLoopC p n d).result = onesLoop p n d := by
  induction n with
  | zero => intro d; rfl
  | succ n ih => intro d; simp [onesLoopC, onesLoop, ih]

theorem result_bytes (p : Profile) (v : Byte) (n : Nat) : ∀ d, (bytesLoopC p v n d).result = bytesLoop p v n d := by
  induction n with
  | zero => intro d; rfl
  | succ n ih => intro d; simp [bytesLoopC, bytesLoop, ih, result_byte]

theorem result_frame (p : Profile) (d : Decoder) (f : Frame) : (decodeFrameC p d f).result = decodeFrame p d f := by
  cases f with
  | bitmap bs =>
    simp only [decodeFrameC, decodeFrame, decodeBitmapC, decodeBitmap]
    exact result_foldlM _ _ (result_byte p) _ _
  | run n v =>
    simp only [decodeFrameC, decodeFrame, decodeRunC, decodeRun]
    split
    · simp only [result_bind, result_lift]; rfl
    · split
      · exact result_ones p _ d
      · exact result_bytes p v n d

theorem result_loop (p : Profile) (fuel : Nat) : ∀ d, (decodeLoopC p fuel d).result = decodeLoop p fuel d := by
  induction fuel with
  | zero => intro d; rfl
  | succ n ih =>
    intro d
    simp only [decodeLoopC, decodeLoop]
    split
    · simp only [result_bind, result_tick, result_lift, ok_bind, result_frame, ih]
    · rfl

/-! ## How far the decoder gets -/

/-- `d'` is `d` after storing `n` values. -/
structure After (n : Nat) (d d' : Decoder) : Prop where
  enc : d'.encodedData = d.encodedData
  epos : d'.encodedDataPos = d.encodedDataPos
  len : d'.decodedData.length = d.decodedData.length
  dpos : d'.decodedDataPos = d.decodedDataPos + n
  room : d.decodedDataPos ≤ d.decodedData.length → d'.decodedDataPos ≤ d'.decodedData.length

theorem After.refl (d : Decoder) : After 0 d d := ⟨rfl, rfl, rfl, rfl, id⟩

theorem After.trans {m n : Nat} {a b c : Decoder} (h : After m a b) (k : After n b c) : After (m + n) a c :=
  ⟨k.enc.trans h.enc, k.epos.trans h.epos, k.len.trans h.len, by have := h.dpos; have := k.dpos; omega,
    fun g => k.room (h.room g)⟩

theorem bitStep_after {p : Profile} {d d' : Decoder} {b : Bool} (hs : bitStep p d b = .ok d') :
    After (if b then 1 else 0) d d' := by
  cases b with
  | false =>
    simp only [bitStep, Bool.false_eq_true, if_false, pure_eq_ok, ok_bind] at hs
    cases ha : p.add 32 d.bitmapPos 1 with
    | error e => rw [ha] at hs; simp at hs
    | ok v =>
      rw [ha] at hs
      simp only [ok_bind, Except.ok.injEq] at hs
      subst hs
      exact ⟨rfl, rfl, rfl, rfl, id⟩
  | true =>
    simp only [bitStep, if_true, store] at hs
    by_cases hlt : d.decodedDataPos < d.decodedData.length
    · rw [if_pos hlt] at hs
      simp only [ok_bind, pure_eq_ok] at hs
      cases ha : p.add 32 d.bitmapPos 1 with
      | error e => rw [ha] at hs; simp at hs
      | ok v =>
        rw [ha] at hs
        simp only [ok_bind, Except.ok.injEq] at hs
        subst hs
        exact ⟨rfl, rfl, by simp, rfl, fun _ => by simp only [List.length_set]; omega⟩
    · rw [if_neg hlt] at hs; simp at hs

theorem bitSteps_after {p : Profile} (bits : List Bool) : ∀ {d d' : Decoder} (_ : bitSteps p d bits = .ok d'),
    After (bits.count true) d d' := by
  induction bits with
  | nil => intro d d' hs; simp [bitSteps] at hs; subst hs; exact After.refl d
  | cons b bits ih =>
    intro d d' hs
    simp only [bitSteps, List.foldlM_cons] at hs
    cases h1 : bitStep p d b with
    | error e => rw [h1] at hs; simp at hs
    | ok d1 =>
      rw [h1] at hs
      have g := (bitStep_after h1).trans (ih hs)
      rw [show (b :: bits).count true = (if b then 1 else 0) + bits.count true by
        cases b <;> simp [Nat.add_comm]]
      exact g

theorem byteBits_count_pos {b : Byte} (h : b ≠ 0) : 1 ≤ (byteBits b).count true := by
  refine Nat.pos_of_ne_zero fun h0 => h (byteBits_inj ?_)
  have hz : ∀ l : List Bool, l.count true = 0 → l = List.replicate l.length false := by
    intro l hl
    rw [List.eq_replicate_iff]
    refine ⟨rfl, fun x hx => ?_⟩
    cases x with
    | false => rfl
    | true => exact absurd hl (by have := List.count_pos_iff.2 hx; omega)
  rw [hz _ h0, byteBits_length]
  decide

/-! ## The bounds -/

theorem steps_byte (p : Profile) (d : Decoder) (b : Byte) : (decodeByteC p d b).steps ≤ 8 := by
  refine Nat.le_trans (steps_foldlM _ 1 ?_ _ _) (by decide)
  intro s x
  simp

theorem steps_bitmap (p : Profile) (d : Decoder) (bs : Bytes) : (decodeBitmapC p d bs).steps ≤ 8 * bs.length :=
  steps_foldlM _ 8 (steps_byte p) bs d

/-- Each step of a run of ones stores a value or is the last. -/
theorem steps_ones (p : Profile) (n : Nat) : ∀ (d : Decoder) (_ : d.decodedDataPos ≤ d.decodedData.length),
    (onesLoopC p n d).steps ≤ d.decodedData.length - d.decodedDataPos + 1 ∧
    ∀ d', (onesLoopC p n d).result = .ok d' → (onesLoopC p n d).steps = d'.decodedDataPos - d.decodedDataPos := by
  induction n with
  | zero =>
    intro d _
    refine ⟨by simp [onesLoopC], fun d' h => ?_⟩
    simp only [onesLoopC, result_lift, Except.ok.injEq] at h
    subst h
    simp [onesLoopC]
  | succ n ih =>
    intro d hd
    simp only [onesLoopC, steps_tick_bind, result_bind, result_tick, ok_bind, result_lift]
    cases h1 : d.store with
    | error e =>
      rw [steps_bind_error (by rfl)]
      exact ⟨by simp, fun d' h => by simp at h⟩
    | ok d1 =>
      rw [steps_bind_ok (by rfl)]
      simp only [store] at h1
      split at h1
      · rename_i hlt
        simp only [Except.ok.injEq] at h1
        subst h1
        simp only [ok_bind, steps_lift, Nat.zero_add]
        cases h2 : p.add 32 d.bitmapPos 1 with
        | error e =>
          rw [steps_bind_error (by rfl)]
          exact ⟨by simp, fun d' h => by simp at h⟩
        | ok v =>
          rw [steps_bind_ok (by rfl)]
          simp only [ok_bind, steps_lift, Nat.zero_add]
          obtain ⟨k1, k2⟩ := ih { d with
              decodedData := d.decodedData.set d.decodedDataPos d.bitmapPos
              bitmapPos := v
              decodedDataPos := d.decodedDataPos + 1 } (by simp only [List.length_set]; omega)
          simp only [List.length_set] at k1 k2
          refine ⟨by omega, fun d' h => ?_⟩
          have k3 := k2 d' h
          rw [result_ones, onesLoop_eq] at h
          have := (bitSteps_after _ h).dpos
          simp only at this
          omega
      · simp at h1

/-- Each eight steps of a run of another byte store a value or are the last. -/
theorem steps_bytes (p : Profile) {v : Byte} (hv : v ≠ 0) (n : Nat) : ∀ (d : Decoder)
    (_ : d.decodedDataPos ≤ d.decodedData.length),
    (bytesLoopC p v n d).steps ≤ 8 * (d.decodedData.length - d.decodedDataPos + 1) ∧
    ∀ d', (bytesLoopC p v n d).result = .ok d' →
      (bytesLoopC p v n d).steps ≤ 8 * (d'.decodedDataPos - d.decodedDataPos) := by
  induction n with
  | zero =>
    intro d _
    exact ⟨by simp [bytesLoopC], fun d' h => by simp [bytesLoopC]⟩
  | succ n ih =>
    intro d hd
    have hb := steps_byte p d v
    simp only [bytesLoopC, result_bind, result_byte, result_bytes]
    cases h1 : decodeByte p d v with
    | error e =>
      rw [steps_bind_error (by rw [result_byte]; exact h1)]
      exact ⟨by omega, fun d' h => by simp at h⟩
    | ok d1 =>
      rw [steps_bind_ok (by rw [result_byte]; exact h1)]
      have ha : After ((byteBits v).count true) d d1 := by rw [decodeByte_eq] at h1; exact bitSteps_after _ h1
      have hc := byteBits_count_pos hv
      have h2 := ha.dpos
      have h3 := ha.len
      have h4 := ha.room hd
      obtain ⟨k1, k2⟩ := ih d1 h4
      refine ⟨by omega, fun d' h => ?_⟩
      simp only [ok_bind] at h
      have k3 := k2 d' (by rw [result_bytes]; exact h)
      rw [bytesLoop_eq] at h
      have := (bitSteps_after _ h).dpos
      omega

/-- The bytes of a literal frame. -/
def _root_.Meerkat.Rle.Frame.literal : Frame → Nat
  | .run _ _ => 0
  | .bitmap bs => bs.length

theorem frame_after {p : Profile} {d d' : Decoder} {f : Frame} (hs : d.decodeFrame p f = .ok d') :
    ∃ n, After n d d' := by
  cases f with
  | bitmap bs =>
    simp only [decodeFrame, decodeBitmap_eq] at hs
    exact ⟨_, bitSteps_after _ hs⟩
  | run n v =>
    simp only [decodeFrame, decodeRun] at hs
    split at hs
    · cases ha : p.add 32 d.bitmapPos (shl 32 n 3) with
      | error e => rw [ha] at hs; simp at hs
      | ok k =>
        rw [ha] at hs
        simp only [ok_bind, pure_eq_ok, Except.ok.injEq] at hs
        subst hs
        exact ⟨0, rfl, rfl, rfl, rfl, id⟩
    · split at hs
      · rw [onesLoop_eq] at hs; exact ⟨_, bitSteps_after _ hs⟩
      · rw [bytesLoop_eq] at hs; exact ⟨_, bitSteps_after _ hs⟩

theorem steps_frame (p : Profile) (d : Decoder) (f : Frame) (hd : d.decodedDataPos ≤ d.decodedData.length) :
    (decodeFrameC p d f).steps ≤ 8 * f.literal + 8 * (d.decodedData.length - d.decodedDataPos + 1) ∧
    ∀ d', (decodeFrameC p d f).result = .ok d' →
      (decodeFrameC p d f).steps ≤ 8 * f.literal + 8 * (d'.decodedDataPos - d.decodedDataPos) := by
  cases f with
  | bitmap bs =>
    have := steps_bitmap p d bs
    simp only [decodeFrameC, Frame.literal]
    exact ⟨by omega, fun _ _ => by omega⟩
  | run n v =>
    simp only [decodeFrameC, decodeRunC, Frame.literal]
    split
    · have : (lift (p.add 32 d.bitmapPos (shl 32 n 3)) >>= fun pos =>
          lift (.ok { d with bitmapPos := pos }) : Counted Decoder).steps = 0 := by
        cases h : p.add 32 d.bitmapPos (shl 32 n 3) with
        | error e => rw [steps_bind_error (by rfl)]; rfl
        | ok k => rw [steps_bind_ok (by rfl)]; rfl
      rw [this]
      exact ⟨by omega, fun _ _ => by omega⟩
    · rename_i hv
      split
      · obtain ⟨k1, k2⟩ := steps_ones p (shl 32 n 3) d hd
        exact ⟨by omega, fun d' h => by have := k2 d' h; omega⟩
      · obtain ⟨k1, k2⟩ := steps_bytes p hv n d hd
        exact ⟨by omega, fun d' h => by have := k2 d' h; omega⟩

theorem readFrame_cost {p : Profile} {d d' : Decoder} {f : Frame} (hs : d.readFrame p = .ok (d', f)) :
    d'.encodedData = d.encodedData ∧ d'.decodedData = d.decodedData ∧ d'.decodedDataPos = d.decodedDataPos ∧
    d.encodedDataPos + f.literal + 1 ≤ d'.encodedDataPos ∧ d'.encodedDataPos ≤ d.encodedData.length := by
  simp only [readFrame] at hs
  cases h1 : slice d.encodedData d.encodedDataPos d.encodedData.length with
  | error e => rw [h1] at hs; simp at hs
  | ok tail =>
    rw [h1] at hs
    simp only [ok_bind] at hs
    cases h2 : decodeVarint p tail with
    | error e => rw [h2] at hs; simp at hs
    | ok o =>
      rw [h2] at hs
      simp only [ok_bind] at hs
      cases o with
      | none => simp at hs
      | some hv =>
        obtain ⟨header, n⟩ := hv
        have hn : 1 ≤ n := (decode_some_pos h2).1
        simp only at hs
        split at hs
        · split at hs
          · simp only [slice] at hs
            split at hs
            · rename_i hle
              simp only [ok_bind, pure_eq_ok, Except.ok.injEq, Prod.mk.injEq] at hs
              obtain ⟨rfl, rfl⟩ := hs
              simp only [Frame.literal, List.length_take, List.length_drop]
              refine ⟨trivial, trivial, trivial, ?_, ?_⟩ <;> omega
            · simp at hs
          · cases h3 : index d.encodedData (d.encodedDataPos + n) with
            | error e => rw [h3] at hs; simp at hs
            | ok v =>
              rw [h3] at hs
              simp only [ok_bind, pure_eq_ok, Except.ok.injEq, Prod.mk.injEq] at hs
              obtain ⟨rfl, rfl⟩ := hs
              have hlt : d.encodedDataPos + n < d.encodedData.length := by
                simp only [index] at h3
                split at h3
                · rename_i x hx
                  exact (List.getElem?_eq_some_iff.1 hx).1
                · simp at h3
              simp only [Frame.literal]
              refine ⟨trivial, trivial, trivial, ?_, ?_⟩ <;> omega
        · simp at hs

theorem steps_loop (p : Profile) (fuel : Nat) : ∀ (d : Decoder) (_ : d.encodedDataPos ≤ d.encodedData.length)
    (_ : d.decodedDataPos ≤ d.decodedData.length),
    (decodeLoopC p fuel d).steps ≤
      8 * (d.encodedData.length - d.encodedDataPos + (d.decodedData.length - d.decodedDataPos) + 1) := by
  induction fuel with
  | zero => intro d _ _; simp [decodeLoopC]
  | succ fuel ih =>
    intro d he hd
    simp only [decodeLoopC]
    split
    · rw [steps_tick_bind]
      cases h1 : d.readFrame p with
      | error e => rw [steps_bind_error (by rfl)]; simp only [steps_lift]; omega
      | ok x =>
        obtain ⟨d1, f⟩ := x
        rw [steps_bind_ok (by rfl)]
        simp only [steps_lift, Nat.zero_add]
        obtain ⟨g1, g2, g3, g4, g5⟩ := readFrame_cost h1
        have g6 : d1.decodedData.length = d.decodedData.length := by rw [g2]
        have g7 : d1.encodedData.length = d.encodedData.length := by rw [g1]
        obtain ⟨k1, k2⟩ := steps_frame p d1 f (by omega)
        cases h2 : (decodeFrameC p d1 f).result with
        | error e => rw [steps_bind_error h2]; omega
        | ok d2 =>
          rw [steps_bind_ok h2]
          have k3 := k2 d2 h2
          rw [result_frame] at h2
          obtain ⟨n, ha⟩ := frame_after h2
          have a1 := ha.len
          have a2 := ha.dpos
          have a3 := ha.epos
          have a4 := ha.room (by omega)
          have a5 : d2.encodedData.length = d1.encodedData.length := by rw [ha.enc]
          have := ih d2 (by omega) a4
          omega
    · simp

end Rle.Decoder
end Meerkat
