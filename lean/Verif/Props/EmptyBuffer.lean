import Verif.Spec.Calls
import Verif.Proofs.Segment
import Verif.Props.Mismatch
import Verif.Props.RetryHeld

set_option autoImplicit false

/-! # C77: a buffer without rows changes nothing -/

namespace Meerkat
open Spec
variable {α : Type} [Element α] {S : Type}

theorem validityAppendFrom_isSome {d s v : Option Bitmap} {pos n q : Nat}
    (h : validityAppendFrom d s pos n = .ok (v, q)) : v.isSome = d.isSome := by
  rcases d with _ | d <;> rcases s with _ | s
  · cases h; rfl
  · cases h
  · cases h
  · simp only [validityAppendFrom] at h
    rcases h6 : d.appendFrom s pos n with x | ⟨bm, r⟩
    · rw [h6] at h; cases h
    · rw [h6] at h; cases h; rfl

theorem validityAppendFrom_zero {d s : Option Bitmap} (h : d.isSome = s.isSome) (pos : Nat) :
    ∃ q, validityAppendFrom d s pos 0 = .ok (d, q) := by
  rcases d with _ | d <;> rcases s with _ | s
  · exact ⟨_, rfl⟩
  · cases h
  · cases h
  · refine ⟨pos, ?_⟩
    simp [validityAppendFrom, Bitmap.appendFrom, Bitmap.appendFromLoop]

namespace PrimitiveEnc

omit [Element α] in
theorem appendFrom_kept {d b d' : PrimitiveBuffer α} {i j pos q : Nat} (h : d.appendFrom b i j pos = .ok (d', q)) :
    d'.len < U32_MAX ∧ d'.isNullable = d.isNullable := by
  rw [PrimitiveBuffer.appendFrom] at h
  rcases hs : slice b.values i j with x | c
  · rw [hs] at h; cases h
  rw [hs, ok_bind] at h
  simp only at h
  split at h
  · rename_i hU
    rcases hv : validityAppendFrom d.validity b.validity pos (j - i) with x | ⟨v, q'⟩
    · rw [hv] at h; cases h
    rw [hv] at h
    cases h
    exact ⟨hU, validityAppendFrom_isSome hv⟩
  · cases h

/-- What holds of the rows held back, as long as no call failed. -/
structure Tidy (p : Profile) (m : Nat) (nullable : Bool) (e : Encoder α) : Prop where
  size : e.minBlockSize = m
  nullable : e.remaining.isNullable = nullable
  fits : e.remaining.len < U32_MAX
  lt : e.remaining.len < m
  le : m % Element.size α = 0 → e.remaining.len * Element.size α ≤ m
  near : p = .debug → e.remaining.len * Element.size α < m + Element.size α

theorem Tidy.new {p : Profile} {m : Nat} (hm : 0 < m) (nullable : Bool) : Tidy p m nullable (Encoder.new m nullable : Encoder α) where
  size := rfl
  nullable := by cases nullable <;> rfl
  fits := by simp [Encoder.new, PrimitiveBuffer.new, PrimitiveBuffer.len, U32_MAX]
  lt := by simpa [Encoder.new, PrimitiveBuffer.new, PrimitiveBuffer.len] using hm
  le := fun _ => by simp [Encoder.new, PrimitiveBuffer.new, PrimitiveBuffer.len]
  near := fun _ => by simp only [Encoder.new, PrimitiveBuffer.new, PrimitiveBuffer.len, List.length_nil]; omega

theorem Tidy.frame {p : Profile} {m : Nat} {nullable : Bool} {e e' : Encoder α} (h : Tidy p m nullable e)
    (h1 : e'.remaining = e.remaining) (h2 : e'.minBlockSize = e.minBlockSize) : Tidy p m nullable e' :=
  ⟨h2.trans h.size, by rw [h1]; exact h.nullable, by rw [h1]; exact h.fits, by rw [h1]; exact h.lt, by rw [h1]; exact h.le,
    by rw [h1]; exact h.near⟩

theorem Tidy.loop (p : Profile) (k : Sink S) (b : PrimitiveBuffer α) {m : Nat} {nullable : Bool} (fuel : Nat) :
    ∀ (bp vp : Nat) (e e' : Encoder α) (s s' : S), Tidy p m nullable e → e.remaining.len = 0 →
    encodeLoop p k b fuel bp vp (e, s) = (.ok (), (e', s')) → Tidy p m nullable e' := by
  induction fuel with
  | zero => intro bp vp e e' s s' _ _ h; cases (Prod.mk.inj h).1
  | succ fuel ih =>
    intro bp vp e e' s s' ht h0 h
    rw [encodeLoop] at h
    split at h
    · rw [Run.bind_ok (Run.get_apply _)] at h
      dsimp only at h
      rcases hc : chunk p b bp e.minBlockSize with x | stop
      · rw [hc] at h; cases (Prod.mk.inj h).1
      rw [hc, Run.bind_ok (Run.lift_ok _ _)] at h
      rcases hn : p.sub 64 stop bp with x | n
      · rw [hn] at h; cases (Prod.mk.inj h).1
      rw [hn, Run.bind_ok (Run.lift_ok _ _)] at h
      split at h
      · rename_i hlt
        rcases ha : e.remaining.appendFrom b bp stop vp with x | ⟨rem, q⟩
        · rw [ha] at h; cases (Prod.mk.inj h).1
        · rw [ha, Run.bind_ok (Run.lift_ok _ _)] at h
          simp only [Run.set_apply, Prod.mk.injEq, true_and] at h
          rw [← h.1]
          obtain ⟨g1, g2⟩ := appendFrom_length ha
          obtain ⟨g3, g4⟩ := appendFrom_kept ha
          rw [p.sub_ok g1] at hn
          cases hn
          rw [ht.size] at hlt
          have hs : 0 < Element.size α := by rcases Element.size_eq (α := α) with h | h <;> omega
          have hle : stop - bp ≤ (stop - bp) * Element.size α := Nat.le_mul_of_pos_right _ hs
          rw [h0, Nat.zero_add] at g2
          exact ⟨ht.size, g4.trans ht.nullable, g3, by simp only [g2]; omega, fun _ => by simp only [g2]; omega,
            fun _ => by simp only [g2]; omega⟩
      · rcases hw : writeBlock p k b bp stop vp (e, s) with ⟨_ | r, e1, s1⟩
        · rw [Run.bind_error hw] at h; cases (Prod.mk.inj h).1
        · rw [Run.bind_ok hw] at h
          obtain ⟨g1, g2⟩ := writeRange_frame p k b bp stop vp e s
          rw [writeBlock] at hw
          rw [hw] at g1 g2
          exact ih _ _ _ _ _ _ (ht.frame g1 g2) (by rw [g1]; exact h0) h
    · cases h; exact ht

theorem Tidy.encode (p : Profile) (k : Sink S) (b : PrimitiveBuffer α) {m : Nat} (hm : 0 < m) {nullable : Bool}
    {e e' : Encoder α} {s s' : S} (ht : Tidy p m nullable e) (h : encode p k b (e, s) = (.ok (), (e', s'))) :
    Tidy p m nullable e' := by
  rw [PrimitiveEnc.encode, encodeFuel, Run.bind_ok (Run.get_apply _)] at h
  dsimp only at h
  have hs : 2 ≤ Element.size α := by rcases Element.size_eq (α := α) with h | h <;> omega
  split at h
  · rename_i hl
    rcases h1 : p.sub 64 e.minBlockSize (e.remaining.len * Element.size α) with x | room
    · rw [h1] at h; cases (Prod.mk.inj h).1
    rw [h1, Run.bind_ok (Run.lift_ok _ _)] at h
    rcases h2 : chunk p b 0 room with x | stop
    · rw [h2] at h; cases (Prod.mk.inj h).1
    rw [h2, Run.bind_ok (Run.lift_ok _ _)] at h
    rcases h3 : e.remaining.appendFrom b 0 stop 0 with x | ⟨rem, q⟩
    · rw [h3] at h; cases (Prod.mk.inj h).1
    obtain ⟨g1, g2⟩ := appendFrom_length h3
    obtain ⟨g3, g4⟩ := appendFrom_kept h3
    rw [h3, Run.bind_ok (Run.lift_ok _ _), Run.bind_ok (Run.set_apply _ _)] at h
    dsimp only at h
    have hle : m % Element.size α = 0 → rem.len * Element.size α ≤ m := by
      intro hmul
      have h4 := ht.le hmul
      rw [ht.size, p.sub_ok h4] at h1
      cases h1
      have h5 := chunk_le h2
      obtain ⟨c, rfl⟩ := Nat.dvd_of_mod_eq_zero hmul
      rw [Nat.mul_comm _ c, ← Nat.sub_mul, Nat.mul_div_cancel _ (by omega), Nat.mul_mod_left] at h5
      rw [Nat.mul_comm _ c]
      rw [Nat.mul_comm _ c] at h4
      have h6 := Nat.le_of_mul_le_mul_right h4 (by omega)
      refine Nat.mul_le_mul_right _ ?_
      simp only [ne_eq, not_true_eq_false, if_false] at h5
      omega
    have hnear : p = .debug → rem.len * Element.size α < m + Element.size α := by
      rintro rfl
      have h4 : e.remaining.len * Element.size α ≤ m ∧ room = m - e.remaining.len * Element.size α := by
        simp only [Profile.sub, ht.size] at h1
        split at h1
        · rename_i hc
          cases h1
          exact ⟨hc, rfl⟩
        · cases h1
      obtain ⟨h4, rfl⟩ := h4
      have h5 := chunk_le h2
      rw [g2, Nat.add_mul]
      generalize e.remaining.len * Element.size α = held at *
      have h6 : stop * Element.size α < m - held + Element.size α := by
        rcases Element.size_eq (α := α) with hz | hz <;> rw [hz] at h5 ⊢ <;> split at h5 <;> omega
      simp only [Nat.sub_zero]
      omega
    split at h
    · rename_i hlt
      cases h
      exact ⟨ht.size, g4.trans ht.nullable, g3, by rw [← ht.size]; exact hlt, hle, hnear⟩
    · rcases hw : writeRemaining p k ({ e with remaining := rem }, s) with ⟨_ | r, e1, s1⟩
      · rw [Run.bind_error hw] at h; cases (Prod.mk.inj h).1
      · rw [Run.bind_ok hw, Run.bind_ok (Run.get_apply _), Run.bind_ok (Run.set_apply _ _)] at h
        obtain ⟨k1, k2⟩ := writeRange_frame p k rem 0 rem.len 0 { e with remaining := rem } s
        have hw : writeRange p k rem 0 rem.len 0 ({ e with remaining := rem }, s) = (.ok r, (e1, s1)) := hw
        rw [hw] at k1 k2
        refine Tidy.loop p k b _ _ _ { e1 with remaining := e1.remaining.clear } _ _ _ ⟨k2.trans ht.size, ?_, ?_, ?_, ?_, ?_⟩ rfl h
        · dsimp only at k1 ⊢
          rw [k1, ← ht.nullable, ← g4]
          simp [PrimitiveBuffer.isNullable, PrimitiveBuffer.clear]
        · simp [PrimitiveBuffer.clear, PrimitiveBuffer.len, U32_MAX]
        · simpa [PrimitiveBuffer.clear, PrimitiveBuffer.len] using hm
        · simp [PrimitiveBuffer.clear, PrimitiveBuffer.len]
        · simp only [PrimitiveBuffer.clear, PrimitiveBuffer.len, List.length_nil]; omega
  · rename_i hl
    exact Tidy.loop p k b _ _ _ _ _ _ _ ht (by omega) h

theorem Tidy.flush (p : Profile) (k : Sink S) {m : Nat} {nullable : Bool} {e e' : Encoder α} {s s' : S}
    (ht : Tidy p m nullable e) (h : flush p k (e, s) = (.ok (), (e', s'))) : Tidy p m nullable e' := by
  rw [PrimitiveEnc.flush, Run.bind_ok (Run.get_apply _)] at h
  dsimp only at h
  split at h
  · rcases hw : writeRemaining p k (e, s) with ⟨_ | r, e1, s1⟩
    · rw [Run.bind_error hw] at h; cases (Prod.mk.inj h).1
    · rw [Run.bind_ok hw] at h
      cases h
      obtain ⟨k1, k2⟩ := writeRange_frame p k e.remaining 0 e.remaining.len 0 e s
      have hw : writeRange p k e.remaining 0 e.remaining.len 0 (e, s) = (.ok r, (e', s')) := hw
      rw [hw] at k1 k2
      exact ht.frame k1 k2
  · cases h; exact ht

/-- `encode` of a buffer without values. -/
theorem encode_empty (p : Profile) (k : Sink S) (b : PrimitiveBuffer α) (hb : b.len = 0) {m : Nat} (hm : m < 2 ^ 64)
    {nullable : Bool} (hn : b.isNullable = nullable) {e : Encoder α} (ht : Tidy p m nullable e) (s : S) :
    encode p k b (e, s) =
      if p = .debug ∧ m < e.remaining.len * Element.size α then (.error (.panic .overflow), (e, s)) else (.ok (), (e, s)) := by
  have hloop : ∀ st, encodeLoop p k b (b.len + 1) 0 0 st = (.ok (), st) := by
    intro st
    rw [encodeLoop, if_neg (by omega)]
    rfl
  rw [encode, encodeFuel, Run.bind_ok (Run.get_apply _)]
  dsimp only
  split
  · rename_i hl
    have hc : ∀ room, room < 2 ^ 64 → chunk p b 0 room = .ok 0 := by
      intro room hr
      have h1 : 0 + (room / Element.size α + (if room % Element.size α ≠ 0 then 1 else 0)) < 2 ^ 64 := by
        have h2 : room / Element.size α < 2 ^ 62 := by
          rcases Element.size_eq (α := α) with h | h <;> rw [h] <;> omega
        split <;> omega
      simp only [chunk]
      generalize room / Element.size α + (if room % Element.size α ≠ 0 then 1 else 0) = n at h1 ⊢
      simp only [p.add_ok h1, ok_bind, hb]
      split
      · rfl
      · rename_i h3
        rw [Nat.eq_zero_of_not_pos h3]
        rfl
    have ha : ∃ q, e.remaining.appendFrom b 0 0 0 = .ok (e.remaining, q) := by
      obtain ⟨q, hq⟩ := validityAppendFrom_zero (d := e.remaining.validity) (s := b.validity)
        (by have h1 := ht.nullable; simp only [PrimitiveBuffer.isNullable] at h1 hn; rw [h1, hn]) 0
      refine ⟨q, ?_⟩
      have hf := ht.fits
      simp only [PrimitiveBuffer.len] at hf
      have hf : U32_MAX > e.remaining.values.length := hf
      simp only [PrimitiveBuffer.appendFrom, slice, Nat.le_refl, Nat.zero_le, and_self, if_true, ok_bind, Nat.sub_self,
        List.take_zero, List.append_nil, if_pos hf, hq, pure_eq_ok]
    obtain ⟨q, hq⟩ := ha
    rcases hsub : p.sub 64 e.minBlockSize (e.remaining.len * Element.size α) with x | room
    · simp only [Profile.sub, ht.size] at hsub
      split at hsub
      · cases hsub
      · cases p with
        | debug => cases hsub; rw [if_pos ⟨rfl, by omega⟩]; rfl
        | release => cases hsub
    · have hr : room < 2 ^ 64 ∧ ¬ (p = .debug ∧ m < e.remaining.len * Element.size α) := by
        simp only [Profile.sub, ht.size] at hsub
        split at hsub
        · cases hsub; omega
        · cases p with
          | debug => cases hsub
          | release => cases hsub; exact ⟨Nat.mod_lt _ (by decide), by simp⟩
      rw [if_neg hr.2, Run.bind_ok (Run.lift_ok _ _), hc room hr.1, Run.bind_ok (Run.lift_ok _ _), hq,
        Run.bind_ok (Run.lift_ok _ _), Run.bind_ok (Run.set_apply _ _)]
      dsimp only
      rw [if_pos (by rw [ht.size]; exact ht.lt)]
      rfl
  · rename_i hl
    have h0 : e.remaining.len = 0 := by omega
    rw [hloop, if_neg (by rw [h0]; omega)]

theorem Tidy.calls (p : Profile) (k : Sink S) {m : Nat} (hm : 0 < m) {nullable : Bool}
    (cs : List (EncCall (PrimitiveBuffer α))) {e e' : Encoder α} {s s' : S} (ht : Tidy p m nullable e)
    (h : calls p k cs (e, s) = (.ok (), (e', s'))) : Tidy p m nullable e' := by
  induction cs generalizing e s with
  | nil => cases h; exact ht
  | cons c cs ih =>
    cases c with
    | encode b =>
      obtain ⟨_, ⟨e1, s1⟩, h1, h2⟩ := bind_inv h
      exact ih (ht.encode p k b hm h1) h2
    | flush =>
      obtain ⟨_, ⟨e1, s1⟩, h1, h2⟩ := bind_inv h
      exact ih (ht.flush p k h1) h2

end PrimitiveEnc

/-- C77 for the primitive encoder, exactly: after any calls that returned normally, `encode` of a buffer without values
changes nothing and gives the sink nothing, except that it panics in a build with overflow checks when more than a block is
held back. -/
theorem C77_primitive_exact (p : Profile) (k : Sink S) (nullable : Bool) (m : Nat) (hm : 0 < m) (hm' : m < 2 ^ 64)
    (cs : List (EncCall (PrimitiveBuffer α))) (e : PrimitiveEnc.Encoder α) (s0 s : S)
    (hcs : PrimitiveEnc.calls p k cs (PrimitiveEnc.Encoder.new m nullable, s0) = (.ok (), (e, s)))
    (b : PrimitiveBuffer α) (hb : b.len = 0) (hn : b.isNullable = nullable) :
    PrimitiveEnc.encode p k b (e, s) =
      if p = .debug ∧ m < e.remaining.len * Element.size α then (.error (.panic .overflow), (e, s)) else (.ok (), (e, s)) :=
  PrimitiveEnc.encode_empty p k b hb hm' hn (PrimitiveEnc.Tidy.calls p k hm cs (.new hm nullable) hcs) s

/-- C77 for the primitive encoder with block sizes that are multiples of the element size, and in builds without overflow
checks: all buffers without values can be left out of any sequence of calls. -/
theorem C77_primitive_partial (p : Profile) (k : Sink S) (nullable : Bool) (m : Nat) (hm : 0 < m) (hm' : m < 2 ^ 64)
    (hmul : p = .release ∨ m % Element.size α = 0) (cs : List (EncCall (PrimitiveBuffer α)))
    (hcs : ∀ b, .encode b ∈ cs → b.len = 0 → b.isNullable = nullable) (s : S) :
    PrimitiveEnc.calls p k cs (PrimitiveEnc.Encoder.new m nullable, s) =
      PrimitiveEnc.calls p k (cs.filter (·.notEmpty PrimitiveBuffer.len)) (PrimitiveEnc.Encoder.new m nullable, s) := by
  have key : ∀ (e : PrimitiveEnc.Encoder α) (s : S), PrimitiveEnc.Tidy p m nullable e →
      PrimitiveEnc.calls p k cs (e, s) = PrimitiveEnc.calls p k (cs.filter (·.notEmpty PrimitiveBuffer.len)) (e, s) := by
    induction cs with
    | nil => intro e s _; rfl
    | cons c cs ih =>
      intro e s ht
      have ih := ih fun b hb => hcs b (by simp [hb])
      cases c with
      | flush =>
        have hf : (EncCall.flush :: cs).filter (·.notEmpty PrimitiveBuffer.len) =
            .flush :: cs.filter (·.notEmpty (PrimitiveBuffer.len (α := α))) := rfl
        rw [hf, PrimitiveEnc.calls, PrimitiveEnc.calls, Run.bind_apply, Run.bind_apply]
        rcases h1 : PrimitiveEnc.flush p k (e, s) with ⟨x | x, e1, s1⟩
        · rfl
        · exact ih _ _ (ht.flush p k h1)
      | encode b =>
        by_cases hb : b.len = 0
        · have hf : (EncCall.encode b :: cs).filter (·.notEmpty PrimitiveBuffer.len) =
              cs.filter (·.notEmpty PrimitiveBuffer.len) := by
            rw [List.filter_cons_of_neg]; simp [EncCall.notEmpty, hb]
          have h1 := PrimitiveEnc.encode_empty p k b hb hm' (hcs b (by simp) hb) ht s
          rw [if_neg] at h1
          · rw [hf, PrimitiveEnc.calls, Run.bind_ok h1]
            exact ih _ _ ht
          · rintro ⟨rfl, hgt⟩
            rcases hmul with h | h
            · cases h
            · have := ht.le h
              omega
        · have hf : (EncCall.encode b :: cs).filter (·.notEmpty PrimitiveBuffer.len) =
              .encode b :: cs.filter (·.notEmpty PrimitiveBuffer.len) := by
            rw [List.filter_cons_of_pos]; simp [EncCall.notEmpty, hb]
          rw [hf, PrimitiveEnc.calls, PrimitiveEnc.calls, Run.bind_apply, Run.bind_apply]
          rcases h1 : PrimitiveEnc.encode p k b (e, s) with ⟨x | x, e1, s1⟩
          · rfl
          · exact ih _ _ (ht.encode p k b hm h1)
  exact key _ s (.new hm nullable)

/-- Three values of four bytes are held back of a block of ten bytes: with overflow checks the room left underflows. -/
theorem C77_primitive_violated : ¬ ∀ (p : Profile) (nullable : Bool) (m : Nat), 0 < m → m < 2 ^ 64 →
    ∀ (cs : List (EncCall (PrimitiveBuffer Int32))), (∀ b, .encode b ∈ cs → b.isNullable = nullable) →
      PrimitiveEnc.calls p recorder cs (PrimitiveEnc.Encoder.new m nullable, []) =
        PrimitiveEnc.calls p recorder (cs.filter (·.notEmpty PrimitiveBuffer.len)) (PrimitiveEnc.Encoder.new m nullable, []) := by
  intro H
  have h1 := H .debug false 10 (by decide) (by decide) [.encode { values := [1], validity := none },
    .encode { values := [2, 3], validity := none }, .encode { values := [], validity := none }]
    (by simp [PrimitiveBuffer.isNullable])
  have h2 := congrArg (fun r => r.1) h1
  revert h2
  decide +kernel

/-- Empty buffers before, between and after others: nothing changes. -/
example :
    let some3 : PrimitiveBuffer Int32 := { values := [1, 2, 3], validity := none }
    let none0 : PrimitiveBuffer Int32 := PrimitiveBuffer.new false
    let run := PrimitiveEnc.calls .debug recorder [.encode none0, .encode some3, .encode none0, .encode some3, .flush, .encode none0]
      (PrimitiveEnc.Encoder.new 8 false, [])
    run.1 = .ok () ∧ run.2.2.map Prod.fst = [1, 3] ∧
    run.2.2 = (PrimitiveEnc.calls .debug recorder [.encode some3, .encode some3, .flush] (PrimitiveEnc.Encoder.new 8 false, [])).2.2 := by
  decide +kernel

namespace BinaryEnc
open BinaryBuffer

theorem items_of_shows {b : BinaryBuffer} {nullable : Bool} {rows : List (Option Bytes)} (h : b.Shows nullable rows) :
    Items b (valuesOf rows) where
  data := h.allData
  offsets := by
    have key : ∀ i, i ≤ (valuesOf rows).length → b.offsets[i]? = some (0 + ((valuesOf rows).take i).flatten.length) := by
      intro i
      induction i with
      | zero => intro _; simpa using h.first
      | succ i ih =>
        intro hi
        obtain ⟨lo, hj, h1, h2, h3⟩ := h.items i (by omega)
        rw [ih (by omega)] at h1
        cases h1
        rw [h2, List.take_succ_eq_append_getElem (by omega), List.flatten_append, List.length_append]
        simp only [slice] at h3
        split at h3
        · rename_i hc
          have h4 := congrArg List.length (Except.ok.inj h3)
          rw [List.length_take, List.length_drop] at h4
          simp only [List.flatten_cons, List.flatten_nil, List.append_nil]
          congr 1
          omega
        · cases h3
    refine List.ext_getElem? fun i => ?_
    rcases Nat.lt_or_ge (valuesOf rows).length i with hi | hi
    · rw [List.getElem?_eq_none (by rw [h.offsetsLen, h.len]; omega), List.getElem?_eq_none (by simp; omega)]
    · rw [key i hi, offsetsOf_get 0 (valuesOf rows) i hi]

/-- What holds of the rows held back, as long as no call failed. -/
structure Tidy (m : Nat) (nullable : Bool) (e : Encoder) : Prop where
  size : e.minBlockSize = m
  nullable : e.remaining.isNullable = nullable
  fits : e.remaining.data.length < U32_MAX
  held : ∃ items, Items e.remaining items
  lt : e.remaining.data.length < m

theorem Tidy.new {m : Nat} (hm : 0 < m) (nullable : Bool) : Tidy m nullable (Encoder.new m nullable) where
  size := rfl
  nullable := by cases nullable <;> rfl
  fits := by simp [Encoder.new, BinaryBuffer.new, U32_MAX]
  held := ⟨[], by
    have := (holds_ofRows nullable []).items
    rw [← BinaryBuffer.new_eq] at this
    exact this⟩
  lt := by simpa [Encoder.new, BinaryBuffer.new] using hm

/-- What is copied and what is cleared keeps its nullability and its size limit, unless a call fails. -/
theorem encodeLoop_kept (p : Profile) (k : Sink S) (b : BinaryBuffer) (fuel : Nat) :
    ∀ (bp vp : Nat) (e : Encoder) (s : S), e.remaining.data.length < U32_MAX →
    (encodeLoop p k b fuel bp vp (e, s)).1 = .ok () →
    (encodeLoop p k b fuel bp vp (e, s)).2.1.remaining.data.length < U32_MAX ∧
    (encodeLoop p k b fuel bp vp (e, s)).2.1.remaining.isNullable = e.remaining.isNullable := by
  induction fuel with
  | zero => intro bp vp e s h _; exact ⟨h, rfl⟩
  | succ fuel ih =>
    intro bp vp e s h
    rw [encodeLoop]
    split
    · rw [Run.bind_ok (Run.get_apply _)]
      dsimp only
      rcases hc : chunk p b bp e.minBlockSize with x | c
      · exact fun _ => ⟨h, rfl⟩
      rw [Run.bind_ok (Run.lift_ok _ _)]
      split
      · rcases ha : e.remaining.appendFrom p b c.startPos c.endPos vp with x | ⟨rem, q⟩
        · exact fun hok => nomatch hok
        · rw [Run.bind_ok (Run.lift_ok _ _)]
          obtain ⟨_, _, h3, _, h5⟩ := appendFrom_inv ha
          exact fun _ => ⟨h3, h5⟩
      · obtain ⟨g1, _⟩ := writeBlock_frame p k b c vp e s
        rcases hw : writeBlock p k b c vp (e, s) with ⟨_ | r, e1, s1⟩
        · rw [Run.bind_error hw]
          exact fun hok => nomatch hok
        · rw [hw] at g1
          rw [Run.bind_ok hw]
          have := ih c.endPos r.lastValidityPos e1 s1 (by rw [g1]; exact h)
          rw [g1] at this
          exact this
    · exact fun _ => ⟨h, rfl⟩

theorem encode_kept (p : Profile) (k : Sink S) (b : BinaryBuffer) (e : Encoder) (s : S)
    (h : e.remaining.data.length < U32_MAX) (hok : (encode p k b (e, s)).1 = .ok ()) :
    (encode p k b (e, s)).2.1.remaining.data.length < U32_MAX ∧
    (encode p k b (e, s)).2.1.remaining.isNullable = e.remaining.isNullable := by
  revert hok
  rw [encode, Run.bind_ok (Run.get_apply _)]
  dsimp only
  split
  · rcases h1 : p.sub 64 e.minBlockSize e.remaining.data.length with x | room
    · exact fun _ => ⟨h, rfl⟩
    rw [Run.bind_ok (Run.lift_ok _ _)]
    rcases h2 : chunk p b 0 room with x | c
    · exact fun _ => ⟨h, rfl⟩
    rw [Run.bind_ok (Run.lift_ok _ _)]
    rcases h3 : e.remaining.appendFrom p b c.startPos c.endPos 0 with x | ⟨rem, q⟩
    · exact fun hok => nomatch hok
    obtain ⟨_, _, g3, _, g5⟩ := appendFrom_inv h3
    rw [Run.bind_ok (Run.lift_ok _ _), Run.bind_ok (Run.set_apply _ _)]
    dsimp only
    split
    · exact fun _ => ⟨g3, g5⟩
    · obtain ⟨k1, _⟩ := writeRemaining_frame p k { e with remaining := rem } s
      rcases hw : writeRemaining p k ({ e with remaining := rem }, s) with ⟨_ | r, e1, s1⟩
      · rw [Run.bind_error hw]
        exact fun hok => nomatch hok
      · rw [hw] at k1
        dsimp only at k1
        rw [Run.bind_ok hw, Run.bind_ok (Run.get_apply _), Run.bind_ok (Run.set_apply _ _)]
        intro hok
        have := encodeLoop_kept p k b (b.offsets.length + 1) c.endPos q { e1 with remaining := e1.remaining.clear } s1
          (by simp [BinaryBuffer.clear, U32_MAX]) hok
        refine ⟨this.1, this.2.trans ?_⟩
        rw [← g5, k1]
        simp [BinaryBuffer.clear, BinaryBuffer.isNullable]
  · exact encodeLoop_kept p k b _ _ _ e s h

theorem Tidy.encode (p : Profile) (k : Sink S) {b : BinaryBuffer} {items : List Bytes} (hb : Items b items) {m : Nat}
    (hm : 0 < m) {nullable : Bool} {e e' : Encoder} {s s' : S} (ht : Tidy m nullable e)
    (h : encode p k b (e, s) = (.ok (), (e', s'))) : Tidy m nullable e' := by
  obtain ⟨held, hh⟩ := ht.held
  obtain ⟨h1, held', h2, h3⟩ := encode_small p k m hm b items held hb e s e' s' ht.size hh h
  obtain ⟨h4, h5⟩ := encode_kept p k b e s ht.fits (by rw [h])
  rw [h] at h4 h5
  exact ⟨h1, h5.trans ht.nullable, h4, ⟨_, h2⟩, by rw [h2.data]; exact h3⟩

theorem Tidy.flush (p : Profile) (k : Sink S) {m : Nat} {nullable : Bool} {e e' : Encoder} {s s' : S}
    (ht : Tidy m nullable e) (h : flush p k (e, s) = (.ok (), (e', s'))) : Tidy m nullable e' := by
  rw [BinaryEnc.flush, Run.bind_ok (Run.get_apply _)] at h
  dsimp only at h
  split at h
  · obtain ⟨k1, k2⟩ := writeRemaining_frame p k e s
    rcases hw : writeRemaining p k (e, s) with ⟨_ | r, e1, s1⟩
    · rw [Run.bind_error hw] at h; cases (Prod.mk.inj h).1
    · rw [hw] at k1 k2
      rw [Run.bind_ok hw] at h
      cases h
      dsimp only at k1 k2
      exact ⟨k2.trans ht.size, by rw [k1]; exact ht.nullable, by rw [k1]; exact ht.fits, by rw [k1]; exact ht.held,
        by rw [k1]; exact ht.lt⟩
  · cases h; exact ht

/-- `encode` of a buffer without values. -/
theorem encode_empty (p : Profile) (k : Sink S) (b : BinaryBuffer) (hb : Items b []) {m : Nat} {nullable : Bool}
    (hn : b.isNullable = nullable) {e : Encoder} (ht : Tidy m nullable e) (s : S) :
    encode p k b (e, s) = (.ok (), (e, s)) := by
  have hoff : b.offsets = [0] := by rw [hb.offsets]; rfl
  have hch : ∀ room, 0 < room → chunk p b 0 room = .ok ⟨0, 0, 0, 0, 0, 0⟩ := by
    intro room hr
    simp only [chunk, index, hoff, List.getElem?_cons_zero, ok_bind, List.drop_zero, findPosition,
      p.sub_ok (Nat.le_refl 0), Nat.sub_self, ge_iff_le, Nat.not_le.2 hr, if_false, chunkEnd, List.length_singleton,
      pure_eq_ok]
  have ha := appendFrom_none p e.remaining b [] hb 0 0 (Nat.le_refl _) (by rw [ht.nullable, hn]) ht.fits
  have hlt := ht.lt
  rw [encode, Run.bind_ok (Run.get_apply _)]
  dsimp only
  split
  · rw [ht.size, p.sub_ok (Nat.le_of_lt hlt), Run.bind_ok (Run.lift_ok _ _), hch _ (by omega), Run.bind_ok (Run.lift_ok _ _), ha,
      Run.bind_ok (Run.lift_ok _ _), Run.bind_ok (Run.set_apply _ _)]
    dsimp only
    rw [if_pos hlt, ← ht.size]
    rfl
  · rw [encodeLoop, if_pos (by rw [hoff]; decide), Run.bind_ok (Run.get_apply _)]
    dsimp only
    rw [ht.size, hch _ (by omega), Run.bind_ok (Run.lift_ok _ _)]
    dsimp only
    rw [if_pos (by omega), ha, Run.bind_ok (Run.lift_ok _ _), ← ht.size]
    rfl

end BinaryEnc

/-- C77 for the binary encoder, with any positive block size: all buffers without values can be left out of any sequence of
calls. -/
theorem C77_binary (p : Profile) (k : Sink S) (nullable : Bool) (m : Nat) (hm : 0 < m)
    (cs : List (EncCall BinaryBuffer)) (hcs : ∀ b, .encode b ∈ cs → ∃ rows, b.Shows nullable rows) (s : S) :
    BinaryEnc.calls p k cs (BinaryEnc.Encoder.new m nullable, s) =
      BinaryEnc.calls p k (cs.filter (·.notEmpty BinaryBuffer.len)) (BinaryEnc.Encoder.new m nullable, s) := by
  have key : ∀ (e : BinaryEnc.Encoder) (s : S), BinaryEnc.Tidy m nullable e →
      BinaryEnc.calls p k cs (e, s) = BinaryEnc.calls p k (cs.filter (·.notEmpty BinaryBuffer.len)) (e, s) := by
    induction cs with
    | nil => intro e s _; rfl
    | cons c cs ih =>
      intro e s ht
      have ih := ih fun b hb => hcs b (by simp [hb])
      cases c with
      | flush =>
        have hf : (EncCall.flush :: cs).filter (·.notEmpty BinaryBuffer.len) =
            .flush :: cs.filter (·.notEmpty BinaryBuffer.len) := rfl
        rw [hf, BinaryEnc.calls, BinaryEnc.calls, Run.bind_apply, Run.bind_apply]
        rcases h1 : BinaryEnc.flush p k (e, s) with ⟨x | x, e1, s1⟩
        · rfl
        · exact ih _ _ (ht.flush p k h1)
      | encode b =>
        obtain ⟨rows, hsh⟩ := hcs b (by simp)
        have hit := BinaryEnc.items_of_shows hsh
        by_cases hb : b.len = 0
        · have hf : (EncCall.encode b :: cs).filter (·.notEmpty BinaryBuffer.len) =
              cs.filter (·.notEmpty BinaryBuffer.len) := by
            rw [List.filter_cons_of_neg]; simp [EncCall.notEmpty, hb]
          have h0 : valuesOf rows = [] := List.length_eq_zero_iff.1 (by rw [← hsh.len, hb])
          rw [h0] at hit
          have h1 := BinaryEnc.encode_empty p k b hit hsh.isNullable ht s
          rw [hf, BinaryEnc.calls, Run.bind_ok h1]
          exact ih _ _ ht
        · have hf : (EncCall.encode b :: cs).filter (·.notEmpty BinaryBuffer.len) =
              .encode b :: cs.filter (·.notEmpty BinaryBuffer.len) := by
            rw [List.filter_cons_of_pos]; simp [EncCall.notEmpty, hb]
          rw [hf, BinaryEnc.calls, BinaryEnc.calls, Run.bind_apply, Run.bind_apply]
          rcases h1 : BinaryEnc.encode p k b (e, s) with ⟨x | x, e1, s1⟩
          · rfl
          · exact ih _ _ (ht.encode p k hit hm h1)
  exact key _ s (.new hm nullable)

/-- Empty buffers before, between and after others: nothing changes. -/
example :
    let some2 : BinaryBuffer := { data := [1, 2, 3], offsets := [0, 2, 3], validity := none }
    let none0 : BinaryBuffer := BinaryBuffer.new false
    let run := BinaryEnc.calls .debug recorder [.encode none0, .encode some2, .encode none0, .encode some2, .flush, .encode none0]
      (BinaryEnc.Encoder.new 4 false, [])
    run.1 = .ok () ∧ run.2.2.map Prod.fst = [2, 3] ∧
    run.2.2 = (BinaryEnc.calls .debug recorder [.encode some2, .encode some2, .flush] (BinaryEnc.Encoder.new 4 false, [])).2.2 := by
  decide +kernel

end Meerkat
