import Verif.Model.Unwind
import Verif.Proofs.Sink

set_option autoImplicit false

/-! # The calls that keep the state of a panic have the results of the calls that do not -/

namespace Meerkat

/-- `run` ends as `r` says, from the state `s`. -/
def EndsAs {σ α : Type} (run : Run σ α) (r : Res (σ × α)) (s : σ) : Prop :=
  match r with
  | .ok (s', a) => run s = (.ok a, s')
  | .error x => ∃ s', run s = (.error (.panic x), s')

theorem EndsAs.ok {σ α : Type} {run : Run σ α} {r : Res (σ × α)} {s s' : σ} {a : α} (h : EndsAs run r s)
    (hr : r = .ok (s', a)) : run s = (.ok a, s') := by subst hr; exact h

theorem EndsAs.error {σ α : Type} {run : Run σ α} {r : Res (σ × α)} {s : σ} {x : Panic} (h : EndsAs run r s)
    (hr : r = .error x) : (run s).1 = .error (.panic x) := by subst hr; obtain ⟨_, h⟩ := h; rw [h]

theorem EndsAs.panics {σ α : Type} {run : Run σ α} {r : Res (σ × α)} {s : σ} {x : Panic} (h : EndsAs run r s)
    (hx : (run s).1 = .error (.panic x)) : r = .error x := by
  rcases r with y | ⟨s', a⟩
  · obtain ⟨_, h⟩ := h; rw [h] at hx; cases hx; rfl
  · have h : run s = _ := h
    rw [h] at hx; cases hx

/-- A panic in `Bitmap::append` leaves the bitmap as it was. -/
theorem Bitmap.appendRun_eq (m : Bitmap) (b : Bool) :
    Bitmap.appendRun b m = match m.append b with
      | .ok m' => (.ok (), m')
      | .error x => (.error (.panic x), m) := by
  cases b with
  | false => rfl
  | true =>
    simp only [Bitmap.appendRun, Bitmap.append, if_true]
    obtain ⟨mask, hm⟩ : ∃ y, index BIT_MASK (m.len &&& 7) = .ok y := by
      have h : m.len &&& 7 < BIT_MASK.length := by
        rw [show (7 : Nat) = 2 ^ 3 - 1 from rfl, Nat.and_two_pow_sub_one_eq_mod]
        exact Nat.mod_lt _ (by decide)
      exact ⟨_, index_ok h⟩
    rw [hm]
    by_cases h : m.len >>> 3 = m.values.length
    · simp only [h, if_true]
      by_cases h0 : m.values = []
      · have : resize m.values (m.values.length * 2) 0 = m.values := by rw [h0]; rfl
        rw [this, index_err (Nat.le_refl _)]
        simp
      · have hp := List.length_pos_iff.2 h0
        rw [index_ok (by rw [resize_length]; omega)]
        simp
    · simp only [if_neg h]
      rcases hi : index m.values (m.len >>> 3) with x | old
      · simp
      · simp

theorem Bitmap.appendFromRun_ends (src : Bitmap) (bitPos remaining : Nat) (dst : Bitmap) :
    EndsAs (src.appendFromRun bitPos remaining) (dst.appendFromLoop src bitPos remaining) dst := by
  fun_induction Bitmap.appendFromLoop dst src bitPos remaining with
  | case1 dst pos => exact by rw [EndsAs, appendFromRun, if_pos rfl]
  | case2 dst pos n hn hlt ih =>
    have hrun : src.appendFromRun pos n dst = match src.isSet pos with
        | .error x => (.error (.panic x), dst)
        | .ok b => match Bitmap.appendRun b dst with
          | (.error x, dst) => (.error x, dst)
          | (.ok (), dst) => src.appendFromRun (pos + 1) (n - b.toNat) dst := by
      rw [appendFromRun, if_neg hn, dif_pos hlt]; rfl
    rcases hs : src.isSet pos with x | b
    · exact ⟨dst, by rw [hrun, hs]⟩
    · simp only [hs, Bitmap.appendRun_eq] at hrun
      rcases ha : dst.append b with x | dst'
      · rw [ha] at hrun
        simp only [ok_bind, ha]
        exact ⟨dst, hrun⟩
      · rw [ha] at hrun
        have := ih b dst'
        simp only [EndsAs, ok_bind] at this ⊢
        simp only [ha, ok_bind]
        simp only at hrun
        rw [hrun]
        exact this
  | case3 dst pos n hn hlt => exact ⟨dst, by rw [appendFromRun, if_neg hn, dif_neg hlt]⟩

theorem validityAppendFromRun_ends (src : Option Bitmap) (pos n : Nat) (dst : Option Bitmap) :
    EndsAs (validityAppendFromRun src pos n) (validityAppendFrom dst src pos n) dst := by
  cases src with
  | none => cases dst with
    | none => rfl
    | some d => exact ⟨some d, rfl⟩
  | some v => cases dst with
    | none => exact ⟨none, rfl⟩
    | some d =>
      have h := Bitmap.appendFromRun_ends v pos n d
      simp only [validityAppendFrom, Bitmap.appendFrom]
      rcases hl : d.appendFromLoop v pos n with x | ⟨d', q⟩
      · rw [hl] at h
        obtain ⟨d', h⟩ := h
        exact ⟨some d', by simp only [validityAppendFromRun, h]⟩
      · rw [hl] at h
        have h : v.appendFromRun pos n d = _ := h
        show validityAppendFromRun (some v) pos n (some d) = (.ok q, some d')
        simp only [validityAppendFromRun, h]

theorem PrimitiveBuffer.appendFromRun_ends {α : Type} (buf : PrimitiveBuffer α) (i j pos : Nat) (b : PrimitiveBuffer α) :
    EndsAs (buf.appendFromRun i j pos) (b.appendFrom buf i j pos) b := by
  simp only [PrimitiveBuffer.appendFrom]
  rcases hs : slice buf.values i j with x | chunk
  · exact ⟨b, by simp only [appendFromRun, hs]⟩
  · simp only [ok_bind]
    split
    · rename_i hU
      have h := validityAppendFromRun_ends buf.validity pos (j - i) b.validity
      rcases hv : validityAppendFrom b.validity buf.validity pos (j - i) with x | ⟨v, q⟩
      · rw [hv] at h
        obtain ⟨v, h⟩ := h
        exact ⟨⟨b.values ++ chunk, v⟩, by simp only [appendFromRun, hs, if_pos hU, h]⟩
      · rw [hv] at h
        have h : validityAppendFromRun _ _ _ _ = _ := h
        show appendFromRun buf i j pos b = (.ok q, ⟨b.values ++ chunk, v⟩)
        simp only [appendFromRun, hs, if_pos hU, h]
    · rename_i hU
      exact ⟨⟨b.values ++ chunk, b.validity⟩, by simp only [appendFromRun, hs, if_neg hU]⟩

namespace BinaryBuffer

theorem appendFromOffsetsRun_ends (p : Profile) (buf : BinaryBuffer) (k : Nat) : ∀ (i last : Nat) (os : List Nat),
    (∀ l, appendFromOffsets p buf k i last = .ok l → appendFromOffsetsRun p buf k i last os = (.ok (), os ++ l)) ∧
    (∀ x, appendFromOffsets p buf k i last = .error x →
      ∃ l, appendFromOffsetsRun p buf k i last os = (.error (.panic x), os ++ l)) := by
  induction k with
  | zero =>
    intro i last os
    refine ⟨fun l h => ?_, fun x h => ?_⟩
    · cases h; simp [appendFromOffsetsRun]
    · cases h
  | succ k ih =>
    intro i last os
    simp only [appendFromOffsets, appendFromOffsetsRun]
    rcases hl : buf.itemLen p i with x | n
    · exact ⟨fun l h => (nomatch h), fun y h => ⟨[], by cases h; simp⟩⟩
    · simp only [ok_bind]
      rcases ha : p.add 32 last n with x | last'
      · exact ⟨fun l h => (nomatch h), fun y h => ⟨[], by cases h; simp⟩⟩
      · simp only [ok_bind]
        obtain ⟨h1, h2⟩ := ih (i + 1) last' (os ++ [last'])
        rcases hr : appendFromOffsets p buf k (i + 1) last' with x | l
        · refine ⟨fun l h => (nomatch h), fun y h => ?_⟩
          cases h
          obtain ⟨l, h3⟩ := h2 x hr
          exact ⟨last' :: l, by rw [h3]; simp⟩
        · refine ⟨fun l' h => ?_, fun y h => (nomatch h)⟩
          cases h
          rw [h1 l hr]; simp

theorem appendFromRun_ends (p : Profile) (buf : BinaryBuffer) (i j pos : Nat) (b : BinaryBuffer) :
    EndsAs (buf.appendFromRun p i j pos) (b.appendFrom p buf i j pos) b := by
  simp only [BinaryBuffer.appendFrom]
  rcases h1 : index buf.offsets i with x | so
  · exact ⟨b, by simp only [appendFromRun, h1]⟩
  simp only [ok_bind]
  rcases h2 : index buf.offsets j with x | eo
  · exact ⟨b, by simp only [appendFromRun, h1, h2]⟩
  simp only [ok_bind]
  rcases h3 : p.sub 64 j i with x | n
  · exact ⟨b, by simp only [appendFromRun, h1, h2, h3]⟩
  simp only [ok_bind]
  obtain ⟨o1, o2⟩ := appendFromOffsetsRun_ends p buf (j - i) i ((b.offsets.getLast?).getD 0) b.offsets
  rcases h4 : appendFromOffsets p buf (j - i) i ((b.offsets.getLast?).getD 0) with x | l
  · obtain ⟨l, h5⟩ := o2 x h4
    exact ⟨(appendFromRun p buf i j pos b).2, by simp only [appendFromRun, h1, h2, h3, h5]⟩
  have h5 := o1 l h4
  simp only [ok_bind]
  rcases h6 : slice buf.data so eo with x | chunk
  · exact ⟨(appendFromRun p buf i j pos b).2, by simp only [appendFromRun, h1, h2, h3, h5, h6]⟩
  simp only [ok_bind]
  split
  · rename_i hU
    have h := validityAppendFromRun_ends buf.validity pos n b.validity
    rcases hv : validityAppendFrom b.validity buf.validity pos n with x | ⟨v, q⟩
    · rw [hv] at h
      obtain ⟨v, h⟩ := h
      exact ⟨(appendFromRun p buf i j pos b).2, by simp only [appendFromRun, h1, h2, h3, h5, h6, if_pos hU, h]⟩
    · rw [hv] at h
      have h : validityAppendFromRun _ _ _ _ = _ := h
      show appendFromRun p buf i j pos b = (.ok q, ⟨b.data ++ chunk, b.offsets ++ l, v⟩)
      simp only [appendFromRun, h1, h2, h3, h5, h6, if_pos hU, h]
  · rename_i hU
    exact ⟨(appendFromRun p buf i j pos b).2, by simp only [appendFromRun, h1, h2, h3, h5, h6, if_neg hU]⟩

end BinaryBuffer

theorem validityAppendTrueRun_ends (v : Option Bitmap) :
    validityAppendTrueRun v = match validityAppendTrue v with
      | .ok v' => (.ok (), v')
      | .error x => (.error (.panic x), v) := by
  cases v with
  | none => rfl
  | some m =>
    simp only [validityAppendTrueRun, validityAppendTrue, Bitmap.appendRun_eq]
    rcases m.append true with x | m' <;> rfl

/-! ## What is left -/

theorem validityAppendFromRun_mismatch {d s : Option Bitmap} (h : d.isSome ≠ s.isSome) (pos n : Nat) :
    (validityAppendFromRun s pos n d).2 = d := by
  cases d <;> cases s <;> simp_all [validityAppendFromRun]

namespace PrimitiveBuffer
variable {α : Type}

theorem appendFromLeft_ok {d s d' : PrimitiveBuffer α} {i j pos q : Nat} (h : d.appendFrom s i j pos = .ok (d', q)) :
    d.appendFromLeft s i j pos = d' := by
  rw [appendFromLeft, (appendFromRun_ends s i j pos d).ok h]

/-- The values are copied whatever happens afterwards, unless the range is not one of the source's. -/
theorem appendFromLeft_values (d s : PrimitiveBuffer α) (i j pos : Nat) :
    (d.appendFromLeft s i j pos).values =
      d.values ++ if i ≤ j ∧ j ≤ s.len then (s.values.drop i).take (j - i) else [] := by
  by_cases h : i ≤ j ∧ j ≤ s.len
  · have hs : slice s.values i j = .ok ((s.values.drop i).take (j - i)) := if_pos h
    rw [if_pos h]
    simp only [appendFromLeft, appendFromRun, hs]
    split <;> rfl
  · have hs : slice s.values i j = .error .index := if_neg h
    rw [if_neg h, List.append_nil]
    simp only [appendFromLeft, appendFromRun, hs]

theorem appendFromLeft_mismatch {d s : PrimitiveBuffer α} (h : d.validity.isSome ≠ s.validity.isSome) (i j pos : Nat) :
    (d.appendFromLeft s i j pos).validity = d.validity := by
  simp only [appendFromLeft, appendFromRun]
  split
  · rfl
  · split
    · exact validityAppendFromRun_mismatch h _ _
    · rfl

end PrimitiveBuffer

namespace BinaryBuffer

theorem appendFromLeft_ok {p : Profile} {d s d' : BinaryBuffer} {i j pos q : Nat}
    (h : d.appendFrom p s i j pos = .ok (d', q)) : d.appendFromLeft p s i j pos = d' := by
  rw [appendFromLeft, (appendFromRun_ends p s i j pos d).ok h]

theorem appendFromLeft_validity {p : Profile} {d s : BinaryBuffer} (h : d.validity.isSome ≠ s.validity.isSome)
    (i j pos : Nat) : (d.appendFromLeft p s i j pos).validity = d.validity := by
  simp only [appendFromLeft, appendFromRun]
  rcases index s.offsets i with x | so
  · rfl
  dsimp only
  rcases index s.offsets j with x | eo
  · rfl
  dsimp only
  rcases p.sub 64 j i with x | n
  · rfl
  dsimp only
  rcases appendFromOffsetsRun p s (j - i) i (d.offsets.getLast?.getD 0) d.offsets with ⟨x | u, os⟩
  · rfl
  dsimp only
  rcases slice s.data so eo with x | c
  · rfl
  dsimp only
  split
  · exact validityAppendFromRun_mismatch h _ _
  · rfl

/-- Two buffers with the same offsets, one of them without bytes: the same offsets and the same bytes are added. -/
theorem appendFromLeft_same (p : Profile) {d r s : BinaryBuffer} (ho : d.offsets = r.offsets) (hr : r.data = [])
    (i j pos : Nat) :
    (d.appendFromLeft p s i j pos).offsets = (r.appendFromLeft p s i j pos).offsets ∧
    (d.appendFromLeft p s i j pos).data = d.data ++ (r.appendFromLeft p s i j pos).data := by
  simp only [appendFromLeft, appendFromRun, ho]
  rcases index s.offsets i with x | so
  · exact ⟨ho, by simp [hr]⟩
  dsimp only
  rcases index s.offsets j with x | eo
  · exact ⟨ho, by simp [hr]⟩
  dsimp only
  rcases p.sub 64 j i with x | n
  · exact ⟨ho, by simp [hr]⟩
  dsimp only
  rcases appendFromOffsetsRun p s (j - i) i (r.offsets.getLast?.getD 0) r.offsets with ⟨x | u, os⟩
  · exact ⟨rfl, by simp [hr]⟩
  dsimp only
  rcases slice s.data so eo with x | c
  · exact ⟨rfl, by simp [hr]⟩
  dsimp only
  constructor
  · split <;> split <;> rfl
  · split <;> split <;> simp [hr]

end BinaryBuffer

end Meerkat
