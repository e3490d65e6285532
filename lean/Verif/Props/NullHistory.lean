import Verif.Props.AppendReturns

set_option autoImplicit false

/-! # C08 for every history of calls -/

namespace Meerkat

/-- Primitive buffers reached by any calls that returned. -/
inductive PrimitiveBuffer.Reach {α : Type} : Bool → PrimitiveBuffer α → Prop where
  | new (nullable : Bool) : Reach nullable (.new nullable)
  | append {nullable b b' v} : Reach nullable b → b.append v = .ok b' → Reach nullable b'
  | appendNull {nullable b b'} : Reach nullable b → b.appendNull = .ok b' → Reach nullable b'
  | clear {nullable b} : Reach nullable b → Reach nullable b.clear
  | appendFrom {nullable other b b' src start e pos ret} : Reach nullable b → Reach other src →
      b.appendFrom src start e pos = .ok (b', ret) → Reach nullable b'

/-- Binary buffers reached by any calls that returned. -/
inductive BinaryBuffer.Reach (p : Profile) : Bool → BinaryBuffer → Prop where
  | new (nullable : Bool) : Reach p nullable (.new nullable)
  | append {nullable b b' v} : Reach p nullable b → b.append v = .ok b' → Reach p nullable b'
  | appendNull {nullable b b'} : Reach p nullable b → b.appendNull = .ok b' → Reach p nullable b'
  | clear {nullable b} : Reach p nullable b → Reach p nullable b.clear
  | appendFrom {nullable other b b' src start e pos ret} : Reach p nullable b → Reach p other src →
      b.appendFrom p src start e pos = .ok (b', ret) → Reach p nullable b'

/-- Boolean buffers reached by any calls that returned. -/
inductive BoolBuffer.Reach : Bool → BoolBuffer → Prop where
  | new (nullable : Bool) : Reach nullable (.new nullable)
  | append {nullable b b' v} : Reach nullable b → b.append v = .ok b' → Reach nullable b'
  | appendNull {nullable b b'} : Reach nullable b → b.appendNull = .ok b' → Reach nullable b'
  | clear {nullable b} : Reach nullable b → Reach nullable b.clear

/-- There is a validity bitmap exactly when the buffer is nullable, and it has at least `n` rows. -/
def HoldsRows (nullable : Bool) (validity : Option Bitmap) (n : Nat) : Prop :=
  match validity with
  | none => nullable = false
  | some v => nullable = true ∧ n ≤ v.len

theorem Bitmap.append_len {m m' : Bitmap} {set : Bool} (h : m.append set = .ok m') : m'.len = m.len + 1 := by
  simp only [Bitmap.append] at h
  cases set with
  | false => cases h; rfl
  | true =>
    simp only [if_true] at h
    obtain ⟨_, _, h⟩ := bind_eq_ok h
    obtain ⟨_, _, h⟩ := bind_eq_ok h
    cases h; rfl

theorem Bitmap.appendFromLoop_len {dst src dst' : Bitmap} {pos n ret : Nat}
    (h : dst.appendFromLoop src pos n = .ok (dst', ret)) : dst.len + n ≤ dst'.len := by
  induction hm : src.len - pos generalizing dst pos n with
  | zero =>
    unfold Bitmap.appendFromLoop at h
    split at h
    · cases h; omega
    · rw [dif_neg (by omega)] at h; cases h
  | succ k ih =>
    unfold Bitmap.appendFromLoop at h
    split at h
    · cases h; omega
    · rw [dif_pos (by omega)] at h
      obtain ⟨b, _, h⟩ := bind_eq_ok h
      obtain ⟨d, hd, h⟩ := bind_eq_ok h
      have h1 := Bitmap.append_len hd
      have h2 := ih h (by omega)
      have h3 : b.toNat ≤ 1 := by cases b <;> simp
      omega

theorem HoldsRows.new (nullable : Bool) : HoldsRows nullable (newValidity nullable) 0 := by
  cases nullable <;> simp [newValidity, HoldsRows]

theorem HoldsRows.clear {nullable : Bool} {v : Option Bitmap} {n : Nat} (h : HoldsRows nullable v n) :
    HoldsRows nullable (v.map Bitmap.clear) 0 := by
  cases v with
  | none => exact h
  | some v => exact ⟨h.1, Nat.zero_le _⟩

theorem HoldsRows.appendTrue {nullable : Bool} {v v' : Option Bitmap} {n : Nat} (hv : HoldsRows nullable v n)
    (h : validityAppendTrue v = .ok v') : HoldsRows nullable v' (n + 1) := by
  cases v with
  | none => simp only [validityAppendTrue] at h; cases h; exact hv
  | some v =>
    simp only [validityAppendTrue] at h
    obtain ⟨d, hd, h⟩ := bind_eq_ok h
    cases h
    have := Bitmap.append_len hd
    exact ⟨hv.1, by have := hv.2; omega⟩

theorem HoldsRows.appendFalse {nullable : Bool} {v v' : Option Bitmap} {n : Nat} (hv : HoldsRows nullable v n)
    (h : validityAppendFalse v = .ok v') : HoldsRows nullable v' n := by
  cases v with
  | none => simp only [validityAppendFalse] at h; cases h
  | some v =>
    simp only [validityAppendFalse] at h
    obtain ⟨d, hd, h⟩ := bind_eq_ok h
    cases h
    have := Bitmap.append_len hd
    exact ⟨hv.1, by have := hv.2; omega⟩

theorem HoldsRows.appendFrom {nullable : Bool} {v v' src : Option Bitmap} {n pos k ret : Nat} (hv : HoldsRows nullable v n)
    (h : validityAppendFrom v src pos k = .ok (v', ret)) : HoldsRows nullable v' (n + k) := by
  cases src with
  | none =>
    cases v with
    | none => simp only [validityAppendFrom] at h; cases h; exact hv
    | some v => simp only [validityAppendFrom] at h; cases h
  | some s =>
    cases v with
    | none => simp only [validityAppendFrom] at h; cases h
    | some v =>
      simp only [validityAppendFrom] at h
      obtain ⟨⟨d, k'⟩, hd, h⟩ := bind_eq_ok h
      cases h
      have h1 := Bitmap.appendFromLoop_len hd
      have h2 := hv.2
      exact ⟨hv.1, show n + k ≤ d.len by omega⟩

/-- `append_null` panics without a bitmap, and only then. -/
theorem HoldsRows.null {nullable : Bool} {v : Option Bitmap} {n : Nat} (hv : HoldsRows nullable v n) :
    (nullable = false → v = none ∧ validityAppendFalse v = .error .expect) ∧
    (nullable = true → ∃ v', validityAppendFalse v = .ok v') := by
  cases v with
  | none => exact ⟨fun _ => ⟨rfl, rfl⟩, fun h => by have : nullable = false := hv; rw [this] at h; cases h⟩
  | some v =>
    exact ⟨fun h => (by rw [hv.1] at h; cases h), fun _ => ⟨_, rfl⟩⟩

theorem PrimitiveBuffer.Reach.holds {α : Type} {nullable : Bool} {b : PrimitiveBuffer α} (h : Reach nullable b) :
    HoldsRows nullable b.validity b.values.length := by
  induction h with
  | new nullable => exact HoldsRows.new nullable
  | append _ h ih =>
    simp only [PrimitiveBuffer.append] at h
    obtain ⟨v, hv, h⟩ := bind_eq_ok h
    cases h
    simpa using ih.appendTrue hv
  | appendNull _ h ih =>
    simp only [PrimitiveBuffer.appendNull] at h
    obtain ⟨v, hv, h⟩ := bind_eq_ok h
    cases h
    exact ih.appendFalse hv
  | clear _ ih => exact ih.clear
  | appendFrom _ _ h ih _ =>
    simp only [PrimitiveBuffer.appendFrom, slice] at h
    split at h
    case isFalse => cases h
    rename_i hr
    simp only [ok_bind] at h
    split at h
    · obtain ⟨⟨v, k⟩, hv, h⟩ := bind_eq_ok h
      cases h
      have := ih.appendFrom hv
      simp only [List.length_append, List.length_take, List.length_drop]
      rwa [Nat.min_eq_left (by omega)]
    · cases h

theorem BinaryBuffer.appendFromOffsets_length {p : Profile} {buf : BinaryBuffer} {k i last : Nat} {l : List Nat}
    (h : appendFromOffsets p buf k i last = .ok l) : l.length = k := by
  induction k generalizing i last l with
  | zero => cases h; rfl
  | succ k ih =>
    simp only [appendFromOffsets] at h
    obtain ⟨_, _, h⟩ := bind_eq_ok h
    obtain ⟨_, _, h⟩ := bind_eq_ok h
    obtain ⟨rest, hr, h⟩ := bind_eq_ok h
    cases h
    simp [ih hr]

theorem BinaryBuffer.Reach.holds {p : Profile} {nullable : Bool} {b : BinaryBuffer} (h : Reach p nullable b) :
    b.offsets ≠ [] ∧ HoldsRows nullable b.validity b.len := by
  induction h with
  | new nullable => exact ⟨by simp [BinaryBuffer.new], HoldsRows.new nullable⟩
  | append _ h ih =>
    simp only [BinaryBuffer.append] at h
    split at h
    · obtain ⟨v, hv, h⟩ := bind_eq_ok h
      cases h
      refine ⟨by simp, ?_⟩
      have := ih.2.appendTrue hv
      have h1 := List.length_pos_iff.2 ih.1
      simp only [BinaryBuffer.len, List.length_append, List.length_singleton] at this ⊢
      rwa [show ∀ n, 0 < n → n + 1 - 1 = n - 1 + 1 by omega] 
      exact h1
    · cases h
  | appendNull _ h ih =>
    simp only [BinaryBuffer.appendNull] at h
    obtain ⟨v, hv, h⟩ := bind_eq_ok h
    cases h
    exact ⟨ih.1, ih.2.appendFalse hv⟩
  | clear _ ih =>
    refine ⟨?_, ?_⟩
    · have h1 := List.length_pos_iff.2 ih.1
      refine List.length_pos_iff.1 ?_
      simp only [BinaryBuffer.clear, List.length_take]; omega
    · have := ih.2.clear
      have h1 : ∀ b : BinaryBuffer, b.clear.len = 0 := by
        intro b; simp only [BinaryBuffer.clear, BinaryBuffer.len, List.length_take]; omega
      rw [h1]; exact this
  | @appendFrom nullable other b b' src start e pos ret _ _ h ih _ =>
    simp only [BinaryBuffer.appendFrom] at h
    obtain ⟨_, _, h⟩ := bind_eq_ok h
    obtain ⟨_, _, h⟩ := bind_eq_ok h
    obtain ⟨n, hn, h⟩ := bind_eq_ok h
    obtain ⟨l, hl, h⟩ := bind_eq_ok h
    obtain ⟨_, _, h⟩ := bind_eq_ok h
    split at h
    · obtain ⟨⟨v, k⟩, hv, h⟩ := bind_eq_ok h
      cases h
      have hll := appendFromOffsets_length hl
      have h1 := List.length_pos_iff.2 ih.1
      refine ⟨by intro h0; exact ih.1 (List.append_eq_nil_iff.1 h0).1, ?_⟩
      have h2 := ih.2.appendFrom hv
      have h3 : e - start ≤ n := by
        simp only [Profile.sub] at hn
        split at hn
        · cases hn; omega
        · omega
      simp only [BinaryBuffer.len, List.length_append, hll] at h2 ⊢
      revert h2
      simp only [HoldsRows]
      split
      · exact id
      · rintro ⟨a, b⟩; exact ⟨a, by omega⟩
    · cases h

theorem BoolBuffer.Reach.holds {nullable : Bool} {b : BoolBuffer} (h : Reach nullable b) :
    HoldsRows nullable b.validity b.len ∧ b.values.len ≤ b.len ∧ (nullable = false → b.values.len = b.len) := by
  induction h with
  | new => exact ⟨HoldsRows.new nullable, Nat.le_refl _, fun _ => rfl⟩
  | append _ h ih =>
    simp only [BoolBuffer.append] at h
    obtain ⟨w, hw, h⟩ := bind_eq_ok h
    obtain ⟨v, hv, h⟩ := bind_eq_ok h
    cases h
    have := Bitmap.append_len hw
    refine ⟨ih.1.appendTrue hv, ?_, fun hn => ?_⟩
    · have := ih.2.1; dsimp only; omega
    · have := ih.2.2 hn; dsimp only; omega
  | @appendNull b b' _ h ih =>
    simp only [BoolBuffer.appendNull] at h
    obtain ⟨v, hv, h⟩ := bind_eq_ok h
    cases h
    have h0 := ih.1
    revert h0
    cases hb : b.validity with
    | none => rw [hb] at hv; cases hv
    | some w =>
      rw [hb] at hv
      simp only [validityAppendFalse] at hv
      obtain ⟨d, hd, hv⟩ := bind_eq_ok hv
      cases hv
      have := Bitmap.append_len hd
      rintro ⟨h1, h2⟩
      refine ⟨⟨h1, show b.len + 1 ≤ d.len by omega⟩, ?_, fun hn => ?_⟩
      · have := ih.2.1; dsimp only; omega
      · rw [h1] at hn; cases hn
  | clear _ ih => exact ⟨ih.1.clear, Nat.le_refl _, fun _ => rfl⟩

/-- C08 for every history of calls that returned, `clear` and `append_from` included, in both profiles: on a buffer that
was created non-nullable `append_null` panics, there is no bitmap, no null and as many rows as values; on a nullable one
`append_null` returns. -/
theorem C08_any_history {α : Type} :
    (∀ nullable (b : PrimitiveBuffer α), b.Reach nullable →
      (nullable = false → b.appendNull = .error .expect ∧ (∀ p, b.hasNulls p = .ok false) ∧ b.validity = none ∧
        b.numValues = b.len) ∧
      (nullable = true → ∃ b', b.appendNull = .ok b')) ∧
    (∀ p nullable (b : BinaryBuffer), b.Reach p nullable →
      (nullable = false → b.appendNull = .error .expect ∧ b.hasNulls p = .ok false ∧ b.validity = none ∧
        b.numValues = b.len) ∧
      (nullable = true → ∃ b', b.appendNull = .ok b')) ∧
    (∀ nullable (b : BoolBuffer), b.Reach nullable →
      (nullable = false → b.appendNull = .error .expect ∧ b.hasNulls = false ∧ b.validity = none ∧ b.len = b.values.len) ∧
      (nullable = true → ∃ b', b.appendNull = .ok b')) := by
  refine ⟨fun nullable b h => ?_, fun p nullable b h => ?_, fun nullable b h => ?_⟩
  · obtain ⟨h1, h2⟩ := h.holds.null
    refine ⟨fun hn => ?_, fun hn => ?_⟩
    · obtain ⟨h3, h4⟩ := h1 hn
      refine ⟨by simp only [PrimitiveBuffer.appendNull, h4]; rfl, fun p => by simp only [PrimitiveBuffer.hasNulls, h3], h3,
        by simp only [PrimitiveBuffer.numValues, h3, PrimitiveBuffer.len]⟩
    · obtain ⟨v, hv⟩ := h2 hn
      exact ⟨_, by simp only [PrimitiveBuffer.appendNull, hv]; rfl⟩
  · obtain ⟨h1, h2⟩ := h.holds.2.null
    refine ⟨fun hn => ?_, fun hn => ?_⟩
    · obtain ⟨h3, h4⟩ := h1 hn
      refine ⟨by simp only [BinaryBuffer.appendNull, h4]; rfl, by simp only [BinaryBuffer.hasNulls, h3], h3,
        by simp only [BinaryBuffer.numValues, h3]⟩
    · obtain ⟨v, hv⟩ := h2 hn
      exact ⟨_, by simp only [BinaryBuffer.appendNull, hv]; rfl⟩
  · obtain ⟨h1, h2⟩ := h.holds.1.null
    refine ⟨fun hn => ?_, fun hn => ?_⟩
    · obtain ⟨h3, h4⟩ := h1 hn
      have := h.holds.2.2 hn
      refine ⟨by simp only [BoolBuffer.appendNull, h4]; rfl, by simp [BoolBuffer.hasNulls, this], h3, this.symm⟩
    · obtain ⟨v, hv⟩ := h2 hn
      exact ⟨_, by simp only [BoolBuffer.appendNull, hv]; rfl⟩

/-- C05, C06: `has_nulls` never panics, whatever was done with a nullable buffer: there are at least as many rows as values,
and it says whether there are more. -/
theorem C05_has_nulls_any_history {α : Type} (p : Profile) :
    (∀ b : PrimitiveBuffer α, b.Reach true → b.len ≤ b.numValues ∧ b.hasNulls p = .ok (decide (b.len < b.numValues))) ∧
    (∀ b : BinaryBuffer, b.Reach p true → b.len ≤ b.numValues ∧ b.hasNulls p = .ok (decide (b.len < b.numValues))) ∧
    (∀ b : BoolBuffer, b.Reach true → b.values.len ≤ b.len ∧ b.hasNulls = decide (b.values.len < b.len)) := by
  have key : ∀ n m : Nat, n ≤ m → ((m - n) != 0) = decide (n < m) := by
    intro n m h
    by_cases h1 : n < m
    · rw [decide_eq_true h1]; simp; omega
    · rw [decide_eq_false h1]; simp; omega
  refine ⟨fun b h => ?_, fun b h => ?_, fun b h => ?_⟩
  · have := h.holds
    cases hv : b.validity with
    | none => rw [hv] at this; cases this
    | some v =>
      rw [hv] at this
      simp only [PrimitiveBuffer.len, PrimitiveBuffer.numValues, PrimitiveBuffer.hasNulls, hv, p.sub_ok this.2, ok_bind]
      exact ⟨this.2, by rw [← key _ _ this.2]; rfl⟩
  · have := h.holds.2
    cases hv : b.validity with
    | none => rw [hv] at this; cases this
    | some v =>
      rw [hv] at this
      simp only [BinaryBuffer.numValues, BinaryBuffer.hasNulls, hv, p.sub_ok this.2, ok_bind]
      exact ⟨this.2, by rw [← key _ _ this.2]; rfl⟩
  · have := h.holds.2.1
    refine ⟨this, ?_⟩
    simp only [BoolBuffer.hasNulls]
    by_cases h1 : b.values.len < b.len
    · rw [decide_eq_true h1]; simp; omega
    · rw [decide_eq_false h1]; simp; omega

theorem NullHistory.exists_res {α : Type} {x : Res α} {P : α → Prop} [DecidablePred P]
    (h : (match x with | .ok a => decide (P a) | .error _ => false) = true) : ∃ a, x = .ok a ∧ P a := by
  cases x with
  | ok a => exact ⟨a, rfl, of_decide_eq_true h⟩
  | error e => cases h

/-- A buffer with a null copied into a cleared one: the copy has the null, and `append_null` still returns. -/
example : ∃ b : PrimitiveBuffer Nat, b.Reach true ∧ b.len = 2 ∧ b.numValues = 3 ∧ b.hasNulls .debug = .ok true ∧
    ∃ b', b.appendNull = .ok b' := by
  have hs : ∃ a b : PrimitiveBuffer Nat, a.Reach true ∧ b.Reach true ∧ a = ⟨[3, 4], some ⟨5 :: .replicate 1023 0, 3⟩⟩ ∧
      b = ⟨[7], some ⟨1 :: .replicate 1023 0, 2⟩⟩ := by
    obtain ⟨a1, h1, e1⟩ := NullHistory.exists_res (P := fun x => x = ⟨[3], some ⟨1 :: .replicate 1023 0, 1⟩⟩)
      (x := (PrimitiveBuffer.new true : PrimitiveBuffer Nat).append 3) (by decide +kernel)
    obtain ⟨a2, h2, e2⟩ := NullHistory.exists_res (P := fun x => x = ⟨[3], some ⟨1 :: .replicate 1023 0, 2⟩⟩)
      (x := a1.appendNull) (by subst e1; decide +kernel)
    obtain ⟨a3, h3, e3⟩ := NullHistory.exists_res (P := fun x => x = ⟨[3, 4], some ⟨5 :: .replicate 1023 0, 3⟩⟩)
      (x := a2.append 4) (by subst e2; decide +kernel)
    obtain ⟨b1, g1, f1⟩ := NullHistory.exists_res (P := fun x => x = ⟨[7], some ⟨1 :: .replicate 1023 0, 1⟩⟩)
      (x := (PrimitiveBuffer.new true : PrimitiveBuffer Nat).append 7) (by decide +kernel)
    obtain ⟨b2, g2, f2⟩ := NullHistory.exists_res (P := fun x => x = ⟨[7], some ⟨1 :: .replicate 1023 0, 2⟩⟩)
      (x := b1.appendNull) (by subst f1; decide +kernel)
    exact ⟨a3, b2, .append (.appendNull (.append (.new true) h1) h2) h3, .appendNull (.append (.new true) g1) g2, e3, f2⟩
  obtain ⟨a, b, ha, hb, ea, eb⟩ := hs
  obtain ⟨⟨c, ret⟩, h, hc⟩ := NullHistory.exists_res
    (P := fun x : PrimitiveBuffer Nat × Nat => x.1.len = 2 ∧ x.1.numValues = 3 ∧ x.1.hasNulls .debug = .ok true)
    (x := b.clear.appendFrom a 0 2 0) (by subst ea eb; decide +kernel)
  have hr : c.Reach true := .appendFrom (.clear hb) ha h
  exact ⟨c, hr, hc.1, hc.2.1, hc.2.2, (C08_any_history.1 _ _ hr).2 rfl⟩

end Meerkat
