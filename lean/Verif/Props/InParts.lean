import Verif.Props.EmptyBuffer
import Verif.Props.AppendReturns

set_option autoImplicit false

/-!
# C122: rows can be copied and compressed in parts
-/

namespace Meerkat
open Spec

namespace InParts

theorem appendFromLoop_add (src : Bitmap) (m fuel : Nat) : ∀ (dst : Bitmap) (pos n : Nat), src.len - pos = fuel →
    dst.appendFromLoop src pos (n + m) =
      (dst.appendFromLoop src pos n >>= fun r => r.1.appendFromLoop src r.2 m) := by
  induction fuel with
  | zero =>
    intro dst pos n hf
    by_cases hn : n = 0
    · subst hn
      rw [Bitmap.appendFromLoop.eq_def dst src pos 0, if_pos rfl, Nat.zero_add]; rfl
    · rw [Bitmap.appendFromLoop.eq_def dst src pos (n + m), Bitmap.appendFromLoop.eq_def dst src pos n, if_neg (by omega), if_neg hn,
        dif_neg (by omega), dif_neg (by omega)]; rfl
  | succ fuel ih =>
    intro dst pos n hf
    by_cases hn : n = 0
    · subst hn
      rw [Bitmap.appendFromLoop.eq_def dst src pos 0, if_pos rfl, Nat.zero_add]; rfl
    · rw [Bitmap.appendFromLoop.eq_def dst src pos (n + m), Bitmap.appendFromLoop.eq_def dst src pos n, if_neg (by omega), if_neg hn,
        dif_pos (by omega), dif_pos (by omega), bind_assoc]
      congr 1; funext b
      rw [bind_assoc]
      congr 1; funext d
      rw [← ih d (pos + 1) _ (by omega)]
      congr 1
      have : b.toNat ≤ 1 := by cases b <;> decide
      omega

theorem putFromLoop_add (p : Profile) (src : Bitmap) (m fuel : Nat) : ∀ (e : Rle.Encoder) (pos n : Nat), src.len - pos = fuel →
    e.putFromLoop p src pos (n + m) =
      (e.putFromLoop p src pos n >>= fun r => r.1.putFromLoop p src r.2 m) := by
  induction fuel with
  | zero =>
    intro e pos n hf
    by_cases hn : n = 0
    · subst hn
      rw [Rle.Encoder.putFromLoop.eq_def p e src pos 0, if_pos rfl, Nat.zero_add]; rfl
    · rw [Rle.Encoder.putFromLoop.eq_def p e src pos (n + m), Rle.Encoder.putFromLoop.eq_def p e src pos n, if_neg (by omega),
        if_neg hn, dif_neg (by omega), dif_neg (by omega)]; rfl
  | succ fuel ih =>
    intro e pos n hf
    by_cases hn : n = 0
    · subst hn
      rw [Rle.Encoder.putFromLoop.eq_def p e src pos 0, if_pos rfl, Nat.zero_add]; rfl
    · rw [Rle.Encoder.putFromLoop.eq_def p e src pos (n + m), Rle.Encoder.putFromLoop.eq_def p e src pos n, if_neg (by omega),
        if_neg hn, dif_pos (by omega), dif_pos (by omega), bind_assoc]
      congr 1; funext b
      rw [bind_assoc]
      congr 1; funext d
      rw [← ih d (pos + 1) _ (by omega)]
      congr 1
      have : b.toNat ≤ 1 := by cases b <;> decide
      omega

/-- Like two calls, but that without a validity the positions are not the same. -/
theorem validity_parts (dst src : Option Bitmap) (pos n m : Nat) (v : Option Bitmap) (q : Nat) :
    (validityAppendFrom dst src pos (n + m) = .ok (v, q) →
      ∃ v1 q1 q2, validityAppendFrom dst src pos n = .ok (v1, q1) ∧ validityAppendFrom v1 src q1 m = .ok (v, q2) ∧
        (src.isSome → q2 = q)) ∧
    ∀ v1 q1, validityAppendFrom dst src pos n = .ok (v1, q1) → validityAppendFrom v1 src q1 m = .ok (v, q) →
      ∃ q2, validityAppendFrom dst src pos (n + m) = .ok (v, q2) ∧ (src.isSome → q2 = q) := by
  cases src with
  | none =>
    cases dst with
    | none =>
      constructor
      · intro h
        simp only [validityAppendFrom] at h ⊢
        cases h
        exact ⟨none, n, m, rfl, rfl, by simp⟩
      · intro v1 q1 h1 h2
        simp only [validityAppendFrom] at h1 h2 ⊢
        cases h1; cases h2
        exact ⟨n + m, rfl, by simp⟩
    | some d =>
      exact ⟨fun h => by simp [validityAppendFrom] at h, fun v1 q1 h => by simp [validityAppendFrom] at h⟩
  | some s =>
    cases dst with
    | none => exact ⟨fun h => by simp [validityAppendFrom] at h, fun v1 q1 h => by simp [validityAppendFrom] at h⟩
    | some d =>
      simp only [validityAppendFrom, Bitmap.appendFrom, appendFromLoop_add s m _ d pos n rfl]
      rcases h1 : d.appendFromLoop s pos n with x | ⟨d1, q1⟩
      · exact ⟨fun h => (nomatch h), fun v1 q1 h => (nomatch h)⟩
      · simp only [ok_bind, pure_eq_ok]
        rcases h2 : d1.appendFromLoop s q1 m with x | ⟨d2, q2⟩
        · refine ⟨fun h => (nomatch h), fun v1 q1 h h' => ?_⟩
          cases h
          simp only [h2] at h'
          cases h'
        · constructor
          · intro h
            cases h
            exact ⟨some d1, q1, q2, rfl, by simp only [h2, ok_bind], fun _ => rfl⟩
          · intro v1 q1 h h'
            cases h
            simp only [h2, ok_bind] at h'
            cases h'
            exact ⟨_, rfl, fun _ => rfl⟩

theorem slice_parts {α : Type} (v : List α) (i j k : Nat) (hij : i ≤ j) (hjk : j ≤ k) (hk : k ≤ v.length) :
    slice v i j = .ok ((v.drop i).take (j - i)) ∧ slice v j k = .ok ((v.drop j).take (k - j)) ∧
      slice v i k = .ok ((v.drop i).take (j - i) ++ (v.drop j).take (k - j)) := by
  refine ⟨if_pos ⟨hij, by omega⟩, if_pos ⟨hjk, hk⟩, ?_⟩
  rw [slice, if_pos ⟨by omega, hk⟩, show k - i = (j - i) + (k - j) by omega, List.take_add, List.drop_drop,
    show i + (j - i) = j by omega]

theorem slice_ok {α : Type} {v r : List α} {i j : Nat} (h : slice v i j = .ok r) : i ≤ j ∧ j ≤ v.length ∧
    r = (v.drop i).take (j - i) := by
  rw [slice] at h
  split at h
  · rename_i h'; cases h; exact ⟨h'.1, h'.2, rfl⟩
  · cases h

theorem offsets_parts (p : Profile) (buf : BinaryBuffer) (m n : Nat) : ∀ i last,
    BinaryBuffer.appendFromOffsets p buf (n + m) i last = do
      let r ← BinaryBuffer.appendFromOffsets p buf n i last
      let r' ← BinaryBuffer.appendFromOffsets p buf m (i + n) (r.getLast?.getD last)
      return r ++ r' := by
  induction n with
  | zero =>
    intro i last
    rw [Nat.zero_add]
    simp only [BinaryBuffer.appendFromOffsets, ok_bind, List.getLast?_nil, Option.getD_none, Nat.add_zero, List.nil_append]
    exact (bind_pure _).symm
  | succ n ih =>
    intro i last
    rw [show n + 1 + m = (n + m) + 1 by omega, BinaryBuffer.appendFromOffsets, BinaryBuffer.appendFromOffsets]
    simp only [bind_assoc]
    congr 1; funext l
    congr 1; funext last'
    rw [ih]
    simp only [bind_assoc]
    congr 1; funext r
    rw [show i + (n + 1) = i + 1 + n by omega]
    simp only [pure_eq_ok, ok_bind, List.getLast?_cons, Option.getD_some, List.cons_append]

end InParts

/-- C122 for a bitmap: `append_from` of `n + m` set bits is that of `n`, and of `m` from where that has stopped. -/
theorem C122_bitmap (dst src : Bitmap) (pos n m : Nat) :
    dst.appendFrom src pos (n + m) =
      (dst.appendFrom src pos n >>= fun r => r.1.appendFrom src r.2 m) :=
  InParts.appendFromLoop_add src m _ dst pos n rfl

/-- C122 for the encoder of bitmaps. -/
theorem C122_put_from (p : Profile) (e : Rle.Encoder) (src : Bitmap) (pos n m : Nat) :
    e.putFrom p src pos (n + m) =
      (e.putFrom p src pos n >>= fun r => r.1.putFrom p src r.2 m) :=
  InParts.putFromLoop_add p src m _ e pos n rfl

/-- C122 for primitive buffers, whatever they hold: copying a range returns exactly when copying its parts one after the other
does, and then the buffer is the same, and so is the position in the validity, if there is one. -/
theorem C122_primitive {α : Type} (dst src d : PrimitiveBuffer α) (i j k pos : Nat) (hij : i ≤ j) (hjk : j ≤ k) :
    (∀ q, dst.appendFrom src i k pos = .ok (d, q) →
      ∃ d1 q1 q2, dst.appendFrom src i j pos = .ok (d1, q1) ∧ d1.appendFrom src j k q1 = .ok (d, q2) ∧
        (src.isNullable → q2 = q)) ∧
    ∀ d1 q1 q, dst.appendFrom src i j pos = .ok (d1, q1) → d1.appendFrom src j k q1 = .ok (d, q) →
      ∃ q2, dst.appendFrom src i k pos = .ok (d, q2) ∧ (src.isNullable → q2 = q) := by
  have hsplit : k - i = (j - i) + (k - j) := by omega
  constructor
  · intro q h
    obtain ⟨c, hc, h⟩ := bind_eq_ok h
    obtain ⟨_, hk, rfl⟩ := InParts.slice_ok hc
    obtain ⟨s1, s2, s3⟩ := InParts.slice_parts src.values i j k hij hjk hk
    rw [s3] at hc
    injection hc with hc
    rw [← hc] at h
    dsimp only at h
    split at h
    · rename_i hlen
      obtain ⟨⟨v, q'⟩, hv, h⟩ := bind_eq_ok h
      cases h
      rw [hsplit] at hv
      obtain ⟨v1, q1, q2, h1, h2, h3⟩ := (InParts.validity_parts dst.validity src.validity pos (j - i) (k - j) _ _).1 hv
      simp only [List.length_append] at hlen
      refine ⟨⟨dst.values ++ (src.values.drop i).take (j - i), v1⟩, q1, q2, ?_, ?_, h3⟩
      · simp only [PrimitiveBuffer.appendFrom, s1, ok_bind, List.length_append, h1, pure_eq_ok]
        rw [if_pos (by omega)]
      · simp only [PrimitiveBuffer.appendFrom, s2, ok_bind, List.length_append, h2, pure_eq_ok, List.append_assoc]
        rw [if_pos (by omega)]
    · cases h
  · intro d1 q1 q h h'
    obtain ⟨c, hc, h⟩ := bind_eq_ok h
    obtain ⟨c', hc', h'⟩ := bind_eq_ok h'
    obtain ⟨_, _, rfl⟩ := InParts.slice_ok hc
    obtain ⟨_, hk, rfl⟩ := InParts.slice_ok hc'
    obtain ⟨s1, s2, s3⟩ := InParts.slice_parts src.values i j k hij hjk hk
    dsimp only at h h'
    split at h
    · obtain ⟨⟨v1, q1'⟩, hv, h⟩ := bind_eq_ok h
      cases h
      split at h'
      · rename_i hlen
        obtain ⟨⟨v, q'⟩, hv', h'⟩ := bind_eq_ok h'
        cases h'
        obtain ⟨q2, h1, h2⟩ := (InParts.validity_parts dst.validity src.validity pos (j - i) (k - j) _ _).2 _ _ hv hv'
        refine ⟨q2, ?_, h2⟩
        simp only [List.length_append] at hlen
        simp only [PrimitiveBuffer.appendFrom, s3, ok_bind, List.length_append, hsplit, h1, pure_eq_ok, List.append_assoc]
        rw [if_pos (by omega)]
      · cases h'
    · cases h

/-- C122 for binary buffers. The offsets of the source are in order, as those of every buffer that shows rows are; of the
destination nothing is assumed. -/
theorem C122_binary (p : Profile) (dst src d : BinaryBuffer) (hmono : src.offsets.Pairwise (· ≤ ·)) (i j k pos : Nat) (hij : i ≤ j)
    (hjk : j ≤ k) :
    (∀ q, dst.appendFrom p src i k pos = .ok (d, q) →
      ∃ d1 q1 q2, dst.appendFrom p src i j pos = .ok (d1, q1) ∧ d1.appendFrom p src j k q1 = .ok (d, q2) ∧
        (src.isNullable → q2 = q)) ∧
    ∀ d1 q1 q, dst.appendFrom p src i j pos = .ok (d1, q1) → d1.appendFrom p src j k q1 = .ok (d, q) →
      ∃ q2, dst.appendFrom p src i k pos = .ok (d, q2) ∧ (src.isNullable → q2 = q) := by
  have hsplit : k - i = (j - i) + (k - j) := by omega
  by_cases hk : k < src.offsets.length
  · have le : ∀ a b (hab : a ≤ b) (hb : b < src.offsets.length), src.offsets[a] ≤ src.offsets[b] := by
      intro a b hab hb
      rcases Nat.lt_or_eq_of_le hab with h | rfl
      · exact List.pairwise_iff_getElem.mp hmono a b (by omega) hb h
      · exact Nat.le_refl _
    have h1 := le i j hij (by omega)
    have h2 := le j k hjk hk
    have hi' : index src.offsets i = .ok src.offsets[i] := index_ok (by omega)
    have hj' : index src.offsets j = .ok src.offsets[j] := index_ok (by omega)
    have hk' : index src.offsets k = .ok src.offsets[k] := index_ok hk
    generalize src.offsets[i] = a at *
    generalize src.offsets[j] = b at *
    generalize src.offsets[k] = c at *
    have hlast : ∀ pushed : List Nat, ((dst.offsets ++ pushed).getLast?).getD 0 = pushed.getLast?.getD ((dst.offsets.getLast?).getD 0) := by
      intro pushed
      rw [List.getLast?_append]
      cases pushed.getLast? <;> rfl
    constructor
    · intro q h
      simp only [BinaryBuffer.appendFrom, hi', hk', ok_bind, Profile.sub_ok p (show i ≤ k by omega)] at h
      obtain ⟨pushed, hp, h⟩ := bind_eq_ok h
      rw [hsplit, InParts.offsets_parts] at hp
      obtain ⟨r, hr, hp⟩ := bind_eq_ok hp
      obtain ⟨r', hr', hp⟩ := bind_eq_ok hp
      cases hp
      obtain ⟨chunk, hc, h⟩ := bind_eq_ok h
      obtain ⟨_, hlen, _⟩ := InParts.slice_ok hc
      obtain ⟨s1, s2, s3⟩ := InParts.slice_parts src.data a b c h1 h2 hlen
      rw [s3] at hc
      cases hc
      split at h
      · rename_i hfit
        obtain ⟨⟨v, q'⟩, hv, h⟩ := bind_eq_ok h
        cases h
        rw [hsplit] at hv
        obtain ⟨v1, q1, q2, g1, g2, g3⟩ := (InParts.validity_parts dst.validity src.validity pos (j - i) (k - j) _ _).1 hv
        simp only [List.length_append] at hfit
        refine ⟨⟨dst.data ++ (src.data.drop a).take (b - a), dst.offsets ++ r, v1⟩, q1, q2, ?_, ?_, g3⟩
        · simp only [BinaryBuffer.appendFrom, hi', hj', ok_bind, Profile.sub_ok p hij, hr, s1, List.length_append, g1, pure_eq_ok]
          rw [if_pos (by omega)]
        · rw [show i + (j - i) = j by omega] at hr'
          simp only [BinaryBuffer.appendFrom, hj', hk', ok_bind, Profile.sub_ok p hjk, hlast, hr', s2, List.length_append, g2,
            pure_eq_ok, List.append_assoc]
          rw [if_pos (by omega)]
      · cases h
    · intro d1 q1 q h h'
      simp only [BinaryBuffer.appendFrom, hi', hj', ok_bind, Profile.sub_ok p hij] at h
      obtain ⟨r, hr, h⟩ := bind_eq_ok h
      obtain ⟨chunk, hc, h⟩ := bind_eq_ok h
      split at h
      · obtain ⟨⟨v1, q1'⟩, hv, h⟩ := bind_eq_ok h
        cases h
        simp only [BinaryBuffer.appendFrom, hj', hk', ok_bind, Profile.sub_ok p hjk, hlast] at h'
        obtain ⟨r', hr', h'⟩ := bind_eq_ok h'
        obtain ⟨chunk', hc', h'⟩ := bind_eq_ok h'
        obtain ⟨_, hlen, _⟩ := InParts.slice_ok hc'
        obtain ⟨s1, s2, s3⟩ := InParts.slice_parts src.data a b c h1 h2 hlen
        rw [s1] at hc; cases hc
        rw [s2] at hc'; cases hc'
        split at h'
        · rename_i hfit
          obtain ⟨⟨v, q'⟩, hv', h'⟩ := bind_eq_ok h'
          cases h'
          obtain ⟨q2, g1, g2⟩ := (InParts.validity_parts dst.validity src.validity pos (j - i) (k - j) _ _).2 _ _ hv hv'
          refine ⟨q2, ?_, g2⟩
          simp only [List.length_append] at hfit
          have ho := InParts.offsets_parts p src (k - j) (j - i) i (dst.offsets.getLast?.getD 0)
          rw [hr, ok_bind, show i + (j - i) = j by omega, hr', ok_bind, pure_eq_ok] at ho
          simp only [BinaryBuffer.appendFrom, hi', hk', ok_bind, Profile.sub_ok p (show i ≤ k by omega), hsplit, ho, s3,
            List.length_append, g1, pure_eq_ok, List.append_assoc]
          rw [if_pos (by omega)]
        · cases h'
      · cases h
  · have he : ∀ (d' : BinaryBuffer) l q x, d'.appendFrom p src l k q ≠ .ok x := by
      intro d' l q x h
      obtain ⟨_, _, h⟩ := bind_eq_ok h
      rw [index_err (by omega)] at h
      cases h
    exact ⟨fun q h => absurd h (he _ _ _ _), fun _ _ _ _ h => absurd h (he _ _ _ _)⟩

/-- Every buffer that shows rows has its offsets in order. -/
theorem C122_binary_ordered (nullable : Bool) (rows : List (Option Bytes)) (b : BinaryBuffer) (hb : b.Shows nullable rows) :
    b.offsets.Pairwise (· ≤ ·) := by
  rw [(BinaryEnc.items_of_shows hb).offsets]
  exact offsetsOf_pairwise _ _

/-- Four values and two nulls, the first two values and then the rest; the null between them is copied with the rest. -/
example :
    let bits := (Bitmap.new.appendAll [true, false, true, false, true, true]).toOption
    let src : PrimitiveBuffer Nat := ⟨[10, 20, 30, 40], bits⟩
    let once := (PrimitiveBuffer.new true).appendFrom src 0 4 0
    let first := (PrimitiveBuffer.new true).appendFrom src 0 2 0
    once.toOption.map (fun r => (r.1.values, r.1.numValues, r.2)) = some ([10, 20, 30, 40], 6, 6) ∧
    first.toOption.map (fun r => (r.1.values, r.1.numValues, r.2)) = some ([10, 20], 3, 3) ∧
    (first >>= fun r => r.1.appendFrom src 2 4 r.2).toOption = once.toOption := by
  decide +kernel

/-- Without a validity the positions are not the same: they are the number of values copied by the last call. -/
example :
    let src : PrimitiveBuffer Nat := ⟨[10, 20, 30], none⟩
    ((PrimitiveBuffer.new false).appendFrom src 0 3 0).toOption = some (⟨[10, 20, 30], none⟩, 3) ∧
    ((PrimitiveBuffer.new false).appendFrom src 0 2 0 >>= fun r => r.1.appendFrom src 2 3 r.2).toOption =
      some (⟨[10, 20, 30], none⟩, 1) := by
  decide +kernel

end Meerkat
