import Verif.Proofs.PrimitiveColumn

set_option autoImplicit false

/-! # Primitive columns without nulls in release builds, the block size not being a multiple of the element size -/

namespace Meerkat.PrimitiveEnc
open Spec
variable {α : Type} [Element α]

omit [Element α] in
@[simp] theorem valuesOf_map_some (vs : List α) : valuesOf (vs.map some) = vs := by
  induction vs with
  | nil => rfl
  | cons v vs ih => simp [valuesOf] at ih ⊢

omit [Element α] in
theorem endsWithValue_map_some (vs : List α) : EndsWithValue (vs.map some) := by
  rcases List.eq_nil_or_concat vs with rfl | ⟨l, v, rfl⟩
  · exact .inl rfl
  · exact .inr ⟨v, by simp⟩

omit [Element α] in
theorem takeVals_map_some (n : Nat) (vs : List α) : takeVals n (vs.map some) = (vs.take n).map some := by
  induction vs generalizing n with
  | nil => cases n <;> simp [takeVals]
  | cons v vs ih => cases n <;> simp [takeVals, ih]

omit [Element α] in
theorem chunkRows_map_some (c k : Nat) (vs : List α) :
    chunkRows c k (vs.map some) = ((List.range k).map fun i => (vs.drop (i * c)).take c).map (List.map some) ∧
    afterChunks c k (vs.map some) = (vs.drop (k * c)).map some := by
  induction k generalizing vs with
  | zero => simp [chunkRows, afterChunks]
  | succ k ih =>
    have hd : (vs.map some).drop (takeVals c (vs.map some)).length = (vs.drop c).map some := by
      rw [takeVals_map_some, List.length_map, List.length_take, ← List.map_drop]
      rcases Nat.le_total c vs.length with h | h
      · rw [Nat.min_eq_left h]
      · rw [Nat.min_eq_right h, List.drop_eq_nil_of_le h, List.drop_eq_nil_of_le (Nat.le_refl _)]
    obtain ⟨h1, h2⟩ := ih (vs.drop c)
    constructor
    · rw [chunkRows, hd, h1, List.range_succ_eq_map, takeVals_map_some]
      simp only [List.map_cons, List.map_map, Nat.zero_mul, List.drop_zero, List.cons.injEq, true_and]
      apply List.map_congr_left
      intro i _
      simp only [Function.comp, List.drop_drop]
      congr 4
      rw [Nat.succ_mul, Nat.add_comm]
    · rw [afterChunks, hd, h2, List.drop_drop]
      congr 2
      rw [Nat.succ_mul, Nat.add_comm]

/-- The blocks of groups of values, `n` rows being counted before. -/
def plainBlocks : Nat → List (List α) → List (Nat × Bytes)
  | _, [] => []
  | n, g :: gs => (n + g.length - 1, blockBytes false (g.map some)) :: plainBlocks (n + g.length) gs

theorem plainBlocks_append (as bs : List (List α)) (n : Nat) :
    plainBlocks n (as ++ bs) = plainBlocks n as ++ plainBlocks (n + as.flatten.length) bs := by
  induction as generalizing n with
  | nil => simp [plainBlocks]
  | cons a as ih => simp [plainBlocks, ih, Nat.add_assoc]

theorem plainBlocks_ids (gs : List (List α)) (n : Nat) : (plainBlocks n gs).map (·.1) = lastRowIds n gs := by
  induction gs generalizing n with
  | nil => rfl
  | cons g gs ih => simp [plainBlocks, lastRowIds, ih]

theorem plainBlocks_data (gs : List (List α)) (n : Nat) :
    (plainBlocks n gs).map (·.2) = (gs.map (List.map some)).map (blockBytes false) := by
  induction gs generalizing n with
  | nil => rfl
  | cons g gs ih => simp [plainBlocks, ih]

theorem blocksFrom_plain (gs : List (List α)) (n base : Nat) :
    blocksFrom false n base (gs.map (List.map some)) = plainBlocks n gs ∧
    increments false base (gs.map (List.map some)) = gs.flatten.length := by
  induction gs generalizing n base with
  | nil => simp [blocksFrom, plainBlocks, increments]
  | cons g gs ih =>
    simp only [List.map_cons, blocksFrom, plainBlocks, increments, increment, Bool.false_eq_true, if_false,
      valuesOf_map_some, List.flatten_cons, List.length_append]
    exact ⟨by rw [(ih _ _).1], by rw [(ih n _).2]⟩

theorem ofRows_clear_plain (vs : List (Option α)) :
    (PrimitiveBuffer.ofRows false vs).clear = PrimitiveBuffer.ofRows false [] := by
  simp [PrimitiveBuffer.clear, PrimitiveBuffer.ofRows, validityOfBits]

/-- Without overflow checks and with more than a block held back, `encode` adds the whole buffer, and writes everything once
there are as many values as a block should have bytes. -/
theorem encode_wrapped_ok (m : Nat) (hm : 0 < m) (hm64 : m < 2 ^ 64) (R b : List α) (e : Encoder α)
    (l : List (Nat × Bytes)) (hem : e.minBlockSize = m)
    (her : e.remaining = PrimitiveBuffer.ofRows false (R.map some))
    (hrm : ¬ R.length * Element.size α ≤ m) (hfit : R.length + b.length < U32_MAX)
    (hrows : e.numRows + (R.length + b.length) < 2 ^ 32) :
    ∃ e1 : Encoder α, encode .release recorder (PrimitiveBuffer.ofRows false (b.map some)) (e, l) =
      (.ok (), (e1, l ++ plainBlocks e.numRows (if R.length + b.length < m then [] else [R ++ b]))) ∧
      e1.remaining = PrimitiveBuffer.ofRows false ((if R.length + b.length < m then R ++ b else []).map some) ∧
      e1.minBlockSize = m ∧ e1.numRows = e.numRows + (if R.length + b.length < m then 0 else R.length + b.length) := by
  have hU : U32_MAX = 2 ^ 32 - 1 := rfl
  have hsz := Element.size_eq (α := α)
  have hl : e.remaining.len = R.length := by
    rw [her]; simp [PrimitiveBuffer.len, PrimitiveBuffer.ofRows]
  have hbl : (PrimitiveBuffer.ofRows false (b.map some)).len = b.length := by
    simp [PrimitiveBuffer.len, PrimitiveBuffer.ofRows]
  have hpos : 0 < R.length := by
    rcases Nat.eq_zero_or_pos R.length with h | h
    · rw [h] at hrm; omega
    · exact h
  have hroom : Profile.release.sub 64 m (R.length * Element.size α) =
      .ok (2 ^ 64 + m - R.length * Element.size α) := by
    rw [Profile.sub, if_neg hrm]
    refine congrArg Except.ok ?_
    rcases hsz with h | h <;> rw [h] at hrm ⊢ <;> omega
  have hr64 : 2 ^ 64 + m - R.length * Element.size α < 2 ^ 64 := by omega
  have hbig : b.length ≤ perBlock α (2 ^ 64 + m - R.length * Element.size α) := by
    simp only [perBlock]
    rcases hsz with h | h <;> rw [h] at hrm ⊢ <;> omega
  simp only [encode, encodeFuel, Run.bind_apply, Run.get_apply]
  rw [if_pos (by omega)]
  simp only [Run.bind_apply, hl, hem, hroom, Run.lift_ok]
  have hc62 := perBlock_le (α := α) hr64
  rw [chunk_ok _ _ _ _ (by omega), hbl, Nat.zero_add, Nat.min_eq_right hbig]
  simp only [Run.lift_ok]
  have happ := PrimitiveBuffer.ofRows_appendFrom false (R.map some) [] (b.map some) [] 0 (endsWithValue_map_some b)
    (by simpa using hfit) (by simp)
  rw [List.nil_append, List.append_nil, valuesOf_nil, List.length_nil, valuesOf_map_some] at happ
  rw [her, happ]
  simp only [Run.lift_ok, Run.set_apply]
  have hlen : (PrimitiveBuffer.ofRows false (R.map some ++ b.map some)).len = R.length + b.length := by
    simp [PrimitiveBuffer.len, PrimitiveBuffer.ofRows]
  rw [hlen]
  by_cases hlt : R.length + b.length < m
  · rw [if_pos hlt, if_pos hlt, if_pos hlt, if_pos hlt]
    exact ⟨{ e with remaining := PrimitiveBuffer.ofRows false (R.map some ++ b.map some) },
      by simp [Run.pure_apply, plainBlocks, hem], by simp, hem, by simp⟩
  · rw [if_neg hlt, if_neg hlt, if_neg hlt, if_neg hlt]
    generalize he0 : ({ remaining := PrimitiveBuffer.ofRows false (R.map some ++ b.map some), encodedData := e.encodedData, bitmapEncoder := e.bitmapEncoder, minBlockSize := m, numRows := e.numRows } : Encoder α) = e0
    have hn0 : e0.numRows = e.numRows := by rw [← he0]
    have hr0 : e0.remaining = PrimitiveBuffer.ofRows false (R.map some ++ b.map some) := by rw [← he0]
    have hm0 : e0.minBlockSize = m := by rw [← he0]
    obtain ⟨e', hw, h1, h2, h3⟩ := writeRange_ok .release false [] (R.map some ++ b.map some) [] 0 e0 l
      (by rw [← List.map_append]; exact endsWithValue_map_some _)
      (by rw [List.length_append, List.length_map, List.length_map]; omega) (by simp)
      (by rw [valuesOf_append, List.length_append, valuesOf_map_some, valuesOf_map_some]; omega)
      (by
        rw [increment, if_neg (by simp), valuesOf_append, List.length_append, valuesOf_map_some, valuesOf_map_some, hn0]
        exact hrows)
    simp only [List.nil_append, List.append_nil, valuesOf_nil, List.length_nil, increment, Bool.false_eq_true, if_false,
      valuesOf_append, valuesOf_map_some, List.length_append] at hw h3
    simp only [Run.bind_apply, writeRemaining, Run.get_apply, hr0, hlen]
    rw [hw]
    simp only [Run.set_apply]
    refine ⟨{ e' with remaining := e'.remaining.clear }, ?_, ?_, ?_, by rw [← hn0]; exact h3⟩
    · rw [encodeLoop, hbl, if_neg (by omega)]
      simp [Run.pure_apply, plainBlocks, hn0]
    · show e'.remaining.clear = _
      rw [h1, hr0]; exact ofRows_clear_plain _
    · show e'.minBlockSize = m
      rw [h2]; exact hm0

omit [Element α] in
theorem chunks_length (c : Nat) (b : List α) :
    ((List.range (b.length / c)).map fun k => (b.drop (k * c)).take c).flatten = b.take (b.length / c * c) := by
  have : ∀ k, ((List.range k).map fun k => (b.drop (k * c)).take c).flatten = b.take (k * c) := by
    intro k
    induction k with
    | zero => simp
    | succ k ih =>
      rw [List.range_succ, List.map_append, List.flatten_append, ih, Nat.succ_mul, List.take_add]
      simp
  exact this _

/-- The whole column, from a state holding back `R`. -/
theorem encodeColumn_wrapped (m : Nat) (hm : 0 < m) (hm64 : m < 2 ^ 64) (hd : ¬ Element.size α ∣ m)
    (bufs : List (List α)) : ∀ (R : List α) (e : Encoder α) (l : List (Nat × Bytes)), e.minBlockSize = m →
    e.remaining = PrimitiveBuffer.ofRows false (R.map some) →
    e.numRows + (R.length + (bufs.map List.length).sum) < 2 ^ 32 - 1 →
    ∃ e' : Encoder α, encodeColumn .release recorder (bufs.map fun b => PrimitiveBuffer.ofRows false (b.map some)) (e, l) =
      (.ok (), (e', l ++ plainBlocks e.numRows (wrappedGroups (perBlock α m) m R bufs))) := by
  have hU : U32_MAX = 2 ^ 32 - 1 := rfl
  have hsz := Element.size_eq (α := α)
  have hc := perBlock_pos (α := α) hm
  have hover : ∀ r : Nat, ¬ r * Element.size α ≤ m ↔ ¬ r < perBlock α m := by
    intro r
    rw [← lt_perBlock_iff hm]
    constructor
    · intro h; omega
    · intro h h2
      exact hd ⟨r, by rw [Nat.mul_comm]; omega⟩
  induction bufs with
  | nil =>
    intro R e l hem her hn
    simp only [List.map_nil, List.sum_nil, Nat.add_zero] at hn
    obtain ⟨e', h1, _⟩ := flush_ok .release false (R.map some) e l her (endsWithValue_map_some R)
      (by simp; omega)
      (by
        rw [flushOf]; split
        · simp [increments]; omega
        · simp [increments, increment]; omega)
    refine ⟨e', ?_⟩
    rw [encodeColumn, List.map_nil, encodeAll, Run.bind_ok (Run.pure_apply ..), h1, wrappedGroups, flushOf, valuesOf_map_some]
    split
    · simp [blocksFrom, plainBlocks]
    · simp [blocksFrom, plainBlocks, increment]
  | cons b bs ih =>
    intro R e l hem her hn
    rw [List.map_cons, List.sum_cons] at hn
    have hcol : ∀ {e1 : Encoder α} {l1}, encode .release recorder (PrimitiveBuffer.ofRows false (b.map some)) (e, l) = (.ok (), (e1, l1)) →
        encodeColumn .release recorder ((b :: bs).map fun b => PrimitiveBuffer.ofRows false (b.map some)) (e, l) =
        encodeColumn .release recorder (bs.map fun b => PrimitiveBuffer.ofRows false (b.map some)) (e1, l1) := by
      intro e1 l1 h
      rw [encodeColumn, List.map_cons, encodeAll, encodeColumn, Run.bind_apply, Run.bind_ok h, ← Run.bind_apply]
    by_cases h0 : R.length = 0
    · obtain rfl := List.eq_nil_of_length_eq_zero h0
      have hch : chunksOf (perBlock α m) (b.map some) =
          ((List.range (b.length / perBlock α m)).map fun k => (b.drop (k * perBlock α m)).take (perBlock α m)).map
            (List.map some) := by
        rw [chunksOf, valuesOf_map_some, (chunkRows_map_some _ _ _).1]
      have hle : leftOf (perBlock α m) (b.map some) = (b.drop (b.length / perBlock α m * perBlock α m)).map some := by
        rw [leftOf, valuesOf_map_some, (chunkRows_map_some _ _ _).2, dropTrailingNulls_of_ends (endsWithValue_map_some _)]
      obtain ⟨i1, i2⟩ := blocksFrom_plain ((List.range (b.length / perBlock α m)).map fun k =>
        (b.drop (k * perBlock α m)).take (perBlock α m)) e.numRows 0
      rw [chunks_length, List.length_take] at i2
      obtain ⟨e1, k1, k2, k3, k4⟩ := encode_fresh_ok .release false m hm hm64 (b.map some) e l hem her
        (by simp; omega) (by
          have := Nat.mod_le b.length (perBlock α m)
          simp; omega) (by rw [hch, i2]; omega)
      rw [hch, i2] at k4
      rw [hch, i1] at k1
      rw [hle] at k2
      have hdl : (b.drop (b.length / perBlock α m * perBlock α m)).length +
          min (b.length / perBlock α m * perBlock α m) b.length = b.length := by
        rw [List.length_drop]; omega
      obtain ⟨e2, j1⟩ := ih _ e1 _ k3 k2
        (by rw [k4]; simp only [List.length_nil] at hn; omega)
      refine ⟨e2, ?_⟩
      rw [hcol k1, j1, wrappedGroups, if_pos h0, plainBlocks_append, chunks_length, List.length_take, k4, List.append_assoc]
    · by_cases hlt : R.length < perBlock α m
      · have hst : step (perBlock α m) (R.map some) (b.map some) =
            ([], (R ++ b.take (perBlock α m - R.length)).map some) := by
          rw [step, valuesOf_map_some, if_neg h0, dropTrailingNulls_of_ends (endsWithValue_map_some b),
            takeVals_map_some, List.map_append]
        have hru : R.length * Element.size α ≤ m := by
          have := (lt_perBlock_iff (α := α) hm).mpr hlt; omega
        obtain ⟨e1, k1, k2, k3, k4⟩ := encode_step_ok .release false m hm hm64 (R.map some) (b.map some) e l hem her
          (endsWithValue_map_some R) (by simpa using hru) (by simp; omega)
          (by rw [hst]; simp only [valuesOf_map_some, List.length_append, List.length_take]; omega)
          (by rw [hst]; simp only [increments]; omega)
        rw [hst] at k1 k2 k4
        simp only [increments, Nat.add_zero, blocksFrom, List.append_nil] at k1 k4 k2
        obtain ⟨e2, j1⟩ := ih _ e1 l k3 k2 (by rw [k4, List.length_append, List.length_take]; omega)
        refine ⟨e2, ?_⟩
        rw [hcol k1, j1, wrappedGroups, if_neg h0, if_pos hlt, k4]
      · obtain ⟨e1, k1, k2, k3, k4⟩ := encode_wrapped_ok m hm hm64 R b e l hem her ((hover _).mpr hlt) (by omega) (by omega)
        by_cases hm2 : R.length + b.length < m
        · simp only [if_pos hm2, plainBlocks, List.append_nil, Nat.add_zero] at k1 k2 k4
          obtain ⟨e2, j1⟩ := ih _ e1 l k3 k2 (by rw [k4, List.length_append]; omega)
          refine ⟨e2, ?_⟩
          rw [hcol k1, j1, wrappedGroups, if_neg h0, if_neg hlt, if_pos hm2, k4]
        · simp only [if_neg hm2] at k1 k2 k4
          obtain ⟨e2, j1⟩ := ih _ e1 _ k3 k2 (by rw [k4]; simp only [List.length_nil]; omega)
          refine ⟨e2, ?_⟩
          rw [hcol k1, j1, wrappedGroups, if_neg h0, if_neg hlt, if_neg hm2, k4]
          simp [plainBlocks]

end Meerkat.PrimitiveEnc
