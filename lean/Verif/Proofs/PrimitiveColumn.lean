import Verif.Proofs.PrimitiveEnc

set_option autoImplicit false

/-! # A whole primitive column -/

namespace Meerkat.PrimitiveEnc
open Spec
variable {α : Type} [Element α]

/-- The full chunks of `c` values of a buffer. -/
def chunksOf (c : Nat) (rows : List (Option α)) : List (List (Option α)) :=
  chunkRows c ((valuesOf rows).length / c) rows

/-- What is left of a buffer after its full chunks, without trailing nulls. -/
def leftOf (c : Nat) (rows : List (Option α)) : List (Option α) :=
  dropTrailingNulls (afterChunks c ((valuesOf rows).length / c) rows)

/-- One `encode` call: `R` are the rows held back before; the result is the chunks written and the
rows held back after. -/
def step (c : Nat) (R rows : List (Option α)) : List (List (Option α)) × List (Option α) :=
  if (valuesOf R).length = 0 then (chunksOf c rows, leftOf c rows)
  else ([], R ++ takeVals (c - (valuesOf R).length) (dropTrailingNulls rows))

/-- The chunks written by each `encode` call. -/
def stepsOf (c : Nat) : List (Option α) → List (List (Option α)) → List (List (List (Option α)))
  | _, [] => []
  | R, b :: bs => (step c R b).1 :: stepsOf c (step c R b).2 bs

/-- The rows held back after all calls. -/
def heldOf (c : Nat) : List (Option α) → List (List (Option α)) → List (Option α)
  | R, [] => R
  | R, b :: bs => heldOf c (step c R b).2 bs

/-- The chunks written by `flush`. -/
def flushOf (R : List (Option α)) : List (List (Option α)) :=
  if (valuesOf R).length = 0 then [] else [R]

/-- The chunks written by each `encode` call and by the final `flush`. -/
def callsOf (c : Nat) (R : List (Option α)) (bufs : List (List (Option α))) :
    List (List (List (Option α))) := stepsOf c R bufs ++ [flushOf (heldOf c R bufs)]

/-- Total growth of `num_rows`. -/
def totalIncrements (nullable : Bool) : List (List (List (Option α))) → Nat
  | [] => 0
  | ms :: cs => increments nullable 0 ms + totalIncrements nullable cs

/-- All blocks given to the sink. -/
def blocksOf (nullable : Bool) : Nat → List (List (List (Option α))) → List (Nat × Bytes)
  | _, [] => []
  | n, ms :: cs => blocksFrom nullable n 0 ms ++ blocksOf nullable (n + increments nullable 0 ms) cs

/-- In no call do the rows held back exceed the block size in bytes. -/
def NoUnderflow (m : Nat) : List (Option α) → List (List (Option α)) → Prop
  | _, [] => True
  | R, b :: bs => (valuesOf R).length * Element.size α ≤ m ∧ NoUnderflow m (step (perBlock α m) R b).2 bs

omit [Element α] in
theorem leftOf_spec {c : Nat} (hc : 0 < c) (rows : List (Option α)) :
    (valuesOf (leftOf c rows)).length = (valuesOf rows).length % c ∧ EndsWithValue (leftOf c rows) ∧
    (leftOf c rows).length ≤ rows.length ∧
    dropTrailingNulls rows = (chunksOf c rows).flatten ++ leftOf c rows ∧
    ∀ m ∈ chunksOf c rows, (valuesOf m).length = c ∧ EndsWithValue m := by
  unfold leftOf chunksOf
  generalize hk : (valuesOf rows).length / c = k
  induction k generalizing rows with
  | zero =>
    have hlt : (valuesOf rows).length < c := by
      have := (Nat.div_eq_zero_iff (a := (valuesOf rows).length) (b := c)).mp hk; omega
    refine ⟨?_, dropTrailingNulls_ends _, ?_, by simp [chunkRows, afterChunks], by simp [chunkRows]⟩
    · rw [afterChunks, dropTrailingNulls_values, Nat.mod_eq_of_lt hlt]
    · rw [afterChunks]
      obtain ⟨q, h, _⟩ := dropTrailingNulls_spec rows
      have := congrArg List.length h; simp at this; omega
  | succ k ih =>
    have hge : c ≤ (valuesOf rows).length := by
      rcases Nat.lt_or_ge (valuesOf rows).length c with h | h
      · rw [Nat.div_eq_of_lt h] at hk; omega
      · exact h
    have hrv := length_drop_takeVals c rows
    have hk' : (valuesOf (rows.drop (takeVals c rows).length)).length / c = k := by
      rw [hrv]
      have : (valuesOf rows).length = ((valuesOf rows).length - c) + c := by omega
      rw [this, Nat.add_div_right _ hc] at hk; omega
    obtain ⟨h1, h2, h3, h4, h5⟩ := ih _ hk'
    have hme := takeVals_ends c rows hge
    refine ⟨?_, h2, ?_, ?_, ?_⟩
    · rw [afterChunks, h1, hrv, ← Nat.mod_eq_sub_mod hge]
    · rw [afterChunks]; refine Nat.le_trans h3 ?_; simp
    · rw [chunkRows, afterChunks, List.flatten_cons, List.append_assoc, ← h4]
      generalize hr : rows.drop (takeVals c rows).length = r
      obtain ⟨q, hq1, hq2, hq3⟩ := dropTrailingNulls_spec r
      have hsp := takeVals_append_drop c rows
      rw [hr] at hsp
      rw [← dropTrailingNulls_eq (hq2.append_left hme) hq3, List.append_assoc, ← hq1, hsp]
    · rw [chunkRows]
      intro m hm
      rcases List.mem_cons.mp hm with rfl | hm
      · refine ⟨?_, hme⟩
        rw [takeVals_values, List.length_take]; omega
      · exact h5 m hm

omit [Element α] in
theorem values_zero {R : List (Option α)} (hR : EndsWithValue R) (h : (valuesOf R).length = 0) : R = [] := by
  rcases hR with h' | ⟨v, h'⟩
  · exact h'
  · exfalso
    have : v ∈ valuesOf R := by
      simp only [valuesOf, List.mem_filterMap, id]
      exact ⟨_, List.mem_of_getLast? h', rfl⟩
    rw [List.eq_nil_of_length_eq_zero h] at this
    simp at this

omit [Element α] in
theorem step_spec {c : Nat} (hc : 0 < c) (R rows : List (Option α)) (hR : EndsWithValue R)
    (hrc : (valuesOf R).length ≤ c) :
    EndsWithValue (step c R rows).2 ∧ (valuesOf (step c R rows).2).length ≤ c ∧
    (step c R rows).2.length ≤ R.length + rows.length ∧
    (valuesOf (step c R rows).2).length ≤ (valuesOf R).length + (valuesOf rows).length ∧
    ((valuesOf R).length * 1 = 0 → (valuesOf (step c R rows).2).length < c) := by
  simp only [step]
  obtain ⟨h1, h2, h3, _⟩ := leftOf_spec hc rows
  split
  · have := Nat.mod_lt (valuesOf rows).length hc
    have := Nat.mod_le (valuesOf rows).length c
    refine ⟨h2, ?_, ?_, ?_, ?_⟩ <;> simp only [h1] <;> omega
  · obtain ⟨q, hq1, hq2, hq3⟩ := dropTrailingNulls_spec rows
    have hl := congrArg List.length hq1
    rw [List.length_append] at hl
    have hv := takeVals_values (c - (valuesOf R).length) (dropTrailingNulls rows)
    have hvl := congrArg List.length hv
    rw [dropTrailingNulls_values, List.length_take] at hvl
    have hp := (takeVals_prefix (c - (valuesOf R).length) (dropTrailingNulls rows)).length_le
    refine ⟨?_, ?_, ?_, ?_, ?_⟩
    · refine EndsWithValue.append_left ?_ hR
      rcases Nat.le_total (c - (valuesOf R).length) (valuesOf (dropTrailingNulls rows)).length with h | h
      · exact takeVals_ends _ _ h
      · rw [takeVals_all hq2 h]; exact hq2
    · rw [valuesOf_append, List.length_append, hvl]; omega
    · rw [List.length_append]; omega
    · rw [valuesOf_append, List.length_append, hvl]; omega
    · intro h; omega

/-- `encode` with nothing held back. -/
theorem encode_fresh_ok (p : Profile) (nullable : Bool) (m : Nat) (hm : 0 < m) (hm64 : m < 2 ^ 64)
    (rows : List (Option α)) (e : Encoder α) (l : List (Nat × Bytes)) (hem : e.minBlockSize = m)
    (her : e.remaining = PrimitiveBuffer.ofRows nullable []) (hlen : rows.length < 2 ^ 60)
    (hfit : (valuesOf rows).length % perBlock α m < U32_MAX)
    (hrows : e.numRows + increments nullable 0 (chunksOf (perBlock α m) rows) < 2 ^ 32) :
    ∃ e' : Encoder α, encode p recorder (PrimitiveBuffer.ofRows nullable rows) (e, l) =
      (.ok (), (e', l ++ blocksFrom nullable e.numRows 0 (chunksOf (perBlock α m) rows))) ∧
      e'.remaining = PrimitiveBuffer.ofRows nullable (leftOf (perBlock α m) rows) ∧
      e'.minBlockSize = m ∧
      e'.numRows = e.numRows + increments nullable 0 (chunksOf (perBlock α m) rows) := by
  have hk : (valuesOf rows).length / perBlock α m < (PrimitiveBuffer.ofRows nullable rows).len + 1 := by
    have := Nat.div_le_self (valuesOf rows).length (perBlock α m)
    simp only [PrimitiveBuffer.len, PrimitiveBuffer.ofRows]; omega
  obtain ⟨e', h1, h2⟩ := encodeLoop_ok p nullable m hm hm64 _ _ [] rows 0 e l hem her rfl hk hlen hfit
    (by simp) hrows
  refine ⟨e', ?_, h2⟩
  simp only [encode, encodeFuel, Run.bind_apply, Run.get_apply]
  rw [if_neg (by rw [her]; simp [PrimitiveBuffer.len, PrimitiveBuffer.ofRows])]
  exact h1

theorem encode_fresh_err (p : Profile) (nullable : Bool) (m : Nat) (hm : 0 < m) (hm64 : m < 2 ^ 64)
    (rows : List (Option α)) (e : Encoder α) (l : List (Nat × Bytes)) (hem : e.minBlockSize = m)
    (her : e.remaining = PrimitiveBuffer.ofRows nullable []) (hlen : rows.length < 2 ^ 60)
    (hn : e.numRows < 2 ^ 32)
    (hrows : ¬ e.numRows + increments nullable 0 (chunksOf (perBlock α m) rows) < 2 ^ 32) :
    ∃ (e' : Encoder α) (j : Nat), encode p recorder (PrimitiveBuffer.ofRows nullable rows) (e, l) =
      (.error (.panic .expect), (e', l ++
        (blocksFrom nullable e.numRows 0 (chunksOf (perBlock α m) rows)).take j)) ∧
      j < (chunksOf (perBlock α m) rows).length := by
  have hk : (valuesOf rows).length / perBlock α m < (PrimitiveBuffer.ofRows nullable rows).len + 1 := by
    have := Nat.div_le_self (valuesOf rows).length (perBlock α m)
    simp only [PrimitiveBuffer.len, PrimitiveBuffer.ofRows]; omega
  obtain ⟨e', j, h1, h2⟩ := encodeLoop_err p nullable m hm hm64 _ _ [] rows 0 e l hem rfl hk hlen hn
    (by simp) hrows
  refine ⟨e', j, ?_, ?_⟩
  · simp only [encode, encodeFuel, Run.bind_apply, Run.get_apply]
    rw [if_neg (by rw [her]; simp [PrimitiveBuffer.len, PrimitiveBuffer.ofRows])]
    exact h1
  · have : ∀ (k : Nat) (r : List (Option α)), (chunkRows (perBlock α m) k r).length = k := by
      intro k; induction k with
      | zero => intro r; rfl
      | succ k ih => intro r; simp [chunkRows, ih]
    rw [chunksOf, this]; exact h2

/-- `encode` with something held back. -/
theorem encode_pending_ok (p : Profile) (nullable : Bool) (m : Nat) (hm64 : m < 2 ^ 64)
    (R rows : List (Option α)) (e : Encoder α) (l : List (Nat × Bytes)) (hem : e.minBlockSize = m)
    (her : e.remaining = PrimitiveBuffer.ofRows nullable R) (hpos : 0 < (valuesOf R).length)
    (hrm : (valuesOf R).length * Element.size α ≤ m)
    (hfit : (valuesOf (step (perBlock α m) R rows).2).length < U32_MAX) :
    encode p recorder (PrimitiveBuffer.ofRows nullable rows) (e, l) =
      (.ok (), ({ e with remaining := PrimitiveBuffer.ofRows nullable (step (perBlock α m) R rows).2 }, l)) := by
  have hsz := Element.size_eq (α := α)
  have hrc : (valuesOf R).length ≤ perBlock α m := by
    have h1 := (perBlock_spec (α := α) m).1
    rcases hsz with h | h <;> rw [h] at hrm h1 <;> omega
  have hpm : perBlock α m < m := by
    simp only [perBlock]
    rcases hsz with h | h <;> rw [h] at hrm ⊢ <;> split <;> omega
  simp only [encode, encodeFuel, Run.bind_apply, Run.get_apply]
  have hl : e.remaining.len = (valuesOf R).length := by
    rw [her]; simp [PrimitiveBuffer.len, PrimitiveBuffer.ofRows]
  rw [if_pos (by omega)]
  have hc62 := perBlock_le (α := α) hm64
  simp only [Run.bind_apply, hl, hem]
  rw [Profile.sub_ok p hrm]
  simp only [Run.lift_ok]
  rw [chunk_ok p _ _ _ (by rw [perBlock_sub hrm]; omega), perBlock_sub hrm, Nat.zero_add]
  simp only [Run.lift_ok]
  obtain ⟨q, hq1, hq2, hq3⟩ := dropTrailingNulls_spec rows
  have hbl : (PrimitiveBuffer.ofRows nullable rows).len = (valuesOf rows).length := by
    simp [PrimitiveBuffer.len, PrimitiveBuffer.ofRows]
  rw [hbl]
  -- the rows taken
  generalize ha : takeVals (perBlock α m - (valuesOf R).length) (dropTrailingNulls rows) = a
  have hs : (step (perBlock α m) R rows).2 = R ++ a := by
    rw [step, if_neg (by omega), ha]
  rw [hs] at hfit ⊢
  have hav : (valuesOf a).length = min (perBlock α m - (valuesOf R).length) (valuesOf rows).length := by
    rw [← ha, takeVals_values, List.length_take, dropTrailingNulls_values]
  have hae : EndsWithValue a := by
    rw [← ha]
    rcases Nat.le_total (perBlock α m - (valuesOf R).length) (valuesOf (dropTrailingNulls rows)).length with h | h
    · exact takeVals_ends _ _ h
    · rw [takeVals_all hq2 h]; exact hq2
  obtain ⟨t, ht⟩ := takeVals_prefix (perBlock α m - (valuesOf R).length) (dropTrailingNulls rows)
  rw [ha] at ht
  have happ := PrimitiveBuffer.ofRows_appendFrom nullable R [] a (t ++ q) 0 hae hfit (by simp)
  rw [List.nil_append, ← List.append_assoc, ht, ← hq1, valuesOf_nil, List.length_nil, hav] at happ
  rw [her, happ]
  simp only [Run.lift_ok, Run.set_apply]
  have hlen : (PrimitiveBuffer.ofRows nullable (R ++ a)).len < m := by
    simp only [PrimitiveBuffer.len, PrimitiveBuffer.ofRows, valuesOf_append, List.length_append, hav]
    omega
  rw [if_pos hlen]
  simp [Run.pure_apply]

/-- With overflow checks, `encode` panics when more than a block is held back. -/
theorem encode_underflow (nullable : Bool) (m : Nat) (R rows : List (Option α)) (e : Encoder α)
    {S : Type} (k : Sink S) (s : S) (hem : e.minBlockSize = m)
    (her : e.remaining = PrimitiveBuffer.ofRows nullable R)
    (hrm : ¬ (valuesOf R).length * Element.size α ≤ m) :
    encode .debug k (PrimitiveBuffer.ofRows nullable rows) (e, s) =
      (.error (.panic .overflow), (e, s)) := by
  have hl : e.remaining.len = (valuesOf R).length := by
    rw [her]; simp [PrimitiveBuffer.len, PrimitiveBuffer.ofRows]
  have hpos : 0 < (valuesOf R).length := by
    rcases Nat.eq_zero_or_pos (valuesOf R).length with h | h
    · rw [h] at hrm; omega
    · exact h
  simp only [encode, encodeFuel, Run.bind_apply, Run.get_apply]
  rw [if_pos (by omega)]
  simp only [Run.bind_apply, hl, hem, Profile.sub, if_neg hrm, Run.lift_error]

theorem flush_ok (p : Profile) (nullable : Bool) (R : List (Option α)) (e : Encoder α)
    (l : List (Nat × Bytes)) (her : e.remaining = PrimitiveBuffer.ofRows nullable R)
    (hend : EndsWithValue R) (hlen : R.length < 2 ^ 60)
    (hrows : e.numRows + increments nullable 0 (flushOf R) < 2 ^ 32) :
    ∃ e' : Encoder α, flush p recorder (e, l) = (.ok (), (e', l ++ blocksFrom nullable e.numRows 0
      (flushOf R))) ∧ e'.remaining = e.remaining ∧
      e'.minBlockSize = e.minBlockSize ∧
      e'.numRows = e.numRows + increments nullable 0 (flushOf R) := by
  have hl : e.remaining.len = (valuesOf R).length := by
    rw [her]; simp [PrimitiveBuffer.len, PrimitiveBuffer.ofRows]
  simp only [flush, Run.bind_apply, Run.get_apply]
  by_cases h0 : (valuesOf R).length = 0
  · rw [if_neg (by omega), flushOf, if_pos h0]
    exact ⟨e, by simp [Run.pure_apply, blocksFrom], rfl, rfl, by simp [increments]⟩
  · rw [flushOf, if_neg h0] at hrows
    rw [if_pos (by omega), flushOf, if_neg h0]
    obtain ⟨e', hw, h1, h2, h3⟩ := writeRange_ok p nullable [] R [] 0 e l hend hlen (by simp) (by omega)
      (by simpa [increments] using hrows)
    refine ⟨e', ?_, h1, h2, by simpa [increments] using h3⟩
    simp only [Run.bind_apply, writeRemaining, Run.get_apply, hl]
    rw [her]
    simp only [List.nil_append, List.append_nil, valuesOf_nil, List.length_nil] at hw
    rw [hw]
    simp [Run.pure_apply, blocksFrom]

theorem flush_err (p : Profile) (nullable : Bool) (R : List (Option α)) (e : Encoder α)
    (l : List (Nat × Bytes)) (her : e.remaining = PrimitiveBuffer.ofRows nullable R)
    (hend : EndsWithValue R) (hlen : R.length < 2 ^ 60) (hn : e.numRows < 2 ^ 32)
    (hrows : ¬ e.numRows + increments nullable 0 (flushOf R) < 2 ^ 32) :
    ∃ e' : Encoder α, flush p recorder (e, l) = (.error (.panic .expect), (e', l)) := by
  have hl : e.remaining.len = (valuesOf R).length := by
    rw [her]; simp [PrimitiveBuffer.len, PrimitiveBuffer.ofRows]
  simp only [flush, Run.bind_apply, Run.get_apply]
  by_cases h0 : (valuesOf R).length = 0
  · rw [flushOf, if_pos h0] at hrows; simp only [increments] at hrows; omega
  · rw [flushOf, if_neg h0] at hrows
    rw [if_pos (by omega)]
    obtain ⟨e', hw⟩ := writeRange_err p nullable [] R [] 0 e l hend hlen (by simp)
      (by simpa [increments] using hrows)
    refine ⟨e', ?_⟩
    simp only [Run.bind_apply, writeRemaining, Run.get_apply, hl]
    rw [her]
    simp only [List.nil_append, List.append_nil, valuesOf_nil, List.length_nil] at hw
    rw [hw]

/-- One `encode` call, whatever is held back. -/
theorem encode_step_ok (p : Profile) (nullable : Bool) (m : Nat) (hm : 0 < m) (hm64 : m < 2 ^ 64)
    (R b : List (Option α)) (e : Encoder α) (l : List (Nat × Bytes)) (hem : e.minBlockSize = m)
    (her : e.remaining = PrimitiveBuffer.ofRows nullable R) (hend : EndsWithValue R)
    (hu : (valuesOf R).length * Element.size α ≤ m) (hlen : b.length < 2 ^ 60)
    (hfit : (valuesOf (step (perBlock α m) R b).2).length < U32_MAX)
    (hrows : e.numRows + increments nullable 0 (step (perBlock α m) R b).1 < 2 ^ 32) :
    ∃ e1 : Encoder α, encode p recorder (PrimitiveBuffer.ofRows nullable b) (e, l) =
      (.ok (), (e1, l ++ blocksFrom nullable e.numRows 0 (step (perBlock α m) R b).1)) ∧
      e1.remaining = PrimitiveBuffer.ofRows nullable (step (perBlock α m) R b).2 ∧
      e1.minBlockSize = m ∧
      e1.numRows = e.numRows + increments nullable 0 (step (perBlock α m) R b).1 := by
  by_cases h0 : (valuesOf R).length = 0
  · have hR := values_zero hend h0
    have hst : step (perBlock α m) R b = (chunksOf (perBlock α m) b, leftOf (perBlock α m) b) := by
      rw [step, if_pos h0]
    rw [hst] at hrows hfit ⊢
    rw [hR] at her
    rw [(leftOf_spec (perBlock_pos hm) b).1] at hfit
    exact encode_fresh_ok p nullable m hm hm64 b e l hem her hlen hfit hrows
  · have hst : (step (perBlock α m) R b).1 = [] := by rw [step, if_neg h0]
    refine ⟨{ e with remaining := PrimitiveBuffer.ofRows nullable (step (perBlock α m) R b).2 }, ?_, rfl,
      hem, by simp [hst, increments]⟩
    rw [encode_pending_ok p nullable m hm64 R b e l hem her (by omega) hu hfit, hst]
    simp [blocksFrom]

omit [Element α] in
theorem heldOf_spec {c : Nat} (hc : 0 < c) (bufs : List (List (Option α))) : ∀ (R : List (Option α)),
    EndsWithValue R → (valuesOf R).length ≤ c →
    EndsWithValue (heldOf c R bufs) ∧ (valuesOf (heldOf c R bufs)).length ≤ c ∧
    (heldOf c R bufs).length ≤ R.length + (bufs.map List.length).sum := by
  induction bufs with
  | nil => intro R h1 h2; exact ⟨h1, h2, by simp [heldOf]⟩
  | cons b bs ih =>
    intro R h1 h2
    obtain ⟨g1, g2, g3, _⟩ := step_spec hc R b h1 h2
    obtain ⟨k1, k2, k3⟩ := ih _ g1 g2
    refine ⟨k1, k2, ?_⟩
    simp only [heldOf, List.map_cons, List.sum_cons]; omega

theorem blocksFrom_length (nullable : Bool) (ms : List (List (Option α))) (n b : Nat) :
    (blocksFrom nullable n b ms).length = ms.length := by
  induction ms generalizing n b with
  | nil => rfl
  | cons x ms ih => simp [blocksFrom, ih]

theorem blocksOf_length (nullable : Bool) (cs : List (List (List (Option α)))) (n : Nat) :
    (blocksOf nullable n cs).length = cs.flatten.length := by
  induction cs generalizing n with
  | nil => rfl
  | cons x ms ih => rw [blocksOf, List.length_append, ih, blocksFrom_length]; simp

theorem blocksOf_append (nullable : Bool) (as bs : List (List (List (Option α)))) (n : Nat) :
    blocksOf nullable n (as ++ bs) =
      blocksOf nullable n as ++ blocksOf nullable (n + totalIncrements nullable as) bs := by
  induction as generalizing n with
  | nil => simp [blocksOf, totalIncrements]
  | cons a as ih => simp [blocksOf, totalIncrements, ih, Nat.add_assoc]

omit [Element α] in
theorem totalIncrements_append (nullable : Bool) (as bs : List (List (List (Option α)))) :
    totalIncrements nullable (as ++ bs) = totalIncrements nullable as + totalIncrements nullable bs := by
  induction as with
  | nil => simp [totalIncrements]
  | cons a as ih => simp [totalIncrements, ih, Nat.add_assoc]

/-- All `encode` calls of a column, from a state holding back `R`. -/
theorem encodeAll_ok (p : Profile) (nullable : Bool) (m : Nat) (hm : 0 < m) (hm64 : m < 2 ^ 64)
    (bufs : List (List (Option α))) : ∀ (R : List (Option α)) (e : Encoder α) (l : List (Nat × Bytes)),
    e.minBlockSize = m → e.remaining = PrimitiveBuffer.ofRows nullable R → EndsWithValue R →
    (valuesOf R).length ≤ perBlock α m → NoUnderflow m R bufs →
    R.length + (bufs.map List.length).sum < 2 ^ 60 →
    (perBlock α m < U32_MAX ∨ R.length + (bufs.map List.length).sum < U32_MAX) →
    e.numRows + totalIncrements nullable (stepsOf (perBlock α m) R bufs) < 2 ^ 32 →
    ∃ e' : Encoder α, encodeAll p recorder (bufs.map (PrimitiveBuffer.ofRows nullable)) (e, l) =
      (.ok (), (e', l ++ blocksOf nullable e.numRows (stepsOf (perBlock α m) R bufs))) ∧
      e'.minBlockSize = m ∧
      e'.remaining = PrimitiveBuffer.ofRows nullable (heldOf (perBlock α m) R bufs) ∧
      e'.numRows = e.numRows + totalIncrements nullable (stepsOf (perBlock α m) R bufs) := by
  have hc := perBlock_pos (α := α) hm
  induction bufs with
  | nil =>
    intro R e l hem her hend hrc hu hlen hfit hrows
    exact ⟨e, by simp [encodeAll, Run.pure_apply, stepsOf, blocksOf], hem, her,
      by simp [stepsOf, totalIncrements]⟩
  | cons b bs ih =>
    intro R e l hem her hend hrc hu hlen hfit hrows
    simp only [stepsOf, heldOf, totalIncrements, blocksOf, List.map_cons, List.sum_cons] at hrows hlen hfit ⊢
    obtain ⟨g1, g2, g3, g4, g5⟩ := step_spec hc R b hend hrc
    have hfit2 : (valuesOf (step (perBlock α m) R b).2).length < U32_MAX := by
      have := valuesOf_length_le (step (perBlock α m) R b).2
      omega
    obtain ⟨e1, k1, k2, k3, k4⟩ :=
      encode_step_ok p nullable m hm hm64 R b e l hem her hend hu.1 (by omega) hfit2 (by omega)
    obtain ⟨e2, j1, j2, j3, j4⟩ := ih _ e1
      (l ++ blocksFrom nullable e.numRows 0 (step (perBlock α m) R b).1)
      k3 k2 g1 g2 hu.2 (by omega) (by omega) (by rw [k4]; omega)
    refine ⟨e2, ?_, j2, j3, by rw [j4, k4]; omega⟩
    rw [encodeAll, Run.bind_ok k1, j1, k4, List.append_assoc]

theorem encodeAll_err (p : Profile) (nullable : Bool) (m : Nat) (hm : 0 < m) (hm64 : m < 2 ^ 64)
    (bufs : List (List (Option α))) : ∀ (R : List (Option α)) (e : Encoder α) (l : List (Nat × Bytes)),
    e.minBlockSize = m → e.remaining = PrimitiveBuffer.ofRows nullable R → EndsWithValue R →
    (valuesOf R).length ≤ perBlock α m → NoUnderflow m R bufs →
    R.length + (bufs.map List.length).sum < 2 ^ 60 →
    (perBlock α m < U32_MAX ∨ R.length + (bufs.map List.length).sum < U32_MAX) →
    e.numRows < 2 ^ 32 →
    ¬ e.numRows + totalIncrements nullable (stepsOf (perBlock α m) R bufs) < 2 ^ 32 →
    ∃ (e' : Encoder α) (j : Nat),
      encodeAll p recorder (bufs.map (PrimitiveBuffer.ofRows nullable)) (e, l) =
      (.error (.panic .expect),
        (e', l ++ (blocksOf nullable e.numRows (stepsOf (perBlock α m) R bufs)).take j)) ∧
      j < (stepsOf (perBlock α m) R bufs).flatten.length := by
  have hc := perBlock_pos (α := α) hm
  induction bufs with
  | nil =>
    intro R e l hem her hend hrc hu hlen hfit hn hrows
    simp only [stepsOf, totalIncrements] at hrows; omega
  | cons b bs ih =>
    intro R e l hem her hend hrc hu hlen hfit hn hrows
    simp only [stepsOf, totalIncrements, blocksOf, List.map_cons, List.sum_cons, List.flatten_cons,
      List.length_append] at hrows hlen hfit ⊢
    obtain ⟨g1, g2, g3, g4, g5⟩ := step_spec hc R b hend hrc
    have hfit2 : (valuesOf (step (perBlock α m) R b).2).length < U32_MAX := by
      have := valuesOf_length_le (step (perBlock α m) R b).2
      omega
    by_cases hnow : e.numRows + increments nullable 0 (step (perBlock α m) R b).1 < 2 ^ 32
    · obtain ⟨e1, k1, k2, k3, k4⟩ :=
        encode_step_ok p nullable m hm hm64 R b e l hem her hend hu.1 (by omega) hfit2 hnow
      obtain ⟨e2, j, j1, j2⟩ := ih _ e1 (l ++ blocksFrom nullable e.numRows 0 (step (perBlock α m) R b).1)
        k3 k2 g1 g2 hu.2 (by omega) (by omega) (by omega) (by rw [k4]; omega)
      refine ⟨e2, (step (perBlock α m) R b).1.length + j, ?_, by omega⟩
      rw [encodeAll, Run.bind_ok k1, j1, k4, List.append_assoc, List.take_append, blocksFrom_length,
        Nat.add_sub_cancel_left]
      rw [List.take_of_length_le (l := blocksFrom _ _ _ _) (by rw [blocksFrom_length]; omega)]
    · by_cases h0 : (valuesOf R).length = 0
      · have hR := values_zero hend h0
        have hst : step (perBlock α m) R b = (chunksOf (perBlock α m) b, leftOf (perBlock α m) b) := by
          rw [step, if_pos h0]
        rw [hR] at her
        rw [hst] at hnow ⊢
        obtain ⟨e1, j, k1, k2⟩ := encode_fresh_err p nullable m hm hm64 b e l hem her (by omega) hn hnow
        refine ⟨e1, j, ?_, by simp only; omega⟩
        have ht : ∀ X : List (Nat × Bytes), (blocksFrom nullable e.numRows 0
            (chunksOf (perBlock α m) b) ++ X).take j =
            (blocksFrom nullable e.numRows 0 (chunksOf (perBlock α m) b)).take j := by
          intro X
          rw [List.take_append, blocksFrom_length, Nat.sub_eq_zero_of_le (Nat.le_of_lt k2)]; simp
        rw [ht, encodeAll, Run.bind_error k1]
      · have hst : (step (perBlock α m) R b).1 = [] := by rw [step, if_neg h0]
        rw [hst] at hnow; simp only [increments] at hnow; omega

/-- A column from a state holding back `R`: what it writes when the row counter suffices. -/
theorem encodeColumn_ok (p : Profile) (nullable : Bool) (m : Nat) (hm : 0 < m) (hm64 : m < 2 ^ 64)
    (bufs : List (List (Option α))) (R : List (Option α)) (e : Encoder α) (l : List (Nat × Bytes))
    (hem : e.minBlockSize = m) (her : e.remaining = PrimitiveBuffer.ofRows nullable R)
    (hend : EndsWithValue R) (hrc : (valuesOf R).length ≤ perBlock α m) (hu : NoUnderflow m R bufs)
    (hlen : R.length + (bufs.map List.length).sum < 2 ^ 60)
    (hfit : perBlock α m < U32_MAX ∨ R.length + (bufs.map List.length).sum < U32_MAX)
    (hrows : e.numRows + totalIncrements nullable (callsOf (perBlock α m) R bufs) < 2 ^ 32) :
    ∃ e' : Encoder α, encodeColumn p recorder (bufs.map (PrimitiveBuffer.ofRows nullable)) (e, l) =
      (.ok (), (e', l ++ blocksOf nullable e.numRows (callsOf (perBlock α m) R bufs))) ∧
      e'.numRows = e.numRows + totalIncrements nullable (callsOf (perBlock α m) R bufs) := by
  simp only [callsOf, totalIncrements_append, blocksOf_append, totalIncrements, blocksOf] at hrows ⊢
  obtain ⟨e1, k1, k2, k3, k4⟩ := encodeAll_ok p nullable m hm hm64 bufs R e l hem her hend hrc hu hlen hfit
    (by omega)
  obtain ⟨g1, g2, g3⟩ := heldOf_spec (perBlock_pos hm) bufs R hend hrc
  obtain ⟨e2, j1, j2, j3, j4⟩ := flush_ok p nullable _ e1
    (l ++ blocksOf nullable e.numRows (stepsOf (perBlock α m) R bufs)) k3 g1 (by omega) (by rw [k4]; omega)
  refine ⟨e2, ?_, by rw [j4, k4]; omega⟩
  rw [encodeColumn, Run.bind_ok k1, j1, k4]
  simp

/-- A column from a state holding back `R`, when the row counter does not suffice. -/
theorem encodeColumn_err (p : Profile) (nullable : Bool) (m : Nat) (hm : 0 < m) (hm64 : m < 2 ^ 64)
    (bufs : List (List (Option α))) (R : List (Option α)) (e : Encoder α) (l : List (Nat × Bytes))
    (hem : e.minBlockSize = m) (her : e.remaining = PrimitiveBuffer.ofRows nullable R)
    (hend : EndsWithValue R) (hrc : (valuesOf R).length ≤ perBlock α m) (hu : NoUnderflow m R bufs)
    (hlen : R.length + (bufs.map List.length).sum < 2 ^ 60)
    (hfit : perBlock α m < U32_MAX ∨ R.length + (bufs.map List.length).sum < U32_MAX)
    (hn : e.numRows < 2 ^ 32)
    (hrows : ¬ e.numRows + totalIncrements nullable (callsOf (perBlock α m) R bufs) < 2 ^ 32) :
    ∃ (e' : Encoder α) (j : Nat),
      encodeColumn p recorder (bufs.map (PrimitiveBuffer.ofRows nullable)) (e, l) =
      (.error (.panic .expect),
        (e', l ++ (blocksOf nullable e.numRows (callsOf (perBlock α m) R bufs)).take j)) ∧
      j < (callsOf (perBlock α m) R bufs).flatten.length := by
  simp only [callsOf, totalIncrements_append, blocksOf_append, totalIncrements, blocksOf,
    List.flatten_append, List.length_append] at hrows ⊢
  by_cases hnow : e.numRows + totalIncrements nullable (stepsOf (perBlock α m) R bufs) < 2 ^ 32
  · obtain ⟨e1, k1, k2, k3, k4⟩ := encodeAll_ok p nullable m hm hm64 bufs R e l hem her hend hrc hu hlen hfit
      hnow
    obtain ⟨g1, g2, g3⟩ := heldOf_spec (perBlock_pos hm) bufs R hend hrc
    obtain ⟨e2, j1⟩ := flush_err p nullable _ e1
      (l ++ blocksOf nullable e.numRows (stepsOf (perBlock α m) R bufs)) k3 g1 (by omega)
      (by rw [k4]; omega) (by rw [k4]; omega)
    refine ⟨e2, (stepsOf (perBlock α m) R bufs).flatten.length, ?_, ?_⟩
    · rw [encodeColumn, Run.bind_ok k1, j1, ← blocksOf_length nullable _ e.numRows, List.take_left]
    · have : flushOf (heldOf (perBlock α m) R bufs) ≠ [] := by
        intro h; rw [h] at hrows; simp only [increments] at hrows; omega
      have := List.length_pos_iff.mpr this
      simp only [List.flatten_cons, List.flatten_nil, List.append_nil]; omega
  · obtain ⟨e1, j, k1, k2⟩ := encodeAll_err p nullable m hm hm64 bufs R e l hem her hend hrc hu hlen hfit
      hn hnow
    refine ⟨e1, j, ?_, by omega⟩
    rw [encodeColumn, Run.bind_error k1, List.take_append, blocksOf_length,
      Nat.sub_eq_zero_of_le (Nat.le_of_lt k2)]
    simp

theorem noUnderflow_of_dvd {m : Nat} (hm : 0 < m) (hd : Element.size α ∣ m) (bufs : List (List (Option α))) :
    ∀ R : List (Option α), EndsWithValue R → (valuesOf R).length ≤ perBlock α m → NoUnderflow m R bufs := by
  induction bufs with
  | nil => intro R _ _; trivial
  | cons b bs ih =>
    intro R hend hrc
    obtain ⟨g1, g2, _⟩ := step_spec (perBlock_pos hm) R b hend hrc
    refine ⟨?_, ih _ g1 g2⟩
    have := perBlock_dvd hd
    rw [← this]
    exact Nat.mul_le_mul_right _ hrc

/-- All `encode` calls of a column, however they end: what was written is a beginning of the expected blocks; with
overflow checks they succeed only if there was no underflow. -/
theorem encodeAll_prefix (p : Profile) (nullable : Bool) (m : Nat) (hm : 0 < m) (hm64 : m < 2 ^ 64)
    (bufs : List (List (Option α))) : ∀ (R : List (Option α)) (e : Encoder α) (l : List (Nat × Bytes)),
    e.minBlockSize = m → e.remaining = PrimitiveBuffer.ofRows nullable R → EndsWithValue R →
    (valuesOf R).length ≤ perBlock α m → (p = .debug ∨ NoUnderflow m R bufs) →
    R.length + (bufs.map List.length).sum < 2 ^ 60 →
    (perBlock α m < U32_MAX ∨ R.length + (bufs.map List.length).sum < U32_MAX) →
    e.numRows < 2 ^ 32 →
    ∃ (r : Except Fault Unit) (e' : Encoder α) (j : Nat),
      encodeAll p recorder (bufs.map (PrimitiveBuffer.ofRows nullable)) (e, l) =
      (r, (e', l ++ (blocksOf nullable e.numRows (stepsOf (perBlock α m) R bufs)).take j)) ∧
      (r = .ok () → NoUnderflow m R bufs) := by
  have hc := perBlock_pos (α := α) hm
  induction bufs with
  | nil =>
    intro R e l hem her hend hrc hu hlen hfit hn
    exact ⟨.ok (), e, 0, by simp [encodeAll, Run.pure_apply], fun _ => trivial⟩
  | cons b bs ih =>
    intro R e l hem her hend hrc hu hlen hfit hn
    simp only [stepsOf, blocksOf, List.map_cons, List.sum_cons] at hlen hfit ⊢
    obtain ⟨g1, g2, g3, g4, g5⟩ := step_spec hc R b hend hrc
    have hfit2 : (valuesOf (step (perBlock α m) R b).2).length < U32_MAX := by
      have := valuesOf_length_le (step (perBlock α m) R b).2
      omega
    by_cases hu1 : (valuesOf R).length * Element.size α ≤ m
    · by_cases hnow : e.numRows + increments nullable 0 (step (perBlock α m) R b).1 < 2 ^ 32
      · obtain ⟨e1, k1, k2, k3, k4⟩ :=
          encode_step_ok p nullable m hm hm64 R b e l hem her hend hu1 (by omega) hfit2 hnow
        obtain ⟨r, e2, j, j1, j2⟩ := ih _ e1 (l ++ blocksFrom nullable e.numRows 0 (step (perBlock α m) R b).1)
          k3 k2 g1 g2 (hu.imp id (·.2)) (by omega) (by omega) (by omega)
        refine ⟨r, e2, (step (perBlock α m) R b).1.length + j, ?_, fun h => ⟨hu1, j2 h⟩⟩
        rw [encodeAll, Run.bind_ok k1, j1, k4, List.append_assoc, List.take_append, blocksFrom_length,
          Nat.add_sub_cancel_left]
        rw [List.take_of_length_le (l := blocksFrom _ _ _ _) (by rw [blocksFrom_length]; omega)]
      · by_cases h0 : (valuesOf R).length = 0
        · have hR := values_zero hend h0
          have hst : step (perBlock α m) R b = (chunksOf (perBlock α m) b, leftOf (perBlock α m) b) := by
            rw [step, if_pos h0]
          rw [hR] at her
          rw [hst] at hnow ⊢
          obtain ⟨e1, j, k1, k2⟩ := encode_fresh_err p nullable m hm hm64 b e l hem her (by omega) hn hnow
          refine ⟨.error (.panic .expect), e1, j, ?_, fun h => by cases h⟩
          have ht : ∀ X : List (Nat × Bytes), (blocksFrom nullable e.numRows 0
              (chunksOf (perBlock α m) b) ++ X).take j =
              (blocksFrom nullable e.numRows 0 (chunksOf (perBlock α m) b)).take j := by
            intro X
            rw [List.take_append, blocksFrom_length, Nat.sub_eq_zero_of_le (Nat.le_of_lt k2)]; simp
          rw [ht, encodeAll, Run.bind_error k1]
        · have hst : (step (perBlock α m) R b).1 = [] := by rw [step, if_neg h0]
          rw [hst] at hnow; simp only [increments] at hnow; omega
    · rcases hu with rfl | hu
      · refine ⟨.error (.panic .overflow), e, 0, ?_, fun h => by cases h⟩
        rw [encodeAll, Run.bind_error (encode_underflow nullable m R b e recorder l hem her hu1)]
        simp
      · exact absurd hu.1 hu1

/-- Block sizes for which nothing can go below zero unnoticed. -/
theorem noUnderflow_of_ok {p : Profile} {nullable : Bool} {m : Nat} (hm : 0 < m) (hm64 : m < 2 ^ 64)
    (hd : Element.size α ∣ m ∨ p = .debug) {bufs : List (List (Option α))}
    (hlen : (bufs.map List.length).sum < U32_MAX) {s}
    (h : encodeAll p recorder (bufs.map (PrimitiveBuffer.ofRows nullable)) (Encoder.new m nullable, []) = (.ok (), s)) :
    NoUnderflow m [] bufs := by
  have hE0 : EndsWithValue ([] : List (Option α)) := by simp [EndsWithValue]
  have hU : U32_MAX = 2 ^ 32 - 1 := rfl
  rcases hd with hd | hd
  · exact noUnderflow_of_dvd hm hd bufs [] hE0 (by simp)
  · obtain ⟨r, e', j, h1, h2⟩ := encodeAll_prefix p nullable m hm hm64 bufs [] (Encoder.new m nullable) [] rfl
      (PrimitiveBuffer.new_eq _) hE0 (by simp) (.inl hd) (by simp only [List.length_nil]; omega)
      (.inr (by simp only [List.length_nil]; omega)) (by simp [Encoder.new])
    rw [h1] at h
    exact h2 (Prod.mk.inj h).1

theorem perBlock_ceil (m : Nat) : perBlock α m = (m + Element.size α - 1) / Element.size α := by
  have hsz := Element.size_eq (α := α)
  simp only [perBlock]
  rcases hsz with h | h <;> rw [h] <;> split <;> omega

/-! ## Facts about the chunks -/

omit [Element α] in
/-- How many of the values of the buffers end up in blocks, given the number of values of each. -/
theorem stepsOf_pending {c : Nat} (bufs : List (List (Option α))) : ∀ (R : List (Option α)),
    EndsWithValue R → 0 < (valuesOf R).length → (valuesOf R).length ≤ c →
    (stepsOf c R bufs).flatten = [] ∧
    heldOf c R bufs = R ++ takeVals (c - (valuesOf R).length) (bufs.flatMap dropTrailingNulls) := by
  induction bufs with
  | nil =>
    intro R _ _ _
    refine ⟨rfl, ?_⟩
    cases c - (valuesOf R).length <;> simp [heldOf, takeVals]
  | cons b bs ih =>
    intro R h1 h2 h3
    obtain ⟨g1, g2, _⟩ := step_spec (by omega) R b h1 h3
    have hst : step c R b = ([], R ++ takeVals (c - (valuesOf R).length) (dropTrailingNulls b)) := by
      rw [step, if_neg (by omega)]
    have hv := takeVals_values (c - (valuesOf R).length) (dropTrailingNulls b)
    have hvl := congrArg List.length hv
    rw [List.length_take] at hvl
    obtain ⟨k1, k2⟩ := ih (step c R b).2 g1 (by rw [hst]; simp; omega) g2
    refine ⟨?_, ?_⟩
    · rw [stepsOf, List.flatten_cons, k1, hst]; rfl
    · rw [heldOf, k2, hst, List.append_assoc, List.flatMap_cons]
      simp only [valuesOf_append, List.length_append, hvl]
      congr 1
      rcases Nat.le_total (c - (valuesOf R).length) (valuesOf (dropTrailingNulls b)).length with h | h
      · rw [takeVals_append_le h]
        have : c - ((valuesOf R).length + min (c - (valuesOf R).length)
          (valuesOf (dropTrailingNulls b)).length) = 0 := by omega
        rw [this]; simp [takeVals]
      · rw [takeVals_append_ge (dropTrailingNulls_ends b) h, takeVals_all (dropTrailingNulls_ends b) h]
        congr 2
        omega

omit [Element α] in
theorem flushOf_flatten {R : List (Option α)} (h : EndsWithValue R) : (flushOf R).flatten = R := by
  rw [flushOf]
  split
  · rename_i h0; rw [values_zero h h0]; rfl
  · simp

omit [Element α] in
theorem callsOf_rows {c : Nat} (hc : 0 < c) (bufs : List (List (Option α))) :
    (callsOf c [] bufs).flatten.flatten =
      takeVals (kept c (bufs.map fun b => (valuesOf b).length)) (bufs.flatMap dropTrailingNulls) := by
  induction bufs with
  | nil => simp [callsOf, stepsOf, heldOf, flushOf, takeVals, kept]
  | cons b bs ih =>
    obtain ⟨g1, g2, g3, g4, g5⟩ := leftOf_spec hc b
    have hst : step c [] b = (chunksOf c b, leftOf c b) := by simp [step]
    have hdv := dropTrailingNulls_values b
    have hsum : (valuesOf (bs.flatMap dropTrailingNulls)).length =
        (bs.map fun b => (valuesOf b).length).sum := by
      clear ih
      induction bs with
      | nil => rfl
      | cons x xs ih =>
        rw [List.flatMap_cons, valuesOf_append, List.length_append, dropTrailingNulls_values, ih]
        simp
    have hends : EndsWithValue (bs.flatMap dropTrailingNulls) := by
      rw [List.flatMap_def]
      exact ends_flatten (by simp; intro a _; exact dropTrailingNulls_ends a)
    simp only [List.map_cons, kept, List.flatMap_cons]
    split
    · rename_i h0
      have hz : leftOf c b = [] := values_zero g2 (by rw [g1, h0])
      rw [takeVals_append_ge (dropTrailingNulls_ends b) (by rw [hdv]; omega), hdv,
        Nat.add_sub_cancel_left, ← ih, g4, hz]
      simp [callsOf, stepsOf, heldOf, hst, hz]
    · rename_i h0
      have hlt := Nat.mod_lt (valuesOf b).length hc
      obtain ⟨k1, k2⟩ := stepsOf_pending (c := c) bs (leftOf c b) g2 (by omega) (by omega)
      have hheld := heldOf_spec hc bs (leftOf c b) g2 (by omega)
      rw [takeVals_append_ge (dropTrailingNulls_ends b) (by rw [hdv]; omega), hdv,
        Nat.add_sub_cancel_left, g4]
      simp only [callsOf, stepsOf, heldOf, hst, List.cons_append, List.flatten_cons, List.flatten_append,
        List.flatten_nil, List.append_nil, k1, List.nil_append]
      rw [flushOf_flatten hheld.1, k2, g1, List.append_assoc]
      congr 2
      rcases Nat.le_total (c - (valuesOf b).length % c) (bs.map fun b => (valuesOf b).length).sum with h | h
      · rw [Nat.min_eq_left h]
      · rw [Nat.min_eq_right h, takeVals_all hends (by omega), takeVals_all hends (by omega)]

omit [Element α] in
/-- Every chunk written by `encode` has `c` values; the one written by `flush` at most `c`. -/
theorem stepsOf_chunks {c : Nat} (hc : 0 < c) (bufs : List (List (Option α))) : ∀ (R : List (Option α)),
    EndsWithValue R → (valuesOf R).length ≤ c →
    ∀ m ∈ (stepsOf c R bufs).flatten, (valuesOf m).length = c ∧ EndsWithValue m := by
  induction bufs with
  | nil => intro R _ _ m hm; simp [stepsOf] at hm
  | cons b bs ih =>
    intro R h1 h2 m hm
    obtain ⟨g1, g2, _⟩ := step_spec hc R b h1 h2
    rw [stepsOf, List.flatten_cons, List.mem_append] at hm
    rcases hm with hm | hm
    · rw [step] at hm
      split at hm
      · exact (leftOf_spec hc b).2.2.2.2 m hm
      · simp at hm
    · exact ih _ g1 g2 m hm

omit [Element α] in
theorem callsOf_chunks {c : Nat} (hc : 0 < c) (bufs : List (List (Option α))) (R : List (Option α))
    (h1 : EndsWithValue R) (h2 : (valuesOf R).length ≤ c) :
    ∀ m ∈ (callsOf c R bufs).flatten, 0 < (valuesOf m).length ∧ (valuesOf m).length ≤ c ∧ EndsWithValue m := by
  intro m hm
  rw [callsOf, List.flatten_append, List.mem_append] at hm
  rcases hm with hm | hm
  · have := stepsOf_chunks hc bufs R h1 h2 m hm
    exact ⟨by omega, by omega, this.2⟩
  · obtain ⟨g1, g2, _⟩ := heldOf_spec hc bufs R h1 h2
    simp only [List.flatten_cons, List.flatten_nil, List.append_nil, flushOf] at hm
    split at hm
    · simp at hm
    · simp only [List.mem_singleton] at hm
      subst hm
      exact ⟨by omega, g2, g1⟩

theorem blocksFrom_data (nullable : Bool) (ms : List (List (Option α))) (n b : Nat) :
    (blocksFrom nullable n b ms).map (·.2) = ms.map (blockBytes nullable) := by
  induction ms generalizing n b with
  | nil => rfl
  | cons x ms ih => simp [blocksFrom, ih]

theorem blocksOf_data (nullable : Bool) (cs : List (List (List (Option α)))) (n : Nat) :
    (blocksOf nullable n cs).map (·.2) = cs.flatten.map (blockBytes nullable) := by
  induction cs generalizing n with
  | nil => rfl
  | cons x ms ih => rw [blocksOf, List.map_append, blocksFrom_data, ih]; simp

theorem mapM_readPrimitive (q : Profile) (nullable : Bool) (ms : List (List (Option α)))
    (h : ∀ m ∈ ms, EndsWithValue m ∧ Accepts nullable m ∧ m.length < 2 ^ 32 - 7) :
    (ms.map (blockBytes nullable)).mapM (readPrimitive q nullable) = some ms := by
  induction ms with
  | nil => rfl
  | cons m ms ih =>
    have hm := h m (List.mem_cons_self ..)
    rw [List.map_cons, List.mapM_cons, readPrimitive_blockBytes q nullable m hm.1 hm.2.1 hm.2.2,
      ih (fun m' hm' => h m' (List.mem_cons_of_mem _ hm'))]
    rfl

/-! ## Row counting -/

omit [Element α] in
theorem values_eq_length {m : List (Option α)} (h : none ∉ m) : (valuesOf m).length = m.length :=
  valuesOf_length_of_no_none h

/-- The calls whose blocks get the right row ids: all of them for columns that are not nullable,
those that write at most one block for nullable columns. -/
def CountsRight (nullable : Bool) (ms : List (List (Option α))) : Prop :=
  if nullable then ms.length ≤ 1 else ∀ m ∈ ms, none ∉ m

theorem blocksFrom_ids (nullable : Bool) (ms : List (List (Option α))) (n : Nat)
    (h : CountsRight nullable ms) :
    (blocksFrom nullable n 0 ms).map (·.1) = lastRowIds n ms ∧
    n + increments nullable 0 ms = n + ms.flatten.length := by
  cases nullable with
  | true =>
    simp only [CountsRight, if_true] at h
    match ms, h with
    | [], _ => simp [blocksFrom, lastRowIds, increments]
    | [m], _ => simp [blocksFrom, lastRowIds, increments, increment]
    | _ :: _ :: _, h => simp at h
  | false =>
    simp only [CountsRight] at h
    simp only [Bool.false_eq_true, if_false] at h
    have : ∀ (b n : Nat), (blocksFrom false n b ms).map (·.1) = lastRowIds n ms ∧
        n + increments false b ms = n + ms.flatten.length := by
      induction ms with
      | nil => intro b n; simp [blocksFrom, lastRowIds, increments]
      | cons m ms ih =>
        intro b n
        have hm := values_eq_length (h m (List.mem_cons_self ..))
        obtain ⟨h1, h2⟩ := ih (fun m' hm' => h m' (List.mem_cons_of_mem _ hm')) (b + m.length) (n + m.length)
        simp only [blocksFrom, increments, increment, Bool.false_eq_true, if_false, hm, List.map_cons, h1,
          lastRowIds, List.flatten_cons, List.length_append]
        exact ⟨trivial, by omega⟩
    exact this 0 n

omit [Element α] in
theorem lastRowIds_append {β : Type} (as bs : List (List β)) (n : Nat) :
    lastRowIds n (as ++ bs) = lastRowIds n as ++ lastRowIds (n + as.flatten.length) bs := by
  induction as generalizing n with
  | nil => simp [lastRowIds]
  | cons a as ih =>
    simp only [List.cons_append, lastRowIds, ih, List.flatten_cons, List.length_append, Nat.add_assoc]

theorem blocksOf_ids (nullable : Bool) (cs : List (List (List (Option α)))) (n : Nat)
    (h : ∀ ms ∈ cs, CountsRight nullable ms) :
    (blocksOf nullable n cs).map (·.1) = lastRowIds n cs.flatten := by
  induction cs generalizing n with
  | nil => rfl
  | cons ms cs ih =>
    obtain ⟨h1, h2⟩ := blocksFrom_ids nullable ms n (h ms (List.mem_cons_self ..))
    rw [blocksOf, List.map_append, h1, h2, ih _ (fun m hm => h m (List.mem_cons_of_mem _ hm)),
      List.flatten_cons, lastRowIds_append]

omit [Element α] in
theorem totalIncrements_false (cs : List (List (List (Option α)))) :
    totalIncrements false cs = (valuesOf cs.flatten.flatten).length := by
  have : ∀ (ms : List (List (Option α))) (b : Nat),
      increments false b ms = (valuesOf ms.flatten).length := by
    intro ms; induction ms with
    | nil => intro b; rfl
    | cons m ms ih => intro b; simp [increments, increment, ih]
  induction cs with
  | nil => rfl
  | cons c cs ih => simp [totalIncrements, this, ih]

omit [Element α] in
theorem increments_true_le (ms : List (List (Option α))) (b : Nat) :
    increments true b ms ≤ ms.length * (b + ms.flatten.length) := by
  induction ms generalizing b with
  | nil => simp [increments]
  | cons m ms ih =>
    have h := ih (b + m.length)
    simp only [increments, increment, if_true, List.length_cons, List.flatten_cons, List.length_append]
    have : (ms.length + 1) * (b + (m.length + ms.flatten.length)) =
        ms.length * (b + m.length + ms.flatten.length) + (b + m.length + ms.flatten.length) := by
      rw [Nat.add_mul, Nat.one_mul]; simp only [Nat.add_assoc]
    omega

omit [Element α] in
theorem totalIncrements_true_le (cs : List (List (List (Option α)))) (N : Nat)
    (h : cs.flatten.flatten.length ≤ N) : totalIncrements true cs ≤ cs.flatten.length * N := by
  induction cs with
  | nil => simp [totalIncrements]
  | cons c cs ih =>
    simp only [List.flatten_cons, List.flatten_append, List.length_append] at h
    have h1 := increments_true_le c 0
    have h2 := ih (by omega)
    have h3 : c.length * (0 + c.flatten.length) ≤ c.length * N := Nat.mul_le_mul_left _ (by omega)
    simp only [totalIncrements, List.flatten_cons, List.length_append, Nat.add_mul]
    omega

omit [Element α] in
/-- Without nulls, `num_rows` grows quadratically. -/
theorem increments_true_eq (c : Nat) (ms : List (List (Option α))) (b : Nat)
    (h : ∀ m ∈ ms, m.length = c) :
    2 * increments true b ms = ms.length * (2 * b + c * (ms.length + 1)) := by
  induction ms generalizing b with
  | nil => simp [increments]
  | cons m ms ih =>
    have hm := h m (List.mem_cons_self ..)
    have hi := ih (b + c) (fun m' hm' => h m' (List.mem_cons_of_mem _ hm'))
    simp only [increments, increment, if_true, hm, List.length_cons]
    rw [Nat.mul_add, hi]
    generalize ms.length = k
    have e1 : c * (k + 1 + 1) = c * (k + 1) + c := by rw [Nat.mul_add c (k+1) 1, Nat.mul_one]
    have e2 : 2 * (b + c) + c * (k + 1) = 2 * b + c * (k + 1) + 2 * c := by omega
    rw [e1, e2, Nat.add_mul, Nat.one_mul, Nat.mul_add k]
    have e3 : k * (2 * b + (c * (k + 1) + c)) = k * (2 * b + c * (k + 1)) + k * c := by
      rw [← Nat.add_assoc, Nat.mul_add k (2 * b + c * (k + 1))]
    rw [e3]
    have e4 : c * (k + 1) = c * k + c := by rw [Nat.mul_add, Nat.mul_one]
    have e5 : k * (2 * c) = 2 * (c * k) := by rw [Nat.mul_comm k, Nat.mul_assoc]
    have e6 : k * c = c * k := Nat.mul_comm ..
    omega

omit [Element α] in
theorem stepsOf_mem_step {c : Nat} (bufs : List (List (Option α))) : ∀ (R : List (Option α)),
    ∀ ms ∈ stepsOf c R bufs, ms = [] ∨ ∃ b ∈ bufs, ms = chunksOf c b := by
  induction bufs with
  | nil => intro R ms h; simp [stepsOf] at h
  | cons b bs ih =>
    intro R ms h
    rw [stepsOf, List.mem_cons] at h
    rcases h with rfl | h
    · rw [step]
      split
      · right; exact ⟨b, List.mem_cons_self .., rfl⟩
      · left; rfl
    · rcases ih _ ms h with h | ⟨b', h1, h2⟩
      · left; exact h
      · right; exact ⟨b', List.mem_cons_of_mem _ h1, h2⟩

omit [Element α] in
theorem chunksOf_length (c : Nat) (b : List (Option α)) :
    (chunksOf c b).length = (valuesOf b).length / c := by
  have : ∀ (k : Nat) (r : List (Option α)), (chunkRows c k r).length = k := by
    intro k; induction k with
    | zero => intro r; rfl
    | succ k ih => intro r; simp [chunkRows, ih]
  rw [chunksOf, this]

omit [Element α] in
/-- Number of blocks. -/
theorem callsOf_count {c : Nat} (hc : 0 < c) (bufs : List (List (Option α))) (N : Nat)
    (hN : (valuesOf bufs.flatten).length ≤ N) : (callsOf c [] bufs).flatten.length ≤ N / c + 1 := by
  have hrows := congrArg (fun l => (valuesOf l).length) (callsOf_rows hc bufs)
  simp only [takeVals_values, List.length_take] at hrows
  have hv : (valuesOf (bufs.flatMap dropTrailingNulls)).length = (valuesOf bufs.flatten).length := by
    clear hrows hN
    induction bufs with
    | nil => rfl
    | cons b bs ih => rw [List.flatMap_cons]; simp [ih, dropTrailingNulls_values]
  rw [hv] at hrows
  have hall := stepsOf_chunks hc bufs [] (.inl rfl) (by simp)
  have h2 : (valuesOf (stepsOf c [] bufs).flatten.flatten).length =
      (stepsOf c [] bufs).flatten.length * c := by
    generalize (stepsOf c [] bufs).flatten = L at hall
    induction L with
    | nil => simp
    | cons m L ih =>
      have := hall m (List.mem_cons_self ..)
      rw [List.flatten_cons, valuesOf_append, List.length_append, this.1,
        ih (fun m' hm' => hall m' (List.mem_cons_of_mem _ hm')), List.length_cons, Nat.add_mul]
      omega
  rw [callsOf, List.flatten_append, List.flatten_append, valuesOf_append, List.length_append, h2] at hrows
  have hf : (flushOf (heldOf c [] bufs)).length ≤ 1 := by rw [flushOf]; split <;> simp
  rw [callsOf, List.flatten_append, List.length_append]
  simp only [List.flatten_cons, List.flatten_nil, List.append_nil]
  have h3 : (stepsOf c [] bufs).flatten.length ≤ N / c := by
    rw [Nat.le_div_iff_mul_le hc]; omega
  omega

end Meerkat.PrimitiveEnc
