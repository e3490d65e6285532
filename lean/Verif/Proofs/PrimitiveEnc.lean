import Verif.Proofs.PrimitiveBlock
import Verif.Proofs.Sink

set_option autoImplicit false

/-! # The primitive encoder as a function on rows -/

namespace Meerkat.PrimitiveEnc
open Spec
variable {α : Type} [Element α]

/-- Number of values `chunk` puts in `m` bytes: division rounded up. -/
def perBlock (α : Type) [Element α] (m : Nat) : Nat :=
  m / Element.size α + (if m % Element.size α ≠ 0 then 1 else 0)

theorem perBlock_spec (m : Nat) : m ≤ perBlock α m * Element.size α ∧
    (perBlock α m - 1) * Element.size α < m + (if m = 0 then 1 else 0) := by
  have hsz := Element.size_eq (α := α)
  simp only [perBlock]
  rcases hsz with h | h <;> rw [h] <;> split <;> split <;> omega

theorem perBlock_pos {m : Nat} (h : 0 < m) : 0 < perBlock α m := by
  have := (perBlock_spec (α := α) m).1
  rcases Nat.eq_zero_or_pos (perBlock α m) with h0 | h0
  · rw [h0] at this; omega
  · exact h0

theorem lt_perBlock_iff {m n : Nat} (_h : 0 < m) : n * Element.size α < m ↔ n < perBlock α m := by
  have hsz := Element.size_eq (α := α)
  simp only [perBlock]
  rcases hsz with h | h <;> rw [h] <;> split <;> omega

theorem perBlock_le {m : Nat} (_h : m < 2 ^ 64) : perBlock α m ≤ 2 ^ 62 := by
  have hsz := Element.size_eq (α := α)
  simp only [perBlock]
  rcases hsz with h | h <;> rw [h] <;> split <;> omega

theorem perBlock_sub {m r : Nat} (h : r * Element.size α ≤ m) :
    perBlock α (m - r * Element.size α) = perBlock α m - r := by
  have hsz := Element.size_eq (α := α)
  simp only [perBlock]
  rcases hsz with h' | h' <;> rw [h'] at h ⊢ <;> split <;> split <;> omega

theorem perBlock_dvd {m : Nat} (h : Element.size α ∣ m) : perBlock α m * Element.size α = m := by
  have hsz := Element.size_eq (α := α)
  simp only [perBlock]
  rcases hsz with h' | h' <;> rw [h'] at h ⊢ <;> split <;> omega

theorem chunk_ok (p : Profile) (buf : PrimitiveBuffer α) (start m : Nat)
    (h : start + perBlock α m < 2 ^ 64) :
    chunk p buf start m = .ok (min (start + perBlock α m) buf.len) := by
  rw [chunk]
  show (do let «end» ← p.add 64 start (perBlock α m); _) = _
  rw [Profile.add_ok p h]
  simp only [ok_bind, pure_eq_ok]
  split
  · rw [Nat.min_eq_right (by omega)]
  · rw [Nat.min_eq_left (by omega)]

/-- What `num_rows` grows by when the rows `m` of a buffer, preceded by `base` rows of the same
buffer, are written. -/
def increment (nullable : Bool) (base : Nat) (m : List (Option α)) : Nat :=
  if nullable then base + m.length else (valuesOf m).length

/-- Total growth of `num_rows` for successive chunks of one buffer. -/
def increments (nullable : Bool) : Nat → List (List (Option α)) → Nat
  | _, [] => 0
  | base, m :: ms => increment nullable base m + increments nullable (base + m.length) ms

/-- The blocks given to the sink for successive chunks of one buffer, `n` rows being counted before. -/
def blocksFrom (nullable : Bool) : Nat → Nat → List (List (Option α)) → List (Nat × Bytes)
  | _, _, [] => []
  | n, base, m :: ms =>
    (n + increment nullable base m - 1, blockBytes nullable m) ::
      blocksFrom nullable (n + increment nullable base m) (base + m.length) ms

theorem addRows_ok {a b : Nat} (h : a + b < 2 ^ 32) : addRows a b = .ok (a + b) := by
  rw [addRows, if_pos ⟨by omega, h⟩]

theorem addRows_err {a b : Nat} (h : ¬ a + b < 2 ^ 32) : addRows a b = .error .expect := by
  rw [addRows, if_neg (by omega)]

omit [Element α] in
theorem increment_pos (nullable : Bool) (base : Nat) (m : List (Option α))
    (h : 0 < (valuesOf m).length) : 0 < increment nullable base m := by
  have := valuesOf_length_le m
  simp only [increment]; split <;> omega

theorem writeRange_ok (p : Profile) (nullable : Bool) (pre mid post : List (Option α)) (pos : Nat)
    (e : Encoder α) (l : List (Nat × Bytes)) (hend : EndsWithValue mid) (hlen : mid.length < 2 ^ 60)
    (hpos : nullable = true → pos = pre.length) (hne : 0 < (valuesOf mid).length)
    (hrows : e.numRows + increment nullable pre.length mid < 2 ^ 32) :
    ∃ e' : Encoder α, writeRange p recorder (PrimitiveBuffer.ofRows nullable (pre ++ mid ++ post))
        (valuesOf pre).length (valuesOf (pre ++ mid)).length pos (e, l) =
      (.ok ⟨increment nullable pre.length mid, if nullable then pre.length + mid.length else 0⟩,
        (e', l ++ [(e.numRows + increment nullable pre.length mid - 1, blockBytes nullable mid)])) ∧
      e'.remaining = e.remaining ∧ e'.minBlockSize = e.minBlockSize ∧
      e'.numRows = e.numRows + increment nullable pre.length mid := by
  obtain ⟨be', h⟩ := encodePrimitiveBuffer_ok p nullable pre mid post pos e.bitmapEncoder hend hlen hpos
  have hi := increment_pos nullable pre.length mid hne
  refine ⟨⟨e.remaining, blockBytes nullable mid, be', e.minBlockSize,
    e.numRows + increment nullable pre.length mid⟩, ?_, rfl, rfl, rfl⟩
  simp only [writeRange, Run.bind_apply, Run.get_apply, h, Run.lift_ok, Run.set_apply]
  have ha := addRows_ok hrows
  simp only [increment] at ha hi hrows
  rw [ha]
  simp only [Run.lift_ok]
  rw [Profile.sub_ok p (by omega)]
  simp only [Run.lift_ok, Run.emit_recorder, increment, Run.pure_apply]

theorem writeRange_err (p : Profile) (nullable : Bool) (pre mid post : List (Option α)) (pos : Nat)
    (e : Encoder α) (l : List (Nat × Bytes)) (hend : EndsWithValue mid) (hlen : mid.length < 2 ^ 60)
    (hpos : nullable = true → pos = pre.length)
    (hrows : ¬ e.numRows + increment nullable pre.length mid < 2 ^ 32) :
    ∃ e' : Encoder α, writeRange p recorder (PrimitiveBuffer.ofRows nullable (pre ++ mid ++ post))
        (valuesOf pre).length (valuesOf (pre ++ mid)).length pos (e, l) =
      (.error (.panic .expect), (e', l)) := by
  obtain ⟨be', h⟩ := encodePrimitiveBuffer_ok p nullable pre mid post pos e.bitmapEncoder hend hlen hpos
  refine ⟨{ e with encodedData := blockBytes nullable mid, bitmapEncoder := be' }, ?_⟩
  simp only [writeRange, Run.bind_apply, Run.get_apply, h, Run.lift_ok, Run.set_apply]
  have ha := addRows_err hrows
  simp only [increment] at ha
  rw [ha]
  simp only [Run.lift_error]

/-- The first `k` chunks of `c` values. -/
def chunkRows (c : Nat) : Nat → List (Option α) → List (List (Option α))
  | 0, _ => []
  | k + 1, rows => takeVals c rows :: chunkRows c k (rows.drop (takeVals c rows).length)

/-- The rows after the first `k` chunks. -/
def afterChunks (c : Nat) : Nat → List (Option α) → List (Option α)
  | 0, rows => rows
  | k + 1, rows => afterChunks c k (rows.drop (takeVals c rows).length)

omit [Element α] in
theorem length_drop_takeVals (c : Nat) (rows : List (Option α)) :
    (valuesOf (rows.drop (takeVals c rows).length)).length = (valuesOf rows).length - c := by
  have h := congrArg (fun l => (valuesOf l).length) (takeVals_append_drop c rows)
  simp only [valuesOf_append, List.length_append, takeVals_values, List.length_take] at h
  omega

/-- The loop of `encode`: full chunks go to the sink, what is left to `remaining`. `I` says which rows a buffer holds. -/
theorem encodeLoop_inv (p : Profile) (nullable : Bool) (m : Nat) (hm : 0 < m) (hm64 : m < 2 ^ 64)
    (I : List (Option α) → PrimitiveBuffer α → Prop)
    (hI : ∀ (b : PrimitiveBuffer α) (pre mid post : List (Option α)) (pos : Nat), I [] b → EndsWithValue mid →
      (valuesOf mid).length < U32_MAX → (nullable = true → pos = pre.length) →
      ∃ b' x, b.appendFrom (PrimitiveBuffer.ofRows nullable (pre ++ mid ++ post)) (valuesOf pre).length
        (valuesOf (pre ++ mid)).length pos = .ok (b', x) ∧ I mid b')
    (k : Nat) : ∀ (fuel : Nat) (pre rest : List (Option α)) (pos : Nat) (e : Encoder α)
    (l : List (Nat × Bytes)), e.minBlockSize = m → I [] e.remaining →
    k = (valuesOf rest).length / perBlock α m → k < fuel →
    (pre ++ rest).length < 2 ^ 60 → (valuesOf rest).length % perBlock α m < U32_MAX →
    (nullable = true → pos = pre.length) →
    e.numRows + increments nullable pre.length (chunkRows (perBlock α m) k rest) < 2 ^ 32 →
    ∃ e' : Encoder α, encodeLoop p recorder (PrimitiveBuffer.ofRows nullable (pre ++ rest)) fuel
        (valuesOf pre).length pos (e, l) =
      (.ok (), (e', l ++ blocksFrom nullable e.numRows pre.length (chunkRows (perBlock α m) k rest))) ∧
      I (dropTrailingNulls (afterChunks (perBlock α m) k rest)) e'.remaining ∧
      e'.minBlockSize = m ∧
      e'.numRows = e.numRows + increments nullable pre.length (chunkRows (perBlock α m) k rest) := by
  have hc0 : 0 < perBlock α m := perBlock_pos hm
  have hc62 := perBlock_le (α := α) hm64
  induction k with
  | zero =>
    intro fuel pre rest pos e l hem her hk hf hlen hfit hpos hrows
    obtain ⟨f, rfl⟩ : ∃ f, fuel = f + 1 := ⟨fuel - 1, by omega⟩
    have hlt : (valuesOf rest).length < perBlock α m := by
      have := (Nat.div_eq_zero_iff (a := (valuesOf rest).length) (b := perBlock α m)).mp hk.symm
      omega
    rw [Nat.mod_eq_of_lt hlt] at hfit
    have hle := valuesOf_length_le pre
    have hle2 := valuesOf_length_le rest
    simp only [List.length_append] at hlen
    have hbl : (PrimitiveBuffer.ofRows nullable (pre ++ rest)).len =
        (valuesOf pre).length + (valuesOf rest).length := by
      simp [PrimitiveBuffer.len, PrimitiveBuffer.ofRows]
    rw [encodeLoop, hbl]
    obtain ⟨q, hq, hqe, hqv⟩ := dropTrailingNulls_spec rest
    have hv := dropTrailingNulls_values rest
    by_cases h0 : (valuesOf rest).length = 0
    · rw [if_neg (by omega)]
      refine ⟨e, by simp [Run.pure_apply, chunkRows, blocksFrom], ?_, hem, by simp [chunkRows, increments]⟩
      have : dropTrailingNulls rest = [] := by
        rcases hqe with h | ⟨v, h⟩
        · exact h
        · exfalso
          have : v ∈ valuesOf (dropTrailingNulls rest) := by
            simp only [valuesOf, List.mem_filterMap, id]
            exact ⟨_, List.mem_of_getLast? h, rfl⟩
          rw [hv, List.eq_nil_of_length_eq_zero h0] at this
          simp at this
      rw [afterChunks, this]; exact her
    · rw [if_pos (by omega)]
      simp only [Run.bind_apply, Run.get_apply, hem]
      rw [chunk_ok p _ _ _ (by omega), hbl, Nat.min_eq_right (by omega)]
      simp only [Run.lift_ok]
      rw [Profile.sub_ok p (by omega)]
      simp only [Run.lift_ok]
      rw [if_pos ((lt_perBlock_iff hm).mpr (by omega))]
      obtain ⟨b', x, ha, hb'⟩ := hI e.remaining pre (dropTrailingNulls rest) q pos her hqe
        (by rw [hv]; exact hfit) hpos
      rw [List.append_assoc, ← hq, valuesOf_append, hv, List.length_append] at ha
      simp only [Run.bind_apply, ha, Run.lift_ok, Run.set_apply]
      refine ⟨{ e with remaining := b' },
        by simp [chunkRows, blocksFrom, hem], hb', hem, by simp [chunkRows, increments]⟩
  | succ k ih =>
    intro fuel pre rest pos e l hem her hk hf hlen hfit hpos hrows
    obtain ⟨f, rfl⟩ : ∃ f, fuel = f + 1 := ⟨fuel - 1, by omega⟩
    generalize hmid : takeVals (perBlock α m) rest = mid at *
    generalize hrest : rest.drop mid.length = rest' at *
    have hge : perBlock α m ≤ (valuesOf rest).length := by
      rcases Nat.lt_or_ge (valuesOf rest).length (perBlock α m) with h | h
      · rw [Nat.div_eq_of_lt h] at hk; omega
      · exact h
    have hsplit : rest = mid ++ rest' := by
      rw [← hrest, ← hmid]; exact (takeVals_append_drop _ _).symm
    have hmv : (valuesOf mid).length = perBlock α m := by
      rw [← hmid, takeVals_values, List.length_take]; omega
    have hme : EndsWithValue mid := by rw [← hmid]; exact takeVals_ends _ _ hge
    have hrv : (valuesOf rest').length = (valuesOf rest).length - perBlock α m := by
      rw [← hrest, ← hmid]; exact length_drop_takeVals _ _
    have hk' : k = (valuesOf rest').length / perBlock α m := by
      rw [hrv, Nat.sub_eq_of_eq_add (Nat.sub_add_cancel hge).symm]
      have : (valuesOf rest).length = ((valuesOf rest).length - perBlock α m) + perBlock α m := by omega
      rw [this, Nat.add_div_right _ hc0] at hk; omega
    have hmod : (valuesOf rest').length % perBlock α m = (valuesOf rest).length % perBlock α m := by
      rw [hrv, ← Nat.mod_eq_sub_mod hge]
    have hle := valuesOf_length_le pre
    have hle2 := valuesOf_length_le rest
    have hbl : (PrimitiveBuffer.ofRows nullable (pre ++ rest)).len =
        (valuesOf pre).length + (valuesOf rest).length := by
      simp [PrimitiveBuffer.len, PrimitiveBuffer.ofRows]
    simp only [chunkRows, hmid, hrest, increments, afterChunks, blocksFrom] at hrows ⊢
    rw [encodeLoop, hbl, if_pos (by omega)]
    simp only [List.length_append] at hlen
    have hll := congrArg List.length hsplit
    rw [List.length_append] at hll
    simp only [Run.bind_apply, Run.get_apply, hem]
    rw [chunk_ok p _ _ _ (by omega), hbl, Nat.min_eq_left (by omega)]
    simp only [Run.lift_ok]
    rw [Profile.sub_ok p (by omega)]
    simp only [Run.lift_ok]
    rw [if_neg (by rw [lt_perBlock_iff hm]; omega)]
    obtain ⟨e1, hw, hr1, hm1, hn1⟩ := writeRange_ok p nullable pre mid rest' pos e l hme
      (by omega) hpos (by omega) (by omega)
    have hend : (valuesOf (pre ++ mid)).length = (valuesOf pre).length + perBlock α m := by
      rw [valuesOf_append, List.length_append, hmv]
    rw [hend, List.append_assoc, ← hsplit] at hw
    rw [Run.bind_ok (show writeBlock p recorder _ _ _ _ (e, l) = _ from hw)]
    obtain ⟨e2, hw2, hr2, hm2, hn2⟩ := ih f (pre ++ mid) rest'
      (if nullable then pre.length + mid.length else 0) e1
      (l ++ [(e.numRows + increment nullable pre.length mid - 1, blockBytes nullable mid)])
      (hm1.trans hem) (hr1 ▸ her) hk' (by omega)
      (by simp only [List.length_append]; omega) (by rw [hmod]; exact hfit)
      (by intro h; simp [h]) (by rw [hn1, List.length_append]; omega)
    rw [hend, List.append_assoc, ← hsplit, List.length_append] at hw2
    refine ⟨e2, ?_, hr2, hm2, ?_⟩
    · simp only
      rw [hw2, hn1]
      simp
    · rw [hn2, hn1, List.length_append]; omega

/-- The loop when nothing was ever held back. -/
theorem encodeLoop_ok (p : Profile) (nullable : Bool) (m : Nat) (hm : 0 < m) (hm64 : m < 2 ^ 64)
    (k : Nat) : ∀ (fuel : Nat) (pre rest : List (Option α)) (pos : Nat) (e : Encoder α)
    (l : List (Nat × Bytes)), e.minBlockSize = m → e.remaining = PrimitiveBuffer.ofRows nullable [] →
    k = (valuesOf rest).length / perBlock α m → k < fuel →
    (pre ++ rest).length < 2 ^ 60 → (valuesOf rest).length % perBlock α m < U32_MAX →
    (nullable = true → pos = pre.length) →
    e.numRows + increments nullable pre.length (chunkRows (perBlock α m) k rest) < 2 ^ 32 →
    ∃ e' : Encoder α, encodeLoop p recorder (PrimitiveBuffer.ofRows nullable (pre ++ rest)) fuel
        (valuesOf pre).length pos (e, l) =
      (.ok (), (e', l ++ blocksFrom nullable e.numRows pre.length (chunkRows (perBlock α m) k rest))) ∧
      e'.remaining = PrimitiveBuffer.ofRows nullable
        (dropTrailingNulls (afterChunks (perBlock α m) k rest)) ∧
      e'.minBlockSize = m ∧
      e'.numRows = e.numRows + increments nullable pre.length (chunkRows (perBlock α m) k rest) := by
  intro fuel pre rest pos e l hem her hk hf hlen hfit hpos hrows
  exact encodeLoop_inv p nullable m hm hm64 (fun rows b => b = PrimitiveBuffer.ofRows nullable rows)
    (fun b pre mid post pos hb he hf hp => by
      subst hb
      exact ⟨_, _, PrimitiveBuffer.ofRows_appendFrom nullable [] pre mid post pos he hf hp, rfl⟩)
    k fuel pre rest pos e l hem her hk hf hlen hfit hpos hrows

/-- The loop of `encode` when the row counter would pass `2^32 - 1`: it panics on the first such
block, which is not offered to the sink. -/
theorem encodeLoop_err (p : Profile) (nullable : Bool) (m : Nat) (hm : 0 < m) (hm64 : m < 2 ^ 64)
    (k : Nat) : ∀ (fuel : Nat) (pre rest : List (Option α)) (pos : Nat) (e : Encoder α)
    (l : List (Nat × Bytes)), e.minBlockSize = m →
    k = (valuesOf rest).length / perBlock α m → k < fuel →
    (pre ++ rest).length < 2 ^ 60 → e.numRows < 2 ^ 32 →
    (nullable = true → pos = pre.length) →
    ¬ e.numRows + increments nullable pre.length (chunkRows (perBlock α m) k rest) < 2 ^ 32 →
    ∃ (e' : Encoder α) (j : Nat), encodeLoop p recorder (PrimitiveBuffer.ofRows nullable (pre ++ rest)) fuel
        (valuesOf pre).length pos (e, l) =
      (.error (.panic .expect), (e', l ++
        (blocksFrom nullable e.numRows pre.length (chunkRows (perBlock α m) k rest)).take j)) ∧ j < k := by
  have hc0 : 0 < perBlock α m := perBlock_pos hm
  have hc62 := perBlock_le (α := α) hm64
  induction k with
  | zero =>
    intro fuel pre rest pos e l hem hk hf hlen hfit hpos hrows
    simp only [chunkRows, increments] at hrows
    omega
  | succ k ih =>
    intro fuel pre rest pos e l hem hk hf hlen hlt hpos hrows
    obtain ⟨f, rfl⟩ : ∃ f, fuel = f + 1 := ⟨fuel - 1, by omega⟩
    generalize hmid : takeVals (perBlock α m) rest = mid at *
    generalize hrest : rest.drop mid.length = rest' at *
    have hge : perBlock α m ≤ (valuesOf rest).length := by
      rcases Nat.lt_or_ge (valuesOf rest).length (perBlock α m) with h | h
      · rw [Nat.div_eq_of_lt h] at hk; omega
      · exact h
    have hsplit : rest = mid ++ rest' := by
      rw [← hrest, ← hmid]; exact (takeVals_append_drop _ _).symm
    have hmv : (valuesOf mid).length = perBlock α m := by
      rw [← hmid, takeVals_values, List.length_take]; omega
    have hme : EndsWithValue mid := by rw [← hmid]; exact takeVals_ends _ _ hge
    have hrv : (valuesOf rest').length = (valuesOf rest).length - perBlock α m := by
      rw [← hrest, ← hmid]; exact length_drop_takeVals _ _
    have hk' : k = (valuesOf rest').length / perBlock α m := by
      rw [hrv]
      have : (valuesOf rest).length = ((valuesOf rest).length - perBlock α m) + perBlock α m := by omega
      rw [this, Nat.add_div_right _ hc0] at hk; omega
    have hle := valuesOf_length_le pre
    have hle2 := valuesOf_length_le rest
    have hbl : (PrimitiveBuffer.ofRows nullable (pre ++ rest)).len =
        (valuesOf pre).length + (valuesOf rest).length := by
      simp [PrimitiveBuffer.len, PrimitiveBuffer.ofRows]
    simp only [chunkRows, hmid, hrest, increments, blocksFrom] at hrows ⊢
    rw [encodeLoop, hbl, if_pos (by omega)]
    simp only [List.length_append] at hlen
    have hll := congrArg List.length hsplit
    rw [List.length_append] at hll
    simp only [Run.bind_apply, Run.get_apply, hem]
    rw [chunk_ok p _ _ _ (by omega), hbl, Nat.min_eq_left (by omega)]
    simp only [Run.lift_ok]
    rw [Profile.sub_ok p (by omega)]
    simp only [Run.lift_ok]
    rw [if_neg (by rw [lt_perBlock_iff hm]; omega)]
    have hend : (valuesOf (pre ++ mid)).length = (valuesOf pre).length + perBlock α m := by
      rw [valuesOf_append, List.length_append, hmv]
    by_cases hnow : e.numRows + increment nullable pre.length mid < 2 ^ 32
    · obtain ⟨e1, hw, hr1, hm1, hn1⟩ := writeRange_ok p nullable pre mid rest' pos e l hme
        (by omega) hpos (by omega) hnow
      rw [hend, List.append_assoc, ← hsplit] at hw
      rw [Run.bind_ok (show writeBlock p recorder _ _ _ _ (e, l) = _ from hw)]
      obtain ⟨e2, j, hw2, hj⟩ := ih f (pre ++ mid) rest'
        (if nullable then pre.length + mid.length else 0) e1
        (l ++ [(e.numRows + increment nullable pre.length mid - 1, blockBytes nullable mid)])
        (hm1.trans hem) hk' (by omega)
        (by simp only [List.length_append]; omega) (by omega)
        (by intro h; simp [h]) (by rw [hn1, List.length_append]; omega)
      rw [hend, List.append_assoc, ← hsplit, List.length_append] at hw2
      refine ⟨e2, j + 1, ?_, by omega⟩
      simp only
      rw [hw2, hn1]
      simp
    · obtain ⟨e1, hw⟩ := writeRange_err p nullable pre mid rest' pos e l hme (by omega) hpos hnow
      rw [hend, List.append_assoc, ← hsplit] at hw
      rw [Run.bind_error (show writeBlock p recorder _ _ _ _ (e, l) = _ from hw)]
      exact ⟨e1, 0, by simp, by omega⟩

end Meerkat.PrimitiveEnc
