import Verif.Proofs.PrimitiveWrap
import Verif.Props.PrimitiveExact

set_option autoImplicit false

/-! # Block sizes that are not multiples of the element size (C26–C30)

In debug builds the encoder panics as soon as a call finds a whole block held back. In release builds the subtraction wraps
around; for columns that are not nullable this says what is written. -/

namespace Meerkat
open Spec PrimitiveEnc
variable {α : Type} [Element α]

omit [Element α] in
theorem wrappedGroups_rows {c m : Nat} (hc : 0 < c) (bufs : List (List α)) : ∀ R : List α,
    ((wrappedGroups c m R bufs).flatten.length + wrappedLoss c m R.length (bufs.map List.length) =
      R.length + bufs.flatten.length) ∧
    (wrappedLoss c m R.length (bufs.map List.length) = 0 → (wrappedGroups c m R bufs).flatten = R ++ bufs.flatten) := by
  induction bufs with
  | nil =>
    intro R
    by_cases h0 : R.length = 0
    · rw [List.eq_nil_of_length_eq_zero h0]; simp [wrappedGroups, wrappedLoss]
    · simp [wrappedGroups, wrappedLoss, h0]
  | cons b bs ih =>
    intro R
    rw [wrappedGroups, List.map_cons, wrappedLoss, List.flatten_cons, List.length_append]
    by_cases h0 : R.length = 0
    · obtain rfl := List.eq_nil_of_length_eq_zero h0
      obtain ⟨i1, i2⟩ := ih (b.drop (b.length / c * c))
      have hd : (b.drop (b.length / c * c)).length = b.length % c := by
        have := Nat.div_add_mod b.length c
        rw [Nat.mul_comm] at this
        rw [List.length_drop]; omega
      have hle := Nat.div_mul_le_self b.length c
      rw [hd] at i1 i2
      simp only [List.length_nil, if_true, List.flatten_append, chunks_length, List.length_append, List.length_take,
        List.nil_append]
      constructor
      · have := Nat.div_add_mod b.length c
        rw [Nat.mul_comm] at this
        omega
      · intro h
        rw [i2 h, ← List.append_assoc, List.take_append_drop]
    · rw [if_neg h0, if_neg h0]
      by_cases h1 : R.length < c
      · rw [if_pos h1, if_pos h1]
        obtain ⟨i1, i2⟩ := ih (R ++ b.take (c - R.length))
        have hl : (R ++ b.take (c - R.length)).length = min c (R.length + b.length) := by
          rw [List.length_append, List.length_take]; omega
        rw [hl] at i1 i2
        constructor
        · omega
        · intro h
          rw [i2 (by omega), List.take_of_length_le (by omega), List.append_assoc]
      · rw [if_neg h1, if_neg h1]
        by_cases h2 : R.length + b.length < m
        · rw [if_pos h2, if_pos h2]
          obtain ⟨i1, i2⟩ := ih (R ++ b)
          rw [List.length_append] at i1 i2
          exact ⟨by omega, fun h => by rw [i2 h, List.append_assoc]⟩
        · rw [if_neg h2, if_neg h2]
          obtain ⟨i1, i2⟩ := ih []
          rw [List.length_nil] at i1 i2
          rw [List.flatten_cons, List.length_append, List.length_append]
          exact ⟨by omega, fun h => by rw [i2 h]; simp⟩

omit [Element α] in
theorem wrappedGroups_mem {c m : Nat} (hc : 0 < c) (bufs : List (List α)) : ∀ R : List α,
    (∀ g ∈ (wrappedGroups c m R bufs).dropLast, g.length = c ∨ m ≤ g.length) ∧
    ∀ g ∈ wrappedGroups c m R bufs, g.length ≤ (wrappedGroups c m R bufs).flatten.length := by
  intro R
  refine ⟨?_, ?_⟩
  · induction bufs generalizing R with
    | nil => rw [wrappedGroups]; split <;> simp
    | cons b bs ih =>
      rw [wrappedGroups]
      split
      · intro g hg
        rcases List.eq_nil_or_concat (wrappedGroups c m (b.drop (b.length / c * c)) bs) with hx | ⟨L, x, hx⟩
        · rw [hx, List.append_nil] at hg
          have := List.dropLast_subset _ hg
          rw [List.mem_map] at this
          obtain ⟨k, hk, rfl⟩ := this
          rw [List.mem_range] at hk
          have h1 : (k + 1) * c ≤ b.length :=
            Nat.le_trans (Nat.mul_le_mul_right c hk) (Nat.div_mul_le_self b.length c)
          rw [Nat.succ_mul] at h1
          exact .inl (by rw [List.length_take, List.length_drop]; omega)
        · have ih' := ih (b.drop (b.length / c * c))
          rw [hx, List.concat_eq_append, List.dropLast_concat] at ih'
          rw [hx, List.concat_eq_append, ← List.append_assoc, List.dropLast_concat, List.mem_append] at hg
          rcases hg with hg | hg
          · rw [List.mem_map] at hg
            obtain ⟨k, hk, rfl⟩ := hg
            rw [List.mem_range] at hk
            have h1 : (k + 1) * c ≤ b.length :=
              Nat.le_trans (Nat.mul_le_mul_right c hk) (Nat.div_mul_le_self b.length c)
            rw [Nat.succ_mul] at h1
            exact .inl (by rw [List.length_take, List.length_drop]; omega)
          · exact ih' g hg
      · split
        · exact ih _
        · split
          · exact ih _
          · rename_i h1 h2
            intro g hg
            rcases hx : wrappedGroups c m [] bs with _ | ⟨x, xs⟩
            · rw [hx] at hg; simp at hg
            · have ih' := ih []
              rw [hx] at hg ih'
              rw [List.dropLast_cons_of_ne_nil (by simp)] at hg
              rcases List.mem_cons.mp hg with rfl | hg
              · exact .inr (by rw [List.length_append]; omega)
              · exact ih' g hg
  · intro g hg
    obtain ⟨s, t, hst⟩ := List.append_of_mem hg
    rw [hst]; simp; omega

/-- C26 to C30 for columns that are not nullable, in release builds, when the block size is not a multiple of the element size:
the column is encoded without a panic; the blocks are exactly these groups of values; every row id is the index, among the
values written, of the last one of its block; and all values are there if and only if none is dropped. -/
theorem C26_primitive_wrapped_exact (q : Profile) (m : Nat) (hm : 0 < m) (hm64 : m < 2 ^ 64)
    (hd : ¬ Element.size α ∣ m) (bufs : List (List α)) (bs)
    (hb : buildAll false (bufs.map (List.map some)) = .ok bs) (hlen : bufs.flatten.length < 2 ^ 32 - 8) :
    ∃ e blocks, encodeColumn .release recorder bs (Encoder.new m false, []) = (.ok (), (e, blocks)) ∧
      (blocks.map (·.2)).mapM (readPrimitive q false) =
        some ((wrappedGroups ((m + Element.size α - 1) / Element.size α) m [] bufs).map (List.map some)) ∧
      blocks.map (·.1) = lastRowIds 0 (wrappedGroups ((m + Element.size α - 1) / Element.size α) m [] bufs) ∧
      ((readColumn q false (blocks.map (·.2))).map valuesOf = some bufs.flatten ↔
        wrappedLoss ((m + Element.size α - 1) / Element.size α) m 0 (bufs.map List.length) = 0) := by
  obtain ⟨_, rfl⟩ := buildAll_ok hb
  have hc := perBlock_pos (α := α) hm
  rw [← perBlock_ceil]
  obtain ⟨e', h1⟩ := encodeColumn_wrapped m hm hm64 hd bufs [] (Encoder.new m false) [] rfl
    (PrimitiveBuffer.new_eq _) (by
      rw [← List.length_flatten]; simp only [Encoder.new, List.length_nil]; omega)
  obtain ⟨r1, r2⟩ := wrappedGroups_rows (m := m) hc bufs ([] : List α)
  have hmem := (wrappedGroups_mem (m := m) hc bufs ([] : List α)).2
  have hread : ((plainBlocks 0 (wrappedGroups (perBlock α m) m [] bufs)).map (·.2)).mapM (readPrimitive q false) =
      some ((wrappedGroups (perBlock α m) m [] bufs).map (List.map some)) := by
    rw [plainBlocks_data]
    apply mapM_readPrimitive
    intro g hg
    obtain ⟨g', hg', rfl⟩ := List.mem_map.mp hg
    have := hmem g' hg'
    refine ⟨endsWithValue_map_some _, .inr (by simp), ?_⟩
    rw [List.length_nil] at r1
    rw [List.length_map]; omega
  refine ⟨e', plainBlocks 0 (wrappedGroups (perBlock α m) m [] bufs), ?_, hread, plainBlocks_ids _ _, ?_⟩
  · rw [List.map_map]
    exact h1
  · rw [readColumn, hread]
    simp only [Option.map_some, Option.some_inj]
    have hv : ∀ L : List (List α), valuesOf (L.map (List.map some)).flatten = L.flatten := by
      intro L; rw [← List.map_flatten]; exact valuesOf_map_some _
    rw [hv]
    constructor
    · intro h
      have := congrArg List.length h
      simp only [List.length_nil] at r1; omega
    · intro h; simpa using r2 h

/-- C29 there: every block but the last has `c` values, or at least as many values as a block should have bytes. -/
theorem C29_primitive_wrapped_sizes (q : Profile) (m : Nat) (hm : 0 < m) (hm64 : m < 2 ^ 64)
    (hd : ¬ Element.size α ∣ m) (bufs : List (List α)) (bs)
    (hb : buildAll false (bufs.map (List.map some)) = .ok bs) (hlen : bufs.flatten.length < 2 ^ 32 - 8) :
    ∃ e blocks, ∃ groups : List (List α), encodeColumn .release recorder bs (Encoder.new m false, []) = (.ok (), (e, blocks)) ∧
      (blocks.map (·.2)).mapM (readPrimitive q false) = some (groups.map (List.map some)) ∧
      ∀ g ∈ groups.dropLast, g.length = (m + Element.size α - 1) / Element.size α ∨ m ≤ g.length := by
  obtain ⟨e, blocks, h1, h2, _⟩ := C26_primitive_wrapped_exact q m hm hm64 hd bufs bs hb hlen
  refine ⟨e, blocks, _, h1, h2, ?_⟩
  rw [← perBlock_ceil]
  exact (wrappedGroups_mem (perBlock_pos hm) bufs []).1

theorem noUnderflow_iff {m : Nat} (hm : 0 < m) (hd : ¬ Element.size α ∣ m) (bufs : List (List (Option α))) :
    ∀ R : List (Option α), EndsWithValue R → (valuesOf R).length ≤ perBlock α m →
    (NoUnderflow m R bufs ↔ ¬ Crowded (perBlock α m) (valuesOf R).length (bufs.map fun b => (valuesOf b).length)) := by
  have hc := perBlock_pos (α := α) hm
  have hover : ∀ r : Nat, r * Element.size α ≤ m ↔ r < perBlock α m := by
    intro r
    rw [← lt_perBlock_iff hm]
    constructor
    · intro h
      rcases Nat.lt_or_ge (r * Element.size α) m with h1 | h1
      · exact h1
      · exact absurd ⟨r, by rw [Nat.mul_comm]; omega⟩ hd
    · intro h; omega
  induction bufs with
  | nil => intro R _ _; simp [NoUnderflow, Crowded]
  | cons b bs ih =>
    intro R hend hrc
    obtain ⟨g1, g2, _⟩ := step_spec hc R b hend hrc
    rw [NoUnderflow, List.map_cons, Crowded, ih _ g1 g2, hover]
    by_cases h0 : (valuesOf R).length = 0
    · have hs : (valuesOf (step (perBlock α m) R b).2).length = (valuesOf b).length % perBlock α m := by
        rw [step, if_pos h0]; exact (leftOf_spec hc b).1
      rw [hs, if_pos h0]
      constructor
      · exact fun h => h.2
      · exact fun h => ⟨by omega, h⟩
    · have hs : (valuesOf (step (perBlock α m) R b).2).length =
          min (perBlock α m) ((valuesOf R).length + (valuesOf b).length) := by
        rw [step, if_neg h0]
        simp only [valuesOf_append, List.length_append, takeVals_values, List.length_take, dropTrailingNulls_values]
        omega
      rw [hs, if_neg h0, not_or, Nat.not_le]

/-- C30 in debug builds, exactly, for block sizes that are not multiples of the element size: a column is encoded without a panic
if and only if no call finds a whole block held back and, for nullable columns, the row counter stays below 2^32. -/
theorem C30_primitive_debug_exact (nullable : Bool) (m : Nat) (hm : 0 < m)
    (hm64 : m < 2 ^ 64) (hd : ¬ Element.size α ∣ m) (bufs : List (List (Option α))) (bs)
    (hb : buildAll nullable bufs = .ok bs) (hlen : rowCount bufs < 2 ^ 32 - 1) :
    (∃ e blocks, encodeColumn .debug recorder bs (Encoder.new m nullable, []) = (.ok (), (e, blocks))) ↔
      ¬ Crowded ((m + Element.size α - 1) / Element.size α) 0 (bufs.map fun b => (valuesOf b).length) ∧
      (nullable = true → countedRows ((m + Element.size α - 1) / Element.size α) bufs < 2 ^ 32) := by
  obtain ⟨hA, rfl⟩ := buildAll_ok hb
  have hl := rowCount_eq bufs
  have hU : U32_MAX = 2 ^ 32 - 1 := rfl
  have hc := perBlock_pos (α := α) hm
  rw [← perBlock_ceil]
  have hz : (Encoder.new (α := α) m nullable).numRows = 0 := rfl
  have hiff : (nullable = true → countedRows (perBlock α m) bufs < 2 ^ 32) ↔
      0 + totalIncrements nullable (callsOf (perBlock α m) [] bufs) < 2 ^ 32 := by
    cases nullable with
    | true => rw [totalIncrements_counted hc]; simp
    | false =>
      rw [totalIncrements_false, callsOf_rows hc, takeVals_values, List.length_take, flatMap_dropTrailing_values]
      have := valuesOf_length_le bufs.flatten
      rw [rowCount] at hlen
      simp; omega
  have hnu := noUnderflow_iff hm hd bufs [] (.inl rfl) (by simp)
  rw [valuesOf_nil, List.length_nil] at hnu
  rw [hiff, ← hnu]
  constructor
  · rintro ⟨e, blocks, h⟩
    have hn : NoUnderflow m [] bufs := by
      rcases ha : encodeAll .debug recorder (bufs.map (PrimitiveBuffer.ofRows nullable)) (Encoder.new m nullable, []) with
        ⟨r, s⟩
      cases r with
      | ok _ => exact noUnderflow_of_ok hm hm64 (.inr rfl) (by omega) ha
      | error x => rw [encodeColumn, Run.bind_error ha] at h; cases (Prod.mk.inj h).1
    refine ⟨hn, ?_⟩
    apply Classical.byContradiction
    intro hr
    obtain ⟨e', j, h1, _⟩ := encodeColumn_err .debug nullable m hm hm64 bufs [] (Encoder.new m nullable) [] rfl
      (PrimitiveBuffer.new_eq _) (.inl rfl) (by simp) hn
      (by simp only [List.length_nil]; omega) (.inr (by simp only [List.length_nil]; omega))
      (by rw [hz]; omega) hr
    rw [h1] at h
    cases (Prod.mk.inj h).1
  · rintro ⟨hn, hr⟩
    obtain ⟨e', h1, _⟩ := encodeColumn_ok .debug nullable m hm hm64 bufs [] (Encoder.new m nullable) [] rfl
      (PrimitiveBuffer.new_eq _) (.inl rfl) (by simp) hn
      (by simp only [List.length_nil]; omega) (.inr (by simp only [List.length_nil]; omega)) hr
    exact ⟨_, _, h1⟩

/-- Blocks of 6 bytes of `i32`, so of two values: buffers of 1, 3, 1, 4 and 1 values. The second loses two values, the third and
the fourth are added whole, and a block of seven values is written. -/
example : wrappedGroups 2 6 [] [[1], [2, 3, 4], [5], [6, 7, 8, 9], [10]] = [[1, 2, 5, 6, 7, 8, 9], [10]] ∧
    wrappedLoss 2 6 0 [1, 3, 1, 4, 1] = 2 := by decide

/-- The run itself. -/
example (q : Profile) : ∃ bs e blocks, buildAll false [[some (1 : Int32)], [some 2, some 3, some 4], [some 5],
      [some 6, some 7, some 8, some 9], [some 10]] = .ok bs ∧
    encodeColumn .release recorder bs (Encoder.new 6 false, []) = (.ok (), (e, blocks)) ∧
    (blocks.map (·.2)).mapM (readPrimitive (α := Int32) q false) =
      some [[some 1, some 2, some 5, some 6, some 7, some 8, some 9], [some 10]] ∧
    blocks.map (·.1) = [6, 7] := by
  have hb := buildAll_of_accepts (nullable := false) (bufs := [[1], [2, 3, 4], [5], [6, 7, 8, 9], [10]].map
    (List.map (some (α := Int32)))) (by
      intro b hb
      exact .inr ((by decide : ∀ b ∈ [[1], [2, 3, 4], [5], [6, 7, 8, 9], [10]].map (List.map (some (α := Int32))), none ∉ b) b hb))
  obtain ⟨e, blocks, h1, h2, h3, _⟩ := C26_primitive_wrapped_exact q 6 (by decide) (by decide) (by decide)
    [[1], [2, 3, 4], [5], [6, 7, 8, 9], [10]] _ hb (by decide)
  exact ⟨_, e, blocks, hb, h1, h2.trans (by decide), h3.trans (by decide)⟩

/-- In a debug build the third call of that column panics; two calls are fine. -/
example : Crowded 2 0 [1, 3, 1, 4, 1] ∧ ¬ Crowded 2 0 [1, 3] ∧ ¬ Crowded 2 0 [4, 2, 6] := by simp [Crowded]

end Meerkat
