import Verif.Props.PrimitiveEnc

set_option autoImplicit false

/-! # Exactly which columns the primitive encoder writes correctly (C26–C28, C30)

For block sizes that are multiples of the element size, and for all block sizes in debug builds. -/

namespace Meerkat
open Spec PrimitiveEnc
variable {α : Type} [Element α]

omit [Element α] in
theorem kept_le {c : Nat} (lens : List Nat) : kept c lens ≤ lens.sum := by
  induction lens with
  | nil => simp [kept]
  | cons l ls ih => rw [kept, List.sum_cons]; split <;> omega

/-- C26, exactly: every value is written once, in order, if and only if `kept` is the number of values: of the buffers after
the first one whose number of values is not a multiple of that of a block, nothing goes beyond its last block. -/
theorem C26_primitive_values_iff (p q : Profile) (nullable : Bool) (m : Nat) (hm : 0 < m)
    (hm64 : m < 2 ^ 64) (hd : Element.size α ∣ m ∨ p = .debug) (bufs : List (List (Option α))) (bs)
    (hb : buildAll nullable bufs = .ok bs) (hlen : rowCount bufs < 2 ^ 32 - 8) (e blocks)
    (hrun : encodeColumn p recorder bs (Encoder.new m nullable, []) = (.ok (), (e, blocks))) :
    (readColumn q nullable (blocks.map (·.2))).map valuesOf = some (valuesOf bufs.flatten) ↔
      kept ((m + Element.size α - 1) / Element.size α) (bufs.map fun b => (valuesOf b).length) =
        (bufs.map fun b => (valuesOf b).length).sum := by
  rw [C26_primitive_values_exact p q nullable m hm hm64 hd bufs bs hb hlen e blocks hrun, Option.some_inj]
  have h1 := kept_le (c := (m + Element.size α - 1) / Element.size α) (bufs.map fun b => (valuesOf b).length)
  have h2 := sum_valuesOf bufs
  constructor
  · intro h
    have := congrArg List.length h
    rw [List.length_take] at this
    omega
  · intro h
    rw [h, h2, List.take_length]

omit [Element α] in
theorem flatMap_dropTrailing_iff (bufs : List (List (Option α))) :
    bufs.flatMap dropTrailingNulls = bufs.flatten ↔ ∀ b ∈ bufs, EndsWithValue b := by
  have hle : ∀ b : List (Option α), (dropTrailingNulls b).length ≤ b.length := by
    intro b
    obtain ⟨q, hq, _⟩ := dropTrailingNulls_spec b
    have := congrArg List.length hq
    rw [List.length_append] at this; omega
  have hle2 : ∀ bs : List (List (Option α)), (bs.flatMap dropTrailingNulls).length ≤ bs.flatten.length := by
    intro bs; induction bs with
    | nil => simp
    | cons b bs ih =>
      rw [List.flatMap_cons, List.flatten_cons, List.length_append, List.length_append]
      have := hle b; omega
  induction bufs with
  | nil => simp
  | cons b bufs ih =>
    rw [List.flatMap_cons, List.flatten_cons]
    constructor
    · intro h
      have hl := congrArg List.length h
      rw [List.length_append, List.length_append] at hl
      have h1 := hle b
      have h2 := hle2 bufs
      obtain ⟨e1, e2⟩ := List.append_inj h (by omega)
      intro b' hb'
      rcases List.mem_cons.mp hb' with rfl | hb'
      · rw [← e1]; exact dropTrailingNulls_ends _
      · exact ih.mp e2 b' hb'
    · intro h
      rw [dropTrailingNulls_of_ends (h b (List.mem_cons_self ..)), ih.mpr fun b' hb' => h b' (List.mem_cons_of_mem _ hb')]

omit [Element α] in
theorem endsWithValue_iff (b : List (Option α)) : EndsWithValue b ↔ b = [] ∨ ∃ l v, b = l ++ [some v] := by
  constructor
  · rintro (h | ⟨v, h⟩)
    · exact .inl h
    · obtain ⟨l, hl⟩ := List.getLast?_eq_some_iff.mp h
      exact .inr ⟨l, v, hl⟩
  · rintro (rfl | ⟨l, v, rfl⟩) <;> simp [EndsWithValue]

omit [Element α] in
theorem takeVals_rows_iff {c : Nat} (bufs : List (List (Option α))) :
    takeVals (kept c (bufs.map fun b => (valuesOf b).length)) (bufs.flatMap dropTrailingNulls) = bufs.flatten ↔
      kept c (bufs.map fun b => (valuesOf b).length) = (bufs.map fun b => (valuesOf b).length).sum ∧
      ∀ b ∈ bufs, b = [] ∨ ∃ l v, b = l ++ [some v] := by
  have h1 := kept_le (c := c) (bufs.map fun b => (valuesOf b).length)
  have h2 := sum_valuesOf bufs
  have hE : EndsWithValue (bufs.flatMap dropTrailingNulls) := by
    rw [List.flatMap_def]
    exact ends_flatten (by simp; intro a _; exact dropTrailingNulls_ends a)
  constructor
  · intro h
    have hv := congrArg (fun l => (valuesOf l).length) h
    simp only [takeVals_values, flatMap_dropTrailing_values, List.length_take] at hv
    have hk : kept c (bufs.map fun b => (valuesOf b).length) = (bufs.map fun b => (valuesOf b).length).sum := by omega
    rw [takeVals_all hE (by rw [flatMap_dropTrailing_values, hk, h2]; omega)] at h
    exact ⟨hk, fun b hb => (endsWithValue_iff b).mp ((flatMap_dropTrailing_iff bufs).mp h b hb)⟩
  · rintro ⟨hk, he⟩
    rw [takeVals_all hE (by rw [flatMap_dropTrailing_values, hk, h2]; omega)]
    exact (flatMap_dropTrailing_iff bufs).mpr fun b hb => (endsWithValue_iff b).mpr (he b hb)

/-- C27, exactly: the rows are read back if and only if all values are written and no buffer ends with a null. -/
theorem C27_primitive_rows_iff (p q : Profile) (nullable : Bool) (m : Nat) (hm : 0 < m)
    (hm64 : m < 2 ^ 64) (hd : Element.size α ∣ m ∨ p = .debug) (bufs : List (List (Option α))) (bs)
    (hb : buildAll nullable bufs = .ok bs) (hlen : rowCount bufs < 2 ^ 32 - 8) (e blocks)
    (hrun : encodeColumn p recorder bs (Encoder.new m nullable, []) = (.ok (), (e, blocks))) :
    readColumn q nullable (blocks.map (·.2)) = some bufs.flatten ↔
      kept ((m + Element.size α - 1) / Element.size α) (bufs.map fun b => (valuesOf b).length) =
        (bufs.map fun b => (valuesOf b).length).sum ∧
      ∀ b ∈ bufs, b = [] ∨ ∃ l v, b = l ++ [some v] := by
  rw [C27_primitive_rows_exact p q nullable m hm hm64 hd bufs bs hb hlen e blocks hrun, Option.some_inj]
  exact takeVals_rows_iff bufs

/-! ## Row ids -/

theorem blocksOf_ids_right (cs : List (List (List (Option α)))) (n : Nat)
    (hne : ∀ ms ∈ cs, ∀ x ∈ ms, x ≠ [])
    (h : (blocksOf true n cs).map (·.1) = lastRowIds n cs.flatten) : ∀ ms ∈ cs, ms.length ≤ 1 := by
  induction cs generalizing n with
  | nil => simp
  | cons ms cs ih =>
    rw [blocksOf, List.map_append, List.flatten_cons, lastRowIds_append] at h
    have hlr : ∀ (as : List (List (Option α))) (n : Nat), (lastRowIds n as).length = as.length := by
      intro as; induction as with
      | nil => intro n; rfl
      | cons a as ih => intro n; simp [lastRowIds, ih]
    obtain ⟨h1, h2⟩ := List.append_inj h (by rw [List.length_map, blocksFrom_length, hlr])
    have hl : ms.length ≤ 1 := by
      match ms, h1, hne ms (List.mem_cons_self ..) with
      | [], _, _ => simp
      | [_], _, _ => simp
      | a :: b :: _, h1, hne =>
        have ha : 0 < a.length := List.length_pos_iff.mpr (hne a (by simp))
        simp only [blocksFrom, lastRowIds, increment, if_true, List.map_cons, List.cons.injEq] at h1
        have := h1.2.1
        omega
    have hcr := (blocksFrom_ids true ms n (by simpa [CountsRight] using hl)).2
    rw [hcr] at h2
    have h3 := ih _ (fun ms' hms' => hne ms' (List.mem_cons_of_mem _ hms')) h2
    intro ms' hms'
    rcases List.mem_cons.mp hms' with rfl | hms'
    · exact hl
    · exact h3 ms' hms'

omit [Element α] in
theorem small_of_calls {c : Nat} (hc : 0 < c) (bufs : List (List (Option α)))
    (hk : kept c (bufs.map fun b => (valuesOf b).length) = (bufs.map fun b => (valuesOf b).length).sum)
    (h : ∀ ms ∈ stepsOf c [] bufs, ms.length ≤ 1) : ∀ b ∈ bufs, (valuesOf b).length < 2 * c := by
  induction bufs with
  | nil => simp
  | cons b bufs ih =>
    have hst : step c [] b = (chunksOf c b, leftOf c b) := by simp [step]
    have h1 : (valuesOf b).length < 2 * c := by
      have := h (chunksOf c b) (by rw [stepsOf, hst]; exact List.mem_cons_self ..)
      rw [chunksOf_length] at this
      exact (Nat.div_lt_iff_lt_mul hc).mp (by omega)
    intro b' hb'
    rcases List.mem_cons.mp hb' with rfl | hb'
    · exact h1
    · rw [List.map_cons, kept, List.sum_cons] at hk
      split at hk
      · rename_i h0
        have hz : leftOf c b = [] := values_zero (leftOf_spec hc b).2.1 (by rw [(leftOf_spec hc b).1, h0])
        refine ih (by omega) (fun ms hms => h ms ?_) b' hb'
        rw [stepsOf, hst, hz]
        exact List.mem_cons_of_mem _ hms
      · have hle : ∀ (l : List (List (Option α))), b' ∈ l →
            (valuesOf b').length ≤ (l.map fun b => (valuesOf b).length).sum := by
          intro l hl
          induction l with
          | nil => simp at hl
          | cons x l ih =>
            rw [List.map_cons, List.sum_cons]
            rcases List.mem_cons.mp hl with rfl | hl
            · omega
            · have := ih hl; omega
        have := hle bufs hb'
        omega

/-- C28, exactly: the blocks are the column and every row id is the index of the last row of its block, if and only if all values
are written, no buffer ends with a null and, in nullable columns, no buffer has the values of two blocks. -/
theorem C28_primitive_row_ids_iff (p q : Profile) (nullable : Bool) (m : Nat) (hm : 0 < m)
    (hm64 : m < 2 ^ 64) (hd : Element.size α ∣ m ∨ p = .debug) (bufs : List (List (Option α))) (bs)
    (hb : buildAll nullable bufs = .ok bs) (hlen : rowCount bufs < 2 ^ 32 - 8) (e blocks)
    (hrun : encodeColumn p recorder bs (Encoder.new m nullable, []) = (.ok (), (e, blocks))) :
    (∃ groups, (blocks.map (·.2)).mapM (readPrimitive q nullable) = some groups ∧
      groups.flatten = bufs.flatten ∧ blocks.map (·.1) = lastRowIds 0 groups) ↔
      kept ((m + Element.size α - 1) / Element.size α) (bufs.map fun b => (valuesOf b).length) =
        (bufs.map fun b => (valuesOf b).length).sum ∧
      (∀ b ∈ bufs, b = [] ∨ ∃ l v, b = l ++ [some v]) ∧
      (nullable = true → ∀ b ∈ bufs, (valuesOf b).length < 2 * ((m + Element.size α - 1) / Element.size α)) := by
  have hA := (buildAll_ok hb).1
  have hc := perBlock_pos (α := α) hm
  constructor
  · rintro ⟨groups, h1, h2, h3⟩
    have hcol : readColumn q nullable (blocks.map (·.2)) = some bufs.flatten := by
      rw [readColumn, h1, Option.map_some, h2]
    obtain ⟨k1, k2⟩ := (C27_primitive_rows_iff p q nullable m hm hm64 hd bufs bs hb hlen e blocks hrun).mp hcol
    refine ⟨k1, k2, ?_⟩
    rintro rfl
    have hbl := run_blocks hm hm64 hd hb hlen hrun
    rw [hbl, run_read q hm hA hlen] at h1
    obtain rfl := Option.some.inj h1
    rw [hbl] at h3
    rw [← perBlock_ceil] at k1 ⊢
    have hne : ∀ ms ∈ callsOf (perBlock α m) [] bufs, ∀ x ∈ ms, x ≠ [] := by
      intro ms hms x hx hx0
      have := (callsOf_chunks hc bufs [] (.inl rfl) (by simp) x (List.mem_flatten.mpr ⟨ms, hms, hx⟩)).1
      rw [hx0] at this
      simp at this
    refine small_of_calls hc bufs k1 fun ms hms => blocksOf_ids_right _ 0 hne h3 ms ?_
    rw [callsOf]
    exact List.mem_append_left _ hms
  · rintro ⟨k1, k2, k3⟩
    obtain ⟨groups, h1, _, h3⟩ := C28_primitive_row_ids_partial p q nullable m hm hm64 hd bufs bs hb hlen
      (fun hn b hb => ⟨k2 b hb, k3 hn b hb⟩) e blocks hrun
    have hcol := (C27_primitive_rows_iff p q nullable m hm hm64 hd bufs bs hb hlen e blocks hrun).mpr ⟨k1, k2⟩
    rw [readColumn, h1, Option.map_some] at hcol
    exact ⟨groups, h1, Option.some.inj hcol, h3⟩

/-! ## The row counter of nullable columns -/

omit [Element α] in
theorem takeVals_add (a n : Nat) (l : List (Option α)) :
    takeVals (a + n) l = takeVals a l ++ takeVals n (l.drop (takeVals a l).length) := by
  induction l generalizing a with
  | nil => cases a <;> cases n <;> simp [takeVals]
  | cons x l ih =>
    cases a with
    | zero => simp [takeVals]
    | succ a =>
      have : a + 1 + n = (a + n) + 1 := by omega
      rw [this]
      cases x with
      | none =>
        simp only [takeVals, List.length_cons, List.drop_succ_cons, List.cons_append]
        rw [← this, ih]
      | some v =>
        simp only [takeVals, List.length_cons, List.drop_succ_cons, List.cons_append, ih]

omit [Element α] in
theorem increments_chunkRows (c : Nat) (k : Nat) : ∀ (base : Nat) (rows : List (Option α)),
    increments true base (chunkRows c k rows) =
      ((List.range k).map fun i => base + (takeVals ((i + 1) * c) rows).length).sum ∧
    (chunkRows c k rows).flatten = takeVals (k * c) rows := by
  induction k with
  | zero => intro base rows; simp [chunkRows, increments, takeVals]
  | succ k ih =>
    intro base rows
    obtain ⟨h1, h2⟩ := ih (base + (takeVals c rows).length) (rows.drop (takeVals c rows).length)
    have hadd : ∀ i : Nat, takeVals ((i + 1) * c) rows =
        takeVals c rows ++ takeVals (i * c) (rows.drop (takeVals c rows).length) := by
      intro i
      rw [Nat.add_mul, Nat.one_mul, Nat.add_comm, takeVals_add]
    constructor
    · rw [chunkRows, increments, h1, List.range_succ_eq_map, List.map_cons, List.sum_cons, List.map_map, increment, if_pos rfl,
        hadd 0]
      simp only [Nat.zero_mul, takeVals, List.append_nil]
      congr 2
      apply List.map_congr_left
      intro i _
      simp only [Function.comp]
      rw [hadd (i + 1), List.length_append]; omega
    · rw [chunkRows, List.flatten_cons, h2, hadd k]

omit [Element α] in
theorem totalIncrements_counted {c : Nat} (hc : 0 < c) (bufs : List (List (Option α))) :
    totalIncrements true (callsOf c [] bufs) = countedRows c bufs := by
  induction bufs with
  | nil => simp [callsOf, stepsOf, heldOf, flushOf, totalIncrements, increments, countedRows]
  | cons b bs ih =>
    obtain ⟨g1, g2, g3, g4, g5⟩ := leftOf_spec hc b
    have hst : step c [] b = (chunksOf c b, leftOf c b) := by simp [step]
    obtain ⟨i1, i2⟩ := increments_chunkRows c ((valuesOf b).length / c) 0 b
    simp only [Nat.zero_add] at i1
    rw [← chunksOf] at i1 i2
    rw [callsOf, stepsOf, heldOf, hst, List.cons_append, totalIncrements, i1, countedRows]
    congr 1
    split
    · rename_i h0
      rw [values_zero g2 (by rw [g1, h0])]
      exact ih
    · rename_i h0
      have hlt := Nat.mod_lt (valuesOf b).length hc
      obtain ⟨k1, k2⟩ := stepsOf_pending (c := c) bs (leftOf c b) g2 (by omega) (by omega)
      have hz : totalIncrements true (stepsOf c (leftOf c b) bs) = 0 := by
        generalize stepsOf c (leftOf c b) bs = L at k1
        induction L with
        | nil => rfl
        | cons x L ih =>
          rw [List.flatten_cons, List.append_eq_nil_iff] at k1
          rw [totalIncrements, k1.1, ih k1.2]; rfl
      have hlen := congrArg List.length g4
      rw [List.length_append, i2] at hlen
      have hne : ¬ (valuesOf (heldOf c (leftOf c b) bs)).length = 0 := by
        rw [k2, valuesOf_append, List.length_append, g1]; omega
      rw [totalIncrements_append, hz, flushOf, if_neg hne, k2]
      simp only [totalIncrements, increments, increment, if_true, List.length_append, g1]
      omega

/-- C30, exactly, for columns of fewer than 2^32 - 1 rows and block sizes that are positive multiples of the element size: a
column that is not nullable is encoded without a panic; a nullable one if and only if the counter stays below 2^32. -/
theorem C30_primitive_completes_exact (p : Profile) (nullable : Bool) (m : Nat) (hm : 0 < m)
    (hm64 : m < 2 ^ 64) (hd : Element.size α ∣ m) (bufs : List (List (Option α))) (bs)
    (hb : buildAll nullable bufs = .ok bs) (hlen : rowCount bufs < 2 ^ 32 - 1) :
    (∃ e blocks, encodeColumn p recorder bs (Encoder.new m nullable, []) = (.ok (), (e, blocks))) ↔
      (nullable = true → countedRows (m / Element.size α) bufs < 2 ^ 32) := by
  obtain ⟨hA, rfl⟩ := buildAll_ok hb
  have hl := rowCount_eq bufs
  have hU : U32_MAX = 2 ^ 32 - 1 := rfl
  have hc := perBlock_pos (α := α) hm
  have hnu := noUnderflow_of_dvd hm hd bufs [] (.inl rfl) (by simp)
  rw [← perBlock_div hd]
  have hz : (Encoder.new (α := α) m nullable).numRows = 0 := rfl
  have hiff : (nullable = true → countedRows (perBlock α m) bufs < 2 ^ 32) ↔
      0 + totalIncrements nullable (callsOf (perBlock α m) [] bufs) < 2 ^ 32 := by
    cases nullable with
    | true => rw [totalIncrements_counted hc]; simp
    | false =>
      rw [totalIncrements_false, callsOf_rows hc, takeVals_values, List.length_take, flatMap_dropTrailing_values]
      have := valuesOf_length_le bufs.flatten
      rw [rowCount] at hlen
      simp; omega
  rw [hiff]
  constructor
  · rintro ⟨e, blocks, h⟩
    apply Classical.byContradiction
    intro hr
    obtain ⟨e', j, h1, _⟩ := encodeColumn_err p nullable m hm hm64 bufs [] (Encoder.new m nullable) [] rfl
      (PrimitiveBuffer.new_eq _) (.inl rfl) (by simp) hnu
      (by simp only [List.length_nil]; omega) (.inr (by simp only [List.length_nil]; omega))
      (by rw [hz]; omega) hr
    rw [h1] at h
    cases (Prod.mk.inj h).1
  · intro hr
    obtain ⟨e', h1, _⟩ := encodeColumn_ok p nullable m hm hm64 bufs [] (Encoder.new m nullable) [] rfl
      (PrimitiveBuffer.new_eq _) (.inl rfl) (by simp) hnu
      (by simp only [List.length_nil]; omega) (.inr (by simp only [List.length_nil]; omega)) hr
    exact ⟨_, _, h1⟩

/-- Two buffers of 64 and 40 non-null values in blocks of 32: the counter reaches 32 + 64 + 32 + 9, the one value of the third being held back too. -/
example : countedRows 32 [List.replicate 64 (some (1 : Int32)), List.replicate 40 (some 2), [some 3]] = 137 := by
  decide +kernel

/-- Both sides of the three equivalences occur: of a nullable column, 33 values and then 40 are not all written; 64 values are
read back, but not with the right row ids; 32 values and then 33 rows are read back with the right row ids. -/
example (q : Profile) :
    (∃ bs e blocks, buildAll true [List.replicate 33 (some (5 : Int32)), List.replicate 40 (some 6)] = .ok bs ∧
      encodeColumn .debug recorder bs (Encoder.new 128 true, []) = (.ok (), (e, blocks)) ∧
      (readColumn (α := Int32) q true (blocks.map (·.2))).map valuesOf ≠
        some (List.replicate 33 5 ++ List.replicate 40 6)) ∧
    (∃ bs e blocks, buildAll true [List.replicate 64 (some (5 : Int32))] = .ok bs ∧
      encodeColumn .debug recorder bs (Encoder.new 128 true, []) = (.ok (), (e, blocks)) ∧
      readColumn q true (blocks.map (·.2)) = some (List.replicate 64 (some (5 : Int32))) ∧
      ¬ ∃ groups, (blocks.map (·.2)).mapM (readPrimitive q true) = some groups ∧
        groups.flatten = List.replicate 64 (some (5 : Int32)) ∧ blocks.map (·.1) = lastRowIds 0 groups) ∧
    (∃ bs e blocks, buildAll true [List.replicate 32 (some (5 : Int32)), none :: List.replicate 32 (some 6)] = .ok bs ∧
      encodeColumn .debug recorder bs (Encoder.new 128 true, []) = (.ok (), (e, blocks)) ∧
      ∃ groups, (blocks.map (·.2)).mapM (readPrimitive q true) = some groups ∧
        groups.flatten = List.replicate 32 (some (5 : Int32)) ++ none :: List.replicate 32 (some 6) ∧
        blocks.map (·.1) = lastRowIds 0 groups) := by
  refine ⟨?_, ?_, ?_⟩
  · have hb := buildAll_of_accepts (nullable := true)
      (bufs := [List.replicate 33 (some (5 : Int32)), List.replicate 40 (some 6)]) (fun _ _ => .inl rfl)
    obtain ⟨e, blocks, h⟩ := (C30_primitive_completes_exact .debug true 128 (by decide) (by decide) (by decide) _ _ hb
      (by decide)).mpr (fun _ => by decide +kernel)
    refine ⟨_, e, blocks, hb, h, fun hc => ?_⟩
    have := (C26_primitive_values_iff .debug q true 128 (by decide) (by decide) (.inl (by decide)) _ _ hb (by decide)
      e blocks h).mp (hc.trans (by decide +kernel))
    exact absurd this (by decide +kernel)
  · have hb := buildAll_of_accepts (nullable := true) (bufs := [List.replicate 64 (some (5 : Int32))])
      (fun _ _ => .inl rfl)
    obtain ⟨e, blocks, h⟩ := (C30_primitive_completes_exact .debug true 128 (by decide) (by decide) (by decide) _ _ hb
      (by decide)).mpr (fun _ => by decide +kernel)
    refine ⟨_, e, blocks, hb, h, ?_, ?_⟩
    · refine (C27_primitive_rows_iff .debug q true 128 (by decide) (by decide) (.inl (by decide)) _ _ hb (by decide)
        e blocks h).mpr ⟨by decide +kernel, fun b hb => ?_⟩
      simp only [List.mem_singleton] at hb
      subst hb
      exact .inr ⟨List.replicate 63 (some 5), 5, by decide⟩
    · intro hc
      have := (C28_primitive_row_ids_iff .debug q true 128 (by decide) (by decide) (.inl (by decide)) _ _ hb (by decide)
        e blocks h).mp hc
      exact absurd (this.2.2 rfl _ (List.mem_singleton.mpr rfl)) (by decide +kernel)
  · have hb := buildAll_of_accepts (nullable := true)
      (bufs := [List.replicate 32 (some (5 : Int32)), none :: List.replicate 32 (some 6)]) (fun _ _ => .inl rfl)
    obtain ⟨e, blocks, h⟩ := (C30_primitive_completes_exact .debug true 128 (by decide) (by decide) (by decide) _ _ hb
      (by decide)).mpr (fun _ => by decide +kernel)
    refine ⟨_, e, blocks, hb, h, ?_⟩
    refine (C28_primitive_row_ids_iff .debug q true 128 (by decide) (by decide) (.inl (by decide)) _ _ hb (by decide)
      e blocks h).mpr ⟨by decide +kernel, fun b hb => ?_, fun _ => by decide +kernel⟩
    simp only [List.mem_cons, List.not_mem_nil, or_false] at hb
    rcases hb with rfl | rfl
    · exact .inr ⟨List.replicate 31 (some 5), 5, by decide⟩
    · exact .inr ⟨none :: List.replicate 31 (some 6), 6, by decide⟩

end Meerkat
