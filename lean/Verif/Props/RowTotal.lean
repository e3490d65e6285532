import Verif.Props.PrimitiveExact
import Verif.Props.BinaryWritten
import Verif.Props.EncoderSink

set_option autoImplicit false

/-! # C87: the number of rows of a column -/

namespace Meerkat
open Spec

namespace RowTotal

theorem told_countIds (cs : List Nat) : ∀ n, cs ≠ [] → rowsTold (countIds n cs) = n + cs.sum - 1 + 1 := by
  induction cs with
  | nil => intro n h; exact absurd rfl h
  | cons c cs ih =>
    intro n _
    match cs, ih with
    | [], _ => simp [countIds, rowsTold]
    | d :: ds, ih =>
      have h := ih (n + c) (by simp)
      simp only [countIds, rowsTold, List.getLast?_cons_cons, List.sum_cons] at h ⊢
      rw [h]
      omega

theorem told_positive (cs : List Nat) (h : ∀ c ∈ cs, 1 ≤ c) : rowsTold (countIds 0 cs) = cs.sum := by
  cases cs with
  | nil => rfl
  | cons c cs =>
    have := h c (by simp)
    rw [told_countIds _ _ (by simp), List.sum_cons]
    omega

theorem lastRowIds_count {β : Type} (gs : List (List β)) : ∀ n, lastRowIds n gs = countIds n (gs.map List.length) := by
  induction gs with
  | nil => intro n; rfl
  | cons g gs ih => intro n; rw [lastRowIds, List.map_cons, countIds, ih]

theorem told_lastRowIds {β : Type} (gs : List (List β)) (h : gs.flatten = [] → gs = []) :
    rowsTold (lastRowIds 0 gs) = gs.flatten.length := by
  by_cases hg : gs = []
  · subst hg; rfl
  · have hf : 0 < gs.flatten.length := List.length_pos_iff.2 fun hf => hg (h hf)
    rw [lastRowIds_count, told_countIds _ _ (by simpa using hg), ← List.length_flatten]
    omega

theorem countIds_length (cs : List Nat) : ∀ n, (countIds n cs).length = cs.length := by
  induction cs with
  | nil => intro n; rfl
  | cons c cs ih => intro n; simp [countIds, ih]

theorem sub_flatten {β : Type} (bufs : List (List (Option β))) :
    (bufs.flatMap dropTrailingNulls).Sublist bufs.flatten := by
  induction bufs with
  | nil => exact .slnil
  | cons b bufs ih =>
    obtain ⟨q, hq, _⟩ := dropTrailingNulls_spec b
    rw [List.flatMap_cons, List.flatten_cons]
    have hs : (dropTrailingNulls b).Sublist b := by
      have := List.sublist_append_left (dropTrailingNulls b) q
      rwa [← hq] at this
    exact List.Sublist.append hs ih

/-- Without values there are no blocks. -/
theorem no_values {m : Nat} (hm : 0 < m) (nullable : Bool) (bufs : List (List (Option Bytes))) :
    ∀ stale, valuesOf bufs.flatten = [] → columnEntries m nullable stale [] bufs = [] := by
  induction bufs with
  | nil => intro stale _; simp [columnEntries, valuesOf]
  | cons b bufs ih =>
    intro stale h
    rw [List.flatten_cons, valuesOf_append, List.append_eq_nil_iff] at h
    obtain ⟨k, rfl⟩ : ∃ k, m = k + 1 := ⟨m - 1, by omega⟩
    have h1 : callEntries (k + 1) nullable stale [] b = [] := by
      simp [callEntries, loopEntries, h.1, fill]
    have h2 : heldRows (k + 1) [] b = [] := by
      simp only [heldRows, if_true]
      refine PrimitiveEnc.values_zero (dropTrailingNulls_ends _) ?_
      rw [dropTrailingNulls_values]
      generalize (loopEnd (k + 1) (valuesOf b) ((valuesOf b).length + 2) 0).getD 0 = i
      have hs := ((List.drop_sublist (takeVals i b).length b).filterMap id).length_le
      change (valuesOf (behind i b)).length ≤ (valuesOf b).length at hs
      rw [h.1] at hs
      exact Nat.le_zero.1 hs
    rw [columnEntries, h1, h2, List.nil_append]
    exact ih _ h.2

end RowTotal
open RowTotal

/-- What the row ids tell is the row counter of the encoder, however the run ends. -/
theorem C87_told_is_counter {α : Type} [Element α] (p : Profile) (m : Nat) (hm : 0 < m) (hm64 : m < 2 ^ 64) (nullable : Bool) :
    (∀ (bufs : List (PrimitiveBuffer α)) r e blocks,
      PrimitiveEnc.encodeColumn p recorder bufs (PrimitiveEnc.Encoder.new m nullable, []) = (r, (e, blocks)) →
      rowsTold (blocks.map (·.1)) = e.numRows) ∧
    (∀ (bufs : List BinaryBuffer) r e blocks,
      BinaryEnc.encodeColumn p recorder bufs (BinaryEnc.Encoder.new m nullable, []) = (r, (e, blocks)) →
      rowsTold (blocks.map (·.1)) = e.numRows) := by
  refine ⟨fun bufs r e blocks h => ?_, fun bufs r e blocks h => ?_⟩
  · obtain ⟨cs, h1, h2, h3, _⟩ := C39_primitive_row_counts p m hm hm64 nullable bufs r e blocks h
    rw [h1, told_positive cs h2, h3]
  · obtain ⟨cs, h1, h2, h3, _⟩ := C39_binary_row_counts p m nullable bufs r e blocks h
    rw [h1, told_positive cs h2, h3]

/-- C87 for binary columns that are not nullable: whenever the calls return, the row ids tell the number of rows. -/
theorem C87_binary_nonnull_partial (p : Profile) (m : Nat) (hm : 0 < m)
    (bufs : List (List (Option Bytes))) (bs) (hb : buildBinary false bufs = .ok bs)
    (hlen : bufs.flatten.length < 2 ^ 32 - 7)
    (hm32 : m ≤ U32_MAX) (e blocks)
    (hrun : BinaryEnc.encodeColumn p recorder bs (BinaryEnc.Encoder.new m false, []) = (.ok (), (e, blocks))) :
    rowsTold (blocks.map (·.1)) = bufs.flatten.length := by
  obtain ⟨groups, h1, h2, h3, _⟩ := C34_binary_nonnull_row_ids p p m hm bufs bs hb hlen hm32 e blocks hrun
  have h4 := congrArg List.length h1
  rw [List.length_map] at h4
  rw [h2, ← h4]
  refine told_lastRowIds groups fun hf => ?_
  obtain ⟨⟨_, h5, _⟩, _⟩ := C32_binary_blocks_exact p p false m hm bufs bs hb hlen hm32 e blocks hrun
  rw [no_values hm false bufs [] (by rw [← h1, hf]; rfl)] at h5
  exact List.length_eq_zero_iff.1 (by rw [← h3, h5]; rfl)

/-- C87 across columns: two binary columns that are not nullable and have the same number of rows end with the same row id,
whatever their values, their buffers, their block sizes. -/
theorem C87_two_columns (p : Profile) (m m' : Nat) (hm : 0 < m) (hm' : 0 < m')
    (bufs bufs' : List (List (Option Bytes))) (bs bs') (hb : buildBinary false bufs = .ok bs)
    (hb' : buildBinary false bufs' = .ok bs')
    (hlen : bufs.flatten.length < 2 ^ 32 - 7) (hrows : bufs.flatten.length = bufs'.flatten.length)
    (hm32 : m ≤ U32_MAX)
    (hm32' : m' ≤ U32_MAX) (e e' blocks blocks')
    (hrun : BinaryEnc.encodeColumn p recorder bs (BinaryEnc.Encoder.new m false, []) = (.ok (), (e, blocks)))
    (hrun' : BinaryEnc.encodeColumn p recorder bs' (BinaryEnc.Encoder.new m' false, []) = (.ok (), (e', blocks'))) :
    (blocks.map (·.1)).getLast? = (blocks'.map (·.1)).getLast? := by
  have h1 := C87_binary_nonnull_partial p m hm bufs bs hb hlen hm32 e blocks hrun
  have h2 := C87_binary_nonnull_partial p m' hm' bufs' bs' hb' (by omega) hm32' e' blocks' hrun'
  rw [hrows, ← h2] at h1
  simp only [rowsTold] at h1
  rcases hl : (blocks.map (·.1)).getLast? with _ | a <;> rcases hl' : (blocks'.map (·.1)).getLast? with _ | a' <;>
    simp only [hl, hl'] at h1
  · rw [hl, hl']
  · omega
  · omega
  · rw [hl, hl', Nat.add_right_cancel h1]

/-- C87, exactly, on manageable histories (see C32): what is told is the rows without the nulls at the ends of buffers, so it
is right if and only if no buffer ends with a null. -/
theorem C87_binary_exact (p : Profile) (nullable : Bool) (m : Nat) (hm : 0 < m)
    (bufs : List (List (Option Bytes))) (bs) (hb : buildBinary nullable bufs = .ok bs)
    (hlen : bufs.flatten.length < 2 ^ 32 - 7) (hm32 : m ≤ U32_MAX)
    (hman : Manageable m nullable [] [] bufs) (e blocks)
    (hrun : BinaryEnc.encodeColumn p recorder bs (BinaryEnc.Encoder.new m nullable, []) = (.ok (), (e, blocks))) :
    rowsTold (blocks.map (·.1)) = (bufs.flatMap dropTrailingNulls).length ∧
    (rowsTold (blocks.map (·.1)) = bufs.flatten.length ↔ ∀ b ∈ bufs, b = [] ∨ ∃ l v, b = l ++ [some v]) := by
  obtain ⟨groups, h1, h2, h3⟩ := C34_binary_row_ids_exact p p nullable m hm bufs bs hb hlen hm32 hman e blocks hrun
  have h4 : rowsTold (blocks.map (·.1)) = (bufs.flatMap dropTrailingNulls).length := by
    rw [h3, ← h1]
    refine told_lastRowIds groups fun hf => ?_
    obtain ⟨⟨_, h5, _⟩, _⟩ := C32_binary_blocks_exact p p nullable m hm bufs bs hb hlen hm32 e blocks hrun
    have h6 : valuesOf bufs.flatten = [] := by
      rw [← flatMap_dropTrailing_values, ← h1, hf]; rfl
    rw [no_values hm nullable bufs [] h6] at h5
    have h7 := congrArg List.length h3
    rw [List.length_map, h5, lastRowIds_count, countIds_length, List.length_map] at h7
    exact List.length_eq_zero_iff.1 h7.symm
  refine ⟨h4, ?_⟩
  rw [h4]
  constructor
  · intro h b hbm
    have := (sub_flatten bufs).eq_of_length h
    exact (endsWithValue_iff b).1 ((flatMap_dropTrailing_iff bufs).1 this b hbm)
  · intro h
    rw [(flatMap_dropTrailing_iff bufs).2 fun b hbm => (endsWithValue_iff b).2 (h b hbm)]

section
variable {α : Type} [Element α]
open PrimitiveEnc

theorem RowTotal.run_rows {p : Profile} {nullable : Bool} {m : Nat} (hm : 0 < m) (hm64 : m < 2 ^ 64)
    (hd : Element.size α ∣ m ∨ p = .debug) {bufs : List (List (Option α))} {bs} (hb : buildAll nullable bufs = .ok bs)
    (hlen : rowCount bufs < 2 ^ 32 - 8) {e blocks}
    (hrun : encodeColumn p recorder bs (Encoder.new m nullable, []) = (.ok (), (e, blocks))) :
    e.numRows = totalIncrements nullable (callsOf (perBlock α m) [] bufs) := by
  obtain ⟨_, rfl⟩ := buildAll_ok hb
  have hl := rowCount_eq bufs
  have hU : U32_MAX = 2 ^ 32 - 1 := rfl
  have hnu : NoUnderflow m [] bufs := by
    rcases ha : encodeAll p recorder (bufs.map (PrimitiveBuffer.ofRows nullable)) (Encoder.new m nullable, []) with ⟨r, s⟩
    cases r with
    | ok _ => exact noUnderflow_of_ok hm hm64 hd (by omega) ha
    | error x => rw [encodeColumn, Run.bind_error ha] at hrun; cases (Prod.mk.inj hrun).1
  by_cases hr : 0 + totalIncrements nullable (callsOf (perBlock α m) [] bufs) < 2 ^ 32
  · obtain ⟨e', h1, h2⟩ := encodeColumn_ok p nullable m hm hm64 bufs [] (Encoder.new m nullable) [] rfl
      (PrimitiveBuffer.new_eq _) (by simp [EndsWithValue]) (by simp) hnu
      (by simp only [List.length_nil]; omega) (.inr (by simp only [List.length_nil]; omega)) hr
    rw [h1] at hrun
    simp only [Prod.mk.injEq, List.nil_append] at hrun
    rw [← hrun.2.1, h2]
    exact Nat.zero_add _
  · obtain ⟨e', j, h1, _⟩ := encodeColumn_err p nullable m hm hm64 bufs [] (Encoder.new m nullable) [] rfl
      (PrimitiveBuffer.new_eq _) (by simp [EndsWithValue]) (by simp) hnu
      (by simp only [List.length_nil]; omega) (.inr (by simp only [List.length_nil]; omega))
      (by simp [Encoder.new]) hr
    rw [h1] at hrun
    cases (Prod.mk.inj hrun).1

/-- C87, exactly, for primitive columns: a column that is not nullable tells the number of values written (C26), a nullable one
the rows of each buffer again for each of its blocks. -/
theorem C87_primitive_exact (p : Profile) (nullable : Bool) (m : Nat) (hm : 0 < m)
    (hm64 : m < 2 ^ 64) (hd : Element.size α ∣ m ∨ p = .debug) (bufs : List (List (Option α))) (bs)
    (hb : buildAll nullable bufs = .ok bs) (hlen : rowCount bufs < 2 ^ 32 - 8) (e blocks)
    (hrun : encodeColumn p recorder bs (Encoder.new m nullable, []) = (.ok (), (e, blocks))) :
    rowsTold (blocks.map (·.1)) = if nullable then countedRows ((m + Element.size α - 1) / Element.size α) bufs
      else kept ((m + Element.size α - 1) / Element.size α) (bufs.map fun b => (valuesOf b).length) := by
  have hc := perBlock_pos (α := α) hm
  rw [(C87_told_is_counter (α := α) p m hm hm64 nullable).1 _ _ _ _ hrun, run_rows hm hm64 hd hb hlen hrun, ← perBlock_ceil]
  cases nullable with
  | true => simp only [if_true]; exact totalIncrements_counted hc bufs
  | false =>
    simp only [Bool.false_eq_true, if_false]
    rw [totalIncrements_false, callsOf_rows hc, takeVals_values, List.length_take, flatMap_dropTrailing_values, ← sum_valuesOf]
    exact Nat.min_eq_left (kept_le _)

end

/-- C87 is false of the code. A null at the end of a buffer is not counted: three rows, and two are told. A nullable buffer of
two blocks is counted twice: three rows, and four are told. Of 41 values of a primitive column 32 are told. -/
theorem C87_row_total_violated (p : Profile) :
    (∃ bs e blocks, buildBinary true [[some [1], none], [some [2]]] = .ok bs ∧
      BinaryEnc.encodeColumn p recorder bs (BinaryEnc.Encoder.new 128 true, []) = (.ok (), (e, blocks)) ∧
      rowsTold (blocks.map (·.1)) = 2) ∧
    (∃ bs e blocks, buildBinary true [[some [1, 1], some [2], some [3]]] = .ok bs ∧
      BinaryEnc.encodeColumn p recorder bs (BinaryEnc.Encoder.new 2 true, []) = (.ok (), (e, blocks)) ∧
      rowsTold (blocks.map (·.1)) = 4) ∧
    ∃ (bs : List (PrimitiveBuffer Int32)) (e : PrimitiveEnc.Encoder Int32) (blocks : List (Nat × Bytes)),
      buildAll false [[some 1], List.replicate 40 (some 2)] = .ok bs ∧
      PrimitiveEnc.encodeColumn p recorder bs (PrimitiveEnc.Encoder.new 128 false, []) = (.ok (), (e, blocks)) ∧
      rowsTold (blocks.map (·.1)) = 32 := by
  obtain ⟨⟨bs, e, b, h1, h2⟩, bs', e', b1, b2, b3, h3, h4⟩ := C34_binary_row_ids_violated p
  refine ⟨⟨bs, e, _, h1, h2, rfl⟩, ⟨bs', e', _, h3, h4, rfl⟩, ?_⟩
  have hb := buildAll_of_accepts (nullable := false)
    (bufs := [[some (1 : Int32)], List.replicate 40 (some 2)]) (by simp [Accepts])
  obtain ⟨e, blocks, h⟩ := C30_primitive_completes_partial p false 128 (by decide) (by decide) (by decide)
    _ _ hb (by decide) (.inl (by decide)) (fun _ => by decide)
  refine ⟨_, e, blocks, hb, h, ?_⟩
  rw [C87_primitive_exact p false 128 (by decide) (by decide) (.inl (by decide)) _ _ hb (by decide) _ _ h]
  decide

/-- Both sides occur. -/
example : rowsTold [31, 63] = 64 ∧ rowsTold [] = 0 ∧ Manageable 2 true [] [] [[some [1]], [none, some [2]]] ∧
    Manageable 2 true [] [] [[some [1], none], [some [2]]] ∧
    countedRows 32 [List.replicate 32 (some (1 : Int32)), [none, some 2]] = 34 := by decide +kernel

end Meerkat
