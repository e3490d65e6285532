import Verif.Proofs.PrimitiveColumn

set_option autoImplicit false

/-! # Properties of raw/primitive_enc.rs (C25–C30)

A column is given as the rows of its successive buffers. `Spec.readPrimitive` reads blocks back. -/

namespace Meerkat
open Spec PrimitiveEnc
variable {α : Type} [Element α]

/-- The buffers of a column, built through the API, one from each list of rows. -/
def buildAll (nullable : Bool) (bufs : List (List (Option α))) : Res (List (PrimitiveBuffer α)) :=
  bufs.mapM fun rows => (PrimitiveBuffer.new nullable).pushAll rows

omit [Element α] in
theorem buildAll_ok {nullable : Bool} {bufs : List (List (Option α))} {bs}
    (h : buildAll nullable bufs = .ok bs) :
    (∀ b ∈ bufs, Accepts nullable b) ∧ bs = bufs.map (PrimitiveBuffer.ofRows nullable) := by
  induction bufs generalizing bs with
  | nil => simp [buildAll, pure, Except.pure] at h; subst h; simp
  | cons b bufs ih =>
    by_cases hA : Accepts nullable b
    · rw [buildAll, List.mapM_cons, PrimitiveBuffer.new_pushAll _ _ hA] at h
      simp only [ok_bind] at h
      rcases hr : buildAll nullable bufs with x | bs'
      · rw [buildAll] at hr; rw [hr] at h; cases h
      · obtain ⟨h1, h2⟩ := ih hr
        rw [buildAll] at hr; rw [hr] at h; cases h
        exact ⟨by simpa using ⟨hA, h1⟩, by simp [h2]⟩
    · cases nullable with
      | true => exact absurd (.inl rfl) hA
      | false =>
        have : none ∈ b := Classical.byContradiction fun hn => hA (.inr hn)
        rw [buildAll, List.mapM_cons, PrimitiveBuffer.new_pushAll_err _ this] at h
        cases h

omit [Element α] in
theorem buildAll_of_accepts {nullable : Bool} {bufs : List (List (Option α))}
    (h : ∀ b ∈ bufs, Accepts nullable b) :
    buildAll nullable bufs = .ok (bufs.map (PrimitiveBuffer.ofRows nullable)) := by
  induction bufs with
  | nil => rfl
  | cons b bufs ih =>
    have h2 := ih (fun b' hb' => h b' (List.mem_cons_of_mem _ hb'))
    rw [buildAll] at h2
    rw [buildAll, List.mapM_cons, PrimitiveBuffer.new_pushAll _ _ (h b (List.mem_cons_self ..)), ok_bind, h2]
    rfl

/-- Number of rows of a column. -/
def rowCount (bufs : List (List (Option α))) : Nat := bufs.flatten.length

omit [Element α] in
theorem rowCount_eq (bufs : List (List (Option α))) : (bufs.map List.length).sum = rowCount bufs := by
  rw [rowCount, List.length_flatten]

theorem perBlock_div {m : Nat} (hd : Element.size α ∣ m) : perBlock α m = m / Element.size α := by
  rw [perBlock, if_neg (by have := Nat.mod_eq_zero_of_dvd hd; omega)]
  rfl

/-- What a successful run wrote. -/
theorem run_blocks {p : Profile} {nullable : Bool} {m : Nat} (hm : 0 < m) (hm64 : m < 2 ^ 64)
    (hd : Element.size α ∣ m ∨ p = .debug) {bufs : List (List (Option α))} {bs} (hb : buildAll nullable bufs = .ok bs)
    (hlen : rowCount bufs < 2 ^ 32 - 8) {e blocks}
    (hrun : encodeColumn p recorder bs (Encoder.new m nullable, []) = (.ok (), (e, blocks))) :
    blocks = blocksOf nullable 0 (callsOf (perBlock α m) [] bufs) := by
  obtain ⟨_, rfl⟩ := buildAll_ok hb
  have hl := rowCount_eq bufs
  have hU : U32_MAX = 2 ^ 32 - 1 := rfl
  have hnu : NoUnderflow m [] bufs := by
    rcases ha : encodeAll p recorder (bufs.map (PrimitiveBuffer.ofRows nullable)) (Encoder.new m nullable, []) with ⟨r, s⟩
    cases r with
    | ok _ => exact noUnderflow_of_ok hm hm64 hd (by omega) ha
    | error x => rw [encodeColumn, Run.bind_error ha] at hrun; cases (Prod.mk.inj hrun).1
  by_cases hr : 0 + totalIncrements nullable (callsOf (perBlock α m) [] bufs) < 2 ^ 32
  · obtain ⟨e', h1, _⟩ := encodeColumn_ok p nullable m hm hm64 bufs [] (Encoder.new m nullable) [] rfl
      (PrimitiveBuffer.new_eq _) (by simp [EndsWithValue]) (by simp) hnu
      (by simp only [List.length_nil]; omega) (.inr (by simp only [List.length_nil]; omega)) hr
    rw [h1] at hrun
    simp only [Prod.mk.injEq, List.nil_append] at hrun
    exact hrun.2.2.symm
  · obtain ⟨e', j, h1, _⟩ := encodeColumn_err p nullable m hm hm64 bufs [] (Encoder.new m nullable) [] rfl
      (PrimitiveBuffer.new_eq _) (by simp [EndsWithValue]) (by simp) hnu
      (by simp only [List.length_nil]; omega) (.inr (by simp only [List.length_nil]; omega))
      (by simp [Encoder.new]) hr
    rw [h1] at hrun
    cases (Prod.mk.inj hrun).1

omit [Element α] in
theorem callsOf_mem {c : Nat} (hc : 0 < c) {bufs : List (List (Option α))} {m : List (Option α)}
    (hm : m ∈ (callsOf c [] bufs).flatten) :
    (∀ r ∈ m, ∃ b ∈ bufs, r ∈ b) ∧ m.length ≤ rowCount bufs := by
  have hp : (callsOf c [] bufs).flatten.flatten <+: bufs.flatMap dropTrailingNulls := by
    rw [callsOf_rows hc]; exact takeVals_prefix ..
  have hdl : ∀ (bs : List (List (Option α))), (bs.flatMap dropTrailingNulls).length ≤ bs.flatten.length := by
    intro bs; induction bs with
    | nil => simp
    | cons b bs ih =>
      obtain ⟨q, hq, _⟩ := dropTrailingNulls_spec b
      have := congrArg List.length hq
      simp only [List.length_append] at this
      rw [List.flatMap_cons, List.flatten_cons, List.length_append, List.length_append]
      omega
  constructor
  · intro r hr
    have h1 : r ∈ bufs.flatMap dropTrailingNulls :=
      hp.subset (List.mem_flatten.mpr ⟨m, hm, hr⟩)
    obtain ⟨b, hb, hrb⟩ := List.mem_flatMap.mp h1
    obtain ⟨q, hq, _⟩ := dropTrailingNulls_spec b
    exact ⟨b, hb, by rw [hq]; exact List.mem_append_left _ hrb⟩
  · have h1 : m.length ≤ (callsOf c [] bufs).flatten.flatten.length := by
      exact (List.sublist_flatten_of_mem hm).length_le
    have h2 := hp.length_le
    have h3 := hdl bufs
    rw [rowCount]; omega

omit [Element α] in
theorem callsOf_accepts {nullable : Bool} {c : Nat} (hc : 0 < c) {bufs : List (List (Option α))}
    (hA : ∀ b ∈ bufs, Accepts nullable b) {m : List (Option α)} (hm : m ∈ (callsOf c [] bufs).flatten) :
    Accepts nullable m := by
  cases nullable with
  | true => exact .inl rfl
  | false =>
    refine .inr fun hn => ?_
    obtain ⟨b, hb, hr⟩ := (callsOf_mem hc hm).1 _ hn
    rcases hA b hb with h | h
    · cases h
    · exact h hr

/-- Reading back the blocks of a run, block by block. -/
theorem run_read (q : Profile) {nullable : Bool} {m : Nat} (hm : 0 < m)
    {bufs : List (List (Option α))} (hA : ∀ b ∈ bufs, Accepts nullable b)
    (hlen : rowCount bufs < 2 ^ 32 - 8) :
    ((blocksOf nullable 0 (callsOf (perBlock α m) [] bufs)).map (·.2)).mapM (readPrimitive q nullable) =
      some (callsOf (perBlock α m) [] bufs).flatten := by
  rw [blocksOf_data]
  apply mapM_readPrimitive
  intro c hc
  obtain ⟨_, _, h3⟩ := callsOf_chunks (perBlock_pos (α := α) hm) bufs [] (by simp [EndsWithValue]) (by simp) c hc
  exact ⟨h3, callsOf_accepts (perBlock_pos hm) hA hc, by have := (callsOf_mem (perBlock_pos hm) hc).2; omega⟩

/-! ## C25 -/

/-- C25: the block written for any range `mid` of any buffer (`pre ++ mid ++ post` are the buffer's
rows; `mid` ends with a value, since `write_block` is given a range of values) is read back as exactly
`mid`, by readers of either profile, as long as the block has fewer than 2^32 - 7 rows. -/
theorem C25_primitive_block (p q : Profile) (nullable : Bool) (pre mid post : List (Option α))
    (b : PrimitiveBuffer α) (hb : (PrimitiveBuffer.new nullable).pushAll (pre ++ mid ++ post) = .ok b)
    (hend : mid = [] ∨ ∃ l v, mid = l ++ [some v]) (hlen : mid.length < 2 ^ 32 - 7) (be : Rle.Encoder) :
    ∃ result block be', encodePrimitiveBuffer p b (valuesOf pre).length (valuesOf (pre ++ mid)).length
        pre.length be = .ok (result, block, be') ∧
      readPrimitive q nullable block = some mid := by
  have hA : Accepts nullable (pre ++ mid ++ post) := by
    cases nullable with
    | true => exact .inl rfl
    | false =>
      refine .inr fun hn => ?_
      rw [PrimitiveBuffer.new_pushAll_err _ hn] at hb; cases hb
  rw [PrimitiveBuffer.new_pushAll _ _ hA] at hb
  cases hb
  have hE : EndsWithValue mid := by
    rcases hend with rfl | ⟨l, v, rfl⟩
    · simp [EndsWithValue]
    · simp [EndsWithValue]
  obtain ⟨be', h⟩ := encodePrimitiveBuffer_ok p nullable pre mid post pre.length be hE (by omega) (fun _ => rfl)
  refine ⟨_, _, be', h, readPrimitive_blockBytes q nullable mid hE ?_ hlen⟩
  rcases hA with h | h
  · exact .inl h
  · exact .inr fun hn => h (by simp [hn])

/-- Reading back a block in the middle of a buffer with nulls around. -/
example : ∃ b result block be', (PrimitiveBuffer.new true).pushAll
      ([none, some (7 : Int32), none] ++ [none, some 1, none, some (-1)] ++ [none, some 2]) = .ok b ∧
    encodePrimitiveBuffer .debug b 1 3 3 Rle.Encoder.new = .ok (result, block, be') ∧
    readPrimitive .release true block = some [none, some (1 : Int32), none, some (-1)] := by
  obtain ⟨r, bl, be', h1, h2⟩ := C25_primitive_block .debug .release true [none, some (7 : Int32), none]
    [none, some 1, none, some (-1)] [none, some 2] _ (PrimitiveBuffer.new_pushAll _ _ (.inl rfl))
    (.inr ⟨[none, some 1, none], -1, rfl⟩) (by decide) Rle.Encoder.new
  exact ⟨_, r, bl, be', PrimitiveBuffer.new_pushAll _ _ (.inl rfl), h1, h2⟩

/-! ## C30: encoding completes -/

/-- C30 as far as it holds. With a block size that is a positive multiple of the element size: every
column of fewer than 2^32 rows when it is not nullable (fewer than 2^32 - 1 if a block can hold that many values); a
nullable column of `N` rows when `N * (N / c + 1) < 2^32`, `c` being the number of values of a block. -/
theorem C30_primitive_completes_partial (p : Profile) (nullable : Bool) (m : Nat) (hm : 0 < m)
    (hm64 : m < 2 ^ 64) (hd : Element.size α ∣ m) (bufs : List (List (Option α))) (bs)
    (hb : buildAll nullable bufs = .ok bs) (hlen : rowCount bufs < 2 ^ 32)
    (hfit : m / Element.size α < 2 ^ 32 - 1 ∨ rowCount bufs < 2 ^ 32 - 1)
    (hnull : nullable = true → rowCount bufs * (rowCount bufs / (m / Element.size α) + 1) < 2 ^ 32) :
    ∃ e blocks, encodeColumn p recorder bs (Encoder.new m nullable, []) = (.ok (), (e, blocks)) := by
  obtain ⟨hA, rfl⟩ := buildAll_ok hb
  have hl := rowCount_eq bufs
  have hU : U32_MAX = 2 ^ 32 - 1 := rfl
  have hc := perBlock_pos (α := α) hm
  have hp : (callsOf (perBlock α m) [] bufs).flatten.flatten.length ≤ rowCount bufs := by
    rw [callsOf_rows hc]
    have h1 := (takeVals_prefix (kept (perBlock α m) (bufs.map fun b => (valuesOf b).length))
      (bufs.flatMap dropTrailingNulls)).length_le
    have hdl : ∀ (bs : List (List (Option α))), (bs.flatMap dropTrailingNulls).length ≤ bs.flatten.length := by
      intro bs; induction bs with
      | nil => simp
      | cons b bs ih =>
        obtain ⟨q, hq, _⟩ := dropTrailingNulls_spec b
        have := congrArg List.length hq
        simp only [List.length_append] at this
        rw [List.flatMap_cons, List.flatten_cons, List.length_append, List.length_append]
        omega
    have := hdl bufs
    rw [rowCount]; omega
  have hr : 0 + totalIncrements nullable (callsOf (perBlock α m) [] bufs) < 2 ^ 32 := by
    cases nullable with
    | false =>
      rw [totalIncrements_false]
      have := valuesOf_length_le (callsOf (perBlock α m) [] bufs).flatten.flatten
      omega
    | true =>
      have h1 := totalIncrements_true_le _ _ hp
      have h2 := callsOf_count hc bufs (rowCount bufs) (valuesOf_length_le _)
      have h3 := hnull rfl
      rw [← perBlock_div hd] at h3
      have h4 := Nat.mul_le_mul_right (rowCount bufs) h2
      rw [Nat.mul_comm] at h3
      omega
  obtain ⟨e', h1, _⟩ := encodeColumn_ok p nullable m hm hm64 bufs [] (Encoder.new m nullable) [] rfl
      (PrimitiveBuffer.new_eq _) (by simp [EndsWithValue]) (by simp)
      (noUnderflow_of_dvd hm hd bufs [] (by simp [EndsWithValue]) (by simp))
      (by simp only [List.length_nil]; omega)
      (by rw [perBlock_div hd]; simp only [List.length_nil]; omega) hr
  exact ⟨_, _, h1⟩

/-- With block size 0 and nothing written yet, the loop panics in debug builds and never ends in
release builds. -/
theorem encode_zero_diverges (rows : List (Option α)) (hv : 0 < (valuesOf rows).length)
    (e : Encoder α) (hm : e.minBlockSize = 0) (hn : e.numRows = 0) (l : List (Nat × Bytes)) (fuel : Nat) :
    (encodeLoop .debug recorder (PrimitiveBuffer.ofRows false rows) (fuel + 1) 0 0 (e, l)).1 =
      .error (.panic .overflow) ∧
    ((encodeLoop .release recorder (PrimitiveBuffer.ofRows false rows) fuel 0 0 (e, l)).1 =
      .error (.panic .diverge)) := by
  have hchunk : ∀ p, chunk p (PrimitiveBuffer.ofRows false rows) 0 0 = .ok 0 := by
    intro p
    rw [chunk_ok p _ 0 0 (by simp [perBlock])]
    simp [perBlock]
  have hlen : 0 < (PrimitiveBuffer.ofRows false rows).len := hv
  have henc : ∀ p be, ∃ be', encodePrimitiveBuffer p (PrimitiveBuffer.ofRows false rows) 0 0 0 be =
      .ok (⟨0, 0⟩, blockBytes false ([] : List (Option α)), be') := by
    intro p be
    have := encodePrimitiveBuffer_ok p false ([] : List (Option α)) [] rows 0 be (by simp [EndsWithValue])
      (by simp) (fun _ => rfl)
    simpa using this
  have hsub : ∀ p : Profile, p.sub 64 0 0 = .ok 0 := fun p => Profile.sub_ok p (by omega)
  have hadd : addRows 0 0 = .ok 0 := by decide
  have hd : Profile.debug.sub 32 0 1 = .error .overflow := by decide
  have hr : Profile.release.sub 32 0 1 = .ok 4294967295 := by decide
  constructor
  · obtain ⟨be', h⟩ := henc .debug e.bitmapEncoder
    rw [encodeLoop, if_pos hlen]
    simp only [Run.bind_apply, Run.get_apply, Run.set_apply, Run.lift_ok, Run.lift_error, hm, hchunk, hsub,
      Nat.zero_mul, Nat.lt_irrefl, if_false, writeBlock, writeRange, h, hn, hadd, hd]
  · induction fuel generalizing e l with
    | zero => rfl
    | succ fuel ih =>
      obtain ⟨be', h⟩ := henc .release e.bitmapEncoder
      rw [encodeLoop, if_pos hlen]
      simp only [Run.bind_apply, Run.pure_apply, Run.get_apply, Run.set_apply, Run.lift_ok, hm,
        hchunk, hsub, Nat.zero_mul, Nat.lt_irrefl, if_false, writeBlock, writeRange, h, hn, hadd, hr,
        Run.emit_recorder]
      exact ih _ rfl rfl _

/-- A nullable column of `16 k` non-null 8-byte rows in one buffer panics when `8 k (k + 1)` reaches
2^32. -/
theorem nullable_overflow (p : Profile) (k : Nat) (hk : 2 ^ 33 ≤ k * (16 * (k + 1)) ∧ 16 * k < 2 ^ 60)
    (rows : List (Option UInt64)) (hnn : none ∉ rows) (hrl : rows.length = 16 * k) :
    (encodeColumn p recorder ([rows].map (PrimitiveBuffer.ofRows true)) (Encoder.new 128 true, [])).1 =
      .error (.panic .expect) := by
  have hvl : (valuesOf rows).length = 16 * k := by rw [valuesOf_length_of_no_none hnn, hrl]
  have hc : perBlock UInt64 128 = 16 := by decide
  have hinc : 2 * increments true 0 (chunksOf 16 rows) = k * (2 * 0 + 16 * (k + 1)) := by
    have hk : (chunksOf 16 rows).length = k := by rw [chunksOf_length, hvl]; omega
    have h := increments_true_eq 16 (chunksOf 16 rows) 0 (fun m hm => ?_)
    · rw [hk] at h; exact h
    · obtain ⟨_, _, _, h4, h5⟩ := leftOf_spec (c := 16) (by omega) rows
      rw [← (h5 m hm).1, valuesOf_length_of_no_none]
      intro hn
      obtain ⟨q, hq, _⟩ := dropTrailingNulls_spec rows
      apply hnn
      rw [hq, h4]
      exact List.mem_append_left _ (List.mem_append_left _ (List.mem_flatten.mpr ⟨m, hm, hn⟩))
  have hz : (Encoder.new (α := UInt64) 128 true).numRows = 0 := rfl
  obtain ⟨e', j, h, _⟩ := encodeColumn_err (α := UInt64) p true 128 (by omega) (by omega) [rows] []
    (Encoder.new 128 true) [] rfl
    (PrimitiveBuffer.new_eq _) (by simp [EndsWithValue]) (by simp)
    (noUnderflow_of_dvd (by omega) (by decide) _ [] (by simp [EndsWithValue]) (by simp))
    (by simp only [List.length_nil, List.map_cons, List.map_nil, List.sum_cons, List.sum_nil]; omega)
    (.inl (by rw [hc]; decide)) (by rw [hz]; decide)
    (by
      rw [hc, callsOf, totalIncrements_append]
      simp only [stepsOf, step, valuesOf_nil, List.length_nil, if_true, totalIncrements]
      have h3 : k * (2 * 0 + 16 * (k + 1)) = k * (16 * (k + 1)) := by rw [Nat.mul_zero, Nat.zero_add]
      omega)
  rw [h]

/-- C30 is false of the code: (1) a block size that is not a multiple of the element size makes the
third call panic in debug builds; (2) with block size 0 any non-empty buffer panics in debug builds and
loops forever in release builds; (3) a nullable column of 16 * 23170 = 370720 non-null rows panics,
because the row counter of nullable columns grows by an absolute position for each block. -/
theorem C30_primitive_completes_violated :
    (∃ bufs bs, buildAll false bufs = .ok bs ∧ rowCount (α := Int32) bufs = 3 ∧
      (encodeColumn .debug recorder bs (Encoder.new 6 false, [])).1 = .error (.panic .overflow)) ∧
    (∀ rows : List α, rows ≠ [] → ∀ bs, buildAll false [rows.map some] = .ok bs →
      (encodeColumn .debug recorder bs (Encoder.new 0 false, [])).1 = .error (.panic .overflow) ∧
      ∀ fuel, ∀ b ∈ bs,
        (encodeFuel .release recorder b fuel (Encoder.new 0 false, [])).1 = .error (.panic .diverge)) ∧
    (∀ p v, ∃ bs, buildAll true [List.replicate (16 * 23170) (some (v : UInt64))] = .ok bs ∧
      (encodeColumn p recorder bs (Encoder.new 128 true, [])).1 = .error (.panic .expect)) := by
  refine ⟨⟨[[some 1], [some 2], [some 3]], _, buildAll_of_accepts (by simp [Accepts]), rfl, by decide +kernel⟩, ?_, ?_⟩
  · intro rows hne bs hb
    obtain ⟨_, rfl⟩ := buildAll_ok hb
    have hv : 0 < (valuesOf (rows.map some)).length := by
      rw [valuesOf_length_of_no_none (by simp), List.length_map]
      exact List.length_pos_iff.mpr hne
    have hlen0 : (Encoder.new (α := α) 0 false).remaining.len = 0 := rfl
    constructor
    · have h := (encode_zero_diverges (rows.map some) hv (Encoder.new 0 false) rfl rfl []
        (PrimitiveBuffer.ofRows false (rows.map some)).len).1
      rcases hr : encodeLoop .debug recorder (PrimitiveBuffer.ofRows false (rows.map some))
        ((PrimitiveBuffer.ofRows false (rows.map some)).len + 1) 0 0 (Encoder.new 0 false, []) with ⟨r, s⟩
      rw [hr] at h
      simp only at h
      subst h
      simp [encodeColumn, encodeAll, encode, encodeFuel, Run.bind_apply, hlen0, hr]
    · intro fuel b hb
      simp only [List.map_cons, List.map_nil, List.mem_singleton] at hb
      subst hb
      have h := (encode_zero_diverges (rows.map some) hv (Encoder.new 0 false) rfl rfl [] fuel).2
      simp only [encodeFuel, Run.bind_apply, Run.get_apply, hlen0, Nat.lt_irrefl, gt_iff_lt, if_false]
      exact h
  · intro p v
    refine ⟨_, buildAll_of_accepts (fun _ _ => .inl rfl), ?_⟩
    exact nullable_overflow p 23170 (by decide) _ (fun h => by cases (List.mem_replicate.mp h).2)
      List.length_replicate

/-! ## C26, C27: what is in the blocks -/

omit [Element α] in
theorem kept_of_dropLast {c : Nat} (lens : List Nat) (h : ∀ l ∈ lens.dropLast, c ∣ l) :
    kept c lens = lens.sum := by
  induction lens with
  | nil => rfl
  | cons l ls ih =>
    rw [kept]
    cases ls with
    | nil => simp [kept]
    | cons l2 ls =>
      rw [List.dropLast_cons_cons] at h
      rw [if_pos (Nat.mod_eq_zero_of_dvd (h l (List.mem_cons_self ..))),
        ih (fun x hx => h x (List.mem_cons_of_mem _ hx))]
      rfl

omit [Element α] in
theorem flatMap_dropTrailing_values (bufs : List (List (Option α))) :
    valuesOf (bufs.flatMap dropTrailingNulls) = valuesOf bufs.flatten := by
  induction bufs with
  | nil => rfl
  | cons b bs ih => rw [List.flatMap_cons, List.flatten_cons, valuesOf_append, valuesOf_append, ih,
      dropTrailingNulls_values]

omit [Element α] in
theorem sum_valuesOf (bufs : List (List (Option α))) :
    (bufs.map fun b => (valuesOf b).length).sum = (valuesOf bufs.flatten).length := by
  induction bufs with
  | nil => rfl
  | cons b bs ih => rw [List.map_cons, List.sum_cons, List.flatten_cons, valuesOf_append, List.length_append, ih]

/-- C27, exactly, for block sizes that are multiples of the element size, and for all block sizes in debug builds: for
every successful run the rows read back from the blocks are the rows of the
buffers, each without its trailing nulls, up to the number of values given by `Spec.kept`. -/
theorem C27_primitive_rows_exact (p q : Profile) (nullable : Bool) (m : Nat) (hm : 0 < m)
    (hm64 : m < 2 ^ 64) (hd : Element.size α ∣ m ∨ p = .debug) (bufs : List (List (Option α))) (bs)
    (hb : buildAll nullable bufs = .ok bs) (hlen : rowCount bufs < 2 ^ 32 - 8) (e blocks)
    (hrun : encodeColumn p recorder bs (Encoder.new m nullable, []) = (.ok (), (e, blocks))) :
    readColumn q nullable (blocks.map (·.2)) = some (takeVals
      (kept ((m + Element.size α - 1) / Element.size α) (bufs.map fun b => (valuesOf b).length))
      (bufs.flatMap dropTrailingNulls)) := by
  have hbl := run_blocks hm hm64 hd hb hlen hrun
  subst hbl
  rw [readColumn, run_read q hm (buildAll_ok hb).1 hlen, Option.map_some, callsOf_rows (perBlock_pos hm),
    perBlock_ceil]

/-- C26, exactly, for the same block sizes: for every successful run the values read back are the first `kept` values of the
buffers, in order. -/
theorem C26_primitive_values_exact (p q : Profile) (nullable : Bool) (m : Nat) (hm : 0 < m)
    (hm64 : m < 2 ^ 64) (hd : Element.size α ∣ m ∨ p = .debug) (bufs : List (List (Option α))) (bs)
    (hb : buildAll nullable bufs = .ok bs) (hlen : rowCount bufs < 2 ^ 32 - 8) (e blocks)
    (hrun : encodeColumn p recorder bs (Encoder.new m nullable, []) = (.ok (), (e, blocks))) :
    (readColumn q nullable (blocks.map (·.2))).map valuesOf = some ((valuesOf bufs.flatten).take
      (kept ((m + Element.size α - 1) / Element.size α) (bufs.map fun b => (valuesOf b).length))) := by
  rw [C27_primitive_rows_exact p q nullable m hm hm64 hd bufs bs hb hlen e blocks hrun, Option.map_some,
    takeVals_values, flatMap_dropTrailing_values]

/-- C26 as far as it holds: when every buffer but the last one has a multiple of the number of values
of a block, all values are written once, in order. -/
theorem C26_primitive_values_partial (p q : Profile) (nullable : Bool) (m : Nat) (hm : 0 < m)
    (hm64 : m < 2 ^ 64) (hd : Element.size α ∣ m ∨ p = .debug) (bufs : List (List (Option α))) (bs)
    (hb : buildAll nullable bufs = .ok bs) (hlen : rowCount bufs < 2 ^ 32 - 8)
    (hmul : ∀ b ∈ bufs.dropLast, ((m + Element.size α - 1) / Element.size α) ∣ (valuesOf b).length) (e blocks)
    (hrun : encodeColumn p recorder bs (Encoder.new m nullable, []) = (.ok (), (e, blocks))) :
    (readColumn q nullable (blocks.map (·.2))).map valuesOf = some (valuesOf bufs.flatten) := by
  rw [C26_primitive_values_exact p q nullable m hm hm64 hd bufs bs hb hlen e blocks hrun,
    kept_of_dropLast _ (by
      rw [← List.map_dropLast]
      intro l hl
      obtain ⟨b, hb, rfl⟩ := List.mem_map.mp hl
      exact hmul b hb), sum_valuesOf, List.take_length]

/-- C26 is false of the code: with 128-byte blocks, a buffer of one `i32` followed by one of 40 leaves
nine values out, in both profiles and for nullable and non-nullable columns. -/
theorem C26_primitive_values_violated (p q : Profile) (nullable : Bool) :
    ∃ (bufs : List (List (Option Int32))) (bs : List (PrimitiveBuffer Int32)) (e : Encoder Int32)
      (blocks : List (Nat × Bytes)) (vals : List Int32), buildAll nullable bufs = .ok bs ∧
      encodeColumn p recorder bs (Encoder.new 128 nullable, []) = (.ok (), (e, blocks)) ∧
      (readColumn q nullable (blocks.map (·.2))).map valuesOf = some vals ∧
      vals.length = 32 ∧ (valuesOf bufs.flatten).length = 41 := by
  have hb := buildAll_of_accepts (nullable := nullable)
    (bufs := [[some (1 : Int32)], List.replicate 40 (some 2)]) (by simp [Accepts])
  obtain ⟨e, blocks, h⟩ := C30_primitive_completes_partial p nullable 128 (by decide) (by decide) (by decide)
    _ _ hb (by decide) (.inl (by decide)) (fun _ => by decide)
  have h2 := C26_primitive_values_exact p q nullable 128 (by decide) (by decide) (.inl (by decide)) _ _ hb (by decide) _ _ h
  exact ⟨_, _, e, blocks, _, hb, h, h2, by decide, by decide⟩

/-- C27 as far as it holds: when moreover every buffer ends with a value (or is empty), the rows read
back are exactly the rows of the buffers. -/
theorem C27_primitive_rows_partial (p q : Profile) (nullable : Bool) (m : Nat) (hm : 0 < m)
    (hm64 : m < 2 ^ 64) (hd : Element.size α ∣ m ∨ p = .debug) (bufs : List (List (Option α))) (bs)
    (hb : buildAll nullable bufs = .ok bs) (hlen : rowCount bufs < 2 ^ 32 - 8)
    (hmul : ∀ b ∈ bufs.dropLast, ((m + Element.size α - 1) / Element.size α) ∣ (valuesOf b).length)
    (hend : ∀ b ∈ bufs, b = [] ∨ ∃ l v, b = l ++ [some v]) (e blocks)
    (hrun : encodeColumn p recorder bs (Encoder.new m nullable, []) = (.ok (), (e, blocks))) :
    readColumn q nullable (blocks.map (·.2)) = some bufs.flatten := by
  have hE : ∀ b ∈ bufs, EndsWithValue b := by
    intro b hb
    rcases hend b hb with rfl | ⟨l, v, rfl⟩ <;> simp [EndsWithValue]
  have hdt : ∀ l : List (List (Option α)), (∀ b ∈ l, EndsWithValue b) → l.flatMap dropTrailingNulls = l.flatten := by
    intro l hl
    induction l with
    | nil => rfl
    | cons b l ih =>
      rw [List.flatMap_cons, List.flatten_cons, ih (fun b' hb' => hl b' (List.mem_cons_of_mem _ hb')),
        dropTrailingNulls_of_ends (hl b (List.mem_cons_self ..))]
  rw [C27_primitive_rows_exact p q nullable m hm hm64 hd bufs bs hb hlen e blocks hrun,
    kept_of_dropLast _ (by
      rw [← List.map_dropLast]
      intro l hl
      obtain ⟨b, hb, rfl⟩ := List.mem_map.mp hl
      exact hmul b hb), sum_valuesOf, hdt _ hE, takeVals_all (ends_flatten hE) (Nat.le_refl _)]

/-- The hypotheses of the two partial theorems hold for two full buffers and a shorter one, with nulls. -/
example : ∃ bs, buildAll true [List.replicate 32 (some (5 : Int32)), none :: List.replicate 32 (some 6),
      [none, some 7, none, none, some 8]] = .ok bs ∧
    ∃ e blocks, encodeColumn .debug recorder bs (Encoder.new 128 true, []) = (.ok (), (e, blocks)) ∧
      readColumn .debug true (blocks.map (·.2)) = some (List.replicate 32 (some (5 : Int32)) ++
        none :: List.replicate 32 (some 6) ++ [none, some 7, none, none, some 8]) := by
  have hb := buildAll_of_accepts (nullable := true) (bufs := [List.replicate 32 (some (5 : Int32)),
    none :: List.replicate 32 (some 6), [none, some 7, none, none, some 8]]) (fun _ _ => .inl rfl)
  obtain ⟨e, blocks, h⟩ := C30_primitive_completes_partial .debug true 128 (by decide) (by decide) (by decide)
    _ _ hb (by decide) (.inl (by decide)) (fun _ => by decide)
  refine ⟨_, hb, e, blocks, h, ?_⟩
  refine C27_primitive_rows_partial .debug .debug true 128 (by decide) (by decide) (.inl (by decide)) _ _ hb (by decide)
    (by decide) ?_ e blocks h
  intro b hb
  simp only [List.mem_cons, List.not_mem_nil, or_false] at hb
  rcases hb with rfl | rfl | rfl
  · exact .inr ⟨List.replicate 31 (some 5), 5, by decide⟩
  · exact .inr ⟨none :: List.replicate 31 (some 6), 6, by decide⟩
  · exact .inr ⟨[none, some 7, none, none], 8, by decide⟩

/-- A column of buffers without values leaves the encoder and the sink as they were. -/
theorem PrimitiveEnc.encodeColumn_idle {S : Type} (p : Profile) (k : Sink S) (e : Encoder α) (he : e.remaining.len = 0) (s : S) :
    ∀ bs : List (PrimitiveBuffer α), (∀ b ∈ bs, b.len = 0) → encodeColumn p k bs (e, s) = (.ok (), (e, s)) := by
  intro bs
  induction bs with
  | nil =>
    intro _
    simp only [encodeColumn, encodeAll, flush, Run.bind_apply, Run.pure_apply, Run.get_apply, he]
    rfl
  | cons b bs ih =>
    intro h
    have h0 := h b (by simp)
    have ih := ih fun c hc => h c (by simp [hc])
    simp only [encodeColumn, Run.bind_apply] at ih
    have h1 : encode p k b (e, s) = (.ok (), (e, s)) := by
      simp only [encode, encodeFuel, encodeLoop, Run.bind_apply, Run.get_apply, he, h0]
      rfl
    simp only [encodeColumn, encodeAll, Run.bind_apply, h1]
    exact ih

/-- C27 is false of the code: a null at the end of a buffer is not written, and a column of nulls only
gives no block at all, whatever its length, the block size and the sink. -/
theorem C27_primitive_rows_violated (p q : Profile) :
    (∃ (bs : List (PrimitiveBuffer Int32)) (e : Encoder Int32) (blocks : List (Nat × Bytes)),
      buildAll true [[some 1, none], [some 2]] = .ok bs ∧
      encodeColumn p recorder bs (Encoder.new 128 true, []) = (.ok (), (e, blocks)) ∧
      readColumn q true (blocks.map (·.2)) = some [some (1 : Int32), some 2]) ∧
    ∀ bufs : List (List (Option α)), (∀ b ∈ bufs, ∀ r ∈ b, r = none) → ∃ bs, buildAll true bufs = .ok bs ∧
      ∀ {S : Type} (k : Sink S) (s : S) (m : Nat),
        encodeColumn p k bs (Encoder.new m true, s) = (.ok (), (Encoder.new m true, s)) := by
  constructor
  · have hb := buildAll_of_accepts (nullable := true)
      (bufs := [[some (1 : Int32), none], [some 2]]) (fun _ _ => .inl rfl)
    obtain ⟨e, blocks, h⟩ := C30_primitive_completes_partial p true 128 (by decide) (by decide) (by decide)
      _ _ hb (by decide) (.inl (by decide)) (fun _ => by decide)
    have h2 := C27_primitive_rows_exact p q true 128 (by decide) (by decide) (.inl (by decide)) _ _ hb (by decide) _ _ h
    refine ⟨_, e, blocks, hb, h, ?_⟩
    rw [h2]
    rfl
  · intro bufs hn
    refine ⟨_, buildAll_of_accepts (fun _ _ => .inl rfl), fun k s m => encodeColumn_idle p k _ rfl s _ ?_⟩
    intro b hb
    obtain ⟨rows, hr, rfl⟩ := List.mem_map.mp hb
    have hv : valuesOf rows = [] := by
      rw [valuesOf, List.filterMap_eq_nil_iff]
      exact fun r h => hn rows hr r h
    show (PrimitiveBuffer.ofRows true rows).values.length = 0
    rw [show (PrimitiveBuffer.ofRows true rows).values = valuesOf rows from rfl, hv]
    rfl

/-! ## C28: row ids -/

/-- C28 as far as it holds: for columns that are not nullable, and for nullable ones whose buffers end
with a value and have fewer values than two blocks, the row id of each block is the index in the column
of its last row. `groups` are the rows read back from the blocks. -/
theorem C28_primitive_row_ids_partial (p q : Profile) (nullable : Bool) (m : Nat) (hm : 0 < m)
    (hm64 : m < 2 ^ 64) (hd : Element.size α ∣ m ∨ p = .debug) (bufs : List (List (Option α))) (bs)
    (hb : buildAll nullable bufs = .ok bs) (hlen : rowCount bufs < 2 ^ 32 - 8)
    (hnull : nullable = true → ∀ b ∈ bufs, (b = [] ∨ ∃ l v, b = l ++ [some v]) ∧
      (valuesOf b).length < 2 * ((m + Element.size α - 1) / Element.size α)) (e blocks)
    (hrun : encodeColumn p recorder bs (Encoder.new m nullable, []) = (.ok (), (e, blocks))) :
    ∃ groups, (blocks.map (·.2)).mapM (readPrimitive q nullable) = some groups ∧
      groups.flatten <+: bufs.flatten ∧ blocks.map (·.1) = lastRowIds 0 groups := by
  have hA := (buildAll_ok hb).1
  have hbl := run_blocks hm hm64 hd hb hlen hrun
  subst hbl
  have hc := perBlock_pos (α := α) hm
  refine ⟨_, run_read q hm hA hlen, ?_, blocksOf_ids nullable _ 0 ?_⟩
  · rw [callsOf_rows hc]
    have hE : ∀ b ∈ bufs, EndsWithValue b := by
      intro b hmem
      cases nullable with
      | true => rcases (hnull rfl b hmem).1 with rfl | ⟨l, v, rfl⟩ <;> simp [EndsWithValue]
      | false =>
        rcases hA b hmem with h | h
        · cases h
        · have h1 := dropTrailingNulls_spec b
          obtain ⟨q, hq, hn⟩ := h1
          cases q with
          | nil => rw [List.append_nil] at hq; rw [hq]; exact dropTrailingNulls_ends b
          | cons x q =>
            cases x with
            | none => exact absurd (by rw [hq]; simp) h
            | some v => simp [valuesOf] at hn
    have hdt : ∀ l : List (List (Option α)), (∀ b ∈ l, EndsWithValue b) → l.flatMap dropTrailingNulls = l.flatten := by
      intro l hl
      induction l with
      | nil => rfl
      | cons b l ih =>
        rw [List.flatMap_cons, List.flatten_cons, ih (fun b' hb' => hl b' (List.mem_cons_of_mem _ hb')),
          dropTrailingNulls_of_ends (hl b (List.mem_cons_self ..))]
    rw [hdt _ hE]
    exact takeVals_prefix ..
  · intro ms hms
    cases nullable with
    | false =>
      simp only [CountsRight, Bool.false_eq_true, if_false]
      intro x hx hn
      rcases callsOf_accepts hc hA (List.mem_flatten.mpr ⟨ms, hms, hx⟩) with h | h
      · cases h
      · exact h hn
    | true =>
      simp only [CountsRight, if_true]
      rw [callsOf, List.mem_append] at hms
      rcases hms with hms | hms
      · rcases stepsOf_mem_step bufs [] ms hms with rfl | ⟨b, hb, rfl⟩
        · simp
        · rw [chunksOf_length]
          have := (hnull rfl b hb).2
          rw [← perBlock_ceil] at this
          have := (Nat.div_lt_iff_lt_mul hc).mpr this
          omega
      · simp only [List.mem_singleton] at hms
        subst hms
        rw [flushOf]; split <;> simp

example : ∃ bs, buildAll false [List.replicate 100 (some (5 : Int64))] = .ok bs ∧
    ∃ e blocks, encodeColumn .debug recorder bs (Encoder.new 128 false, []) = (.ok (), (e, blocks)) ∧
      blocks.map (·.1) = [15, 31, 47, 63, 79, 95, 99] := by
  have hb := buildAll_of_accepts (nullable := false) (bufs := [List.replicate 100 (some (5 : Int64))])
    (by simp [Accepts])
  obtain ⟨e, blocks, h⟩ := C30_primitive_completes_partial .debug false 128 (by decide) (by decide) (by decide)
    _ _ hb (by decide) (.inl (by decide)) (by simp)
  refine ⟨_, hb, e, blocks, h, ?_⟩
  rw [run_blocks (by decide) (by decide) (.inl (by decide)) hb (by decide) h]
  decide +kernel

/-- C28 is false of the code for nullable columns: 64 non-null `i32` in one buffer give two blocks of 32
rows with row ids 31 and 95 instead of 31 and 63. -/
theorem C28_primitive_row_ids_violated (p q : Profile) :
    ∃ (bufs : List (List (Option Int32))) (bs : List (PrimitiveBuffer Int32)) (e : Encoder Int32)
      (blocks : List (Nat × Bytes)) (groups : List (List (Option Int32))),
      buildAll true bufs = .ok bs ∧
      encodeColumn p recorder bs (Encoder.new 128 true, []) = (.ok (), (e, blocks)) ∧
      (blocks.map (·.2)).mapM (readPrimitive q true) = some groups ∧ groups.flatten = bufs.flatten ∧
      blocks.map (·.1) = [31, 95] ∧ lastRowIds 0 groups = [31, 63] := by
  have hb := buildAll_of_accepts (nullable := true) (bufs := [List.replicate 64 (some (5 : Int32))])
    (fun _ _ => .inl rfl)
  obtain ⟨e, blocks, h⟩ := C30_primitive_completes_partial p true 128 (by decide) (by decide) (by decide)
    _ _ hb (by decide) (.inl (by decide)) (fun _ => by decide)
  have hbl := run_blocks (by decide) (by decide) (.inl (by decide)) hb (by decide) h
  refine ⟨_, _, e, blocks, (callsOf (perBlock Int32 128) [] [List.replicate 64 (some (5 : Int32))]).flatten, hb, h, ?_, ?_, ?_, ?_⟩
  · rw [hbl]; exact run_read q (by decide) (fun _ _ => .inl rfl) (by decide)
  · decide +kernel
  · rw [hbl]; decide +kernel
  · decide +kernel

/-! ## C29: block sizes -/

/-- C29 as far as it holds, for block sizes `m` that are multiples of the element size, and for all block sizes in debug
builds: whatever `encode` calls do (even end in a panic), every block they wrote holds at least `m` bytes of values and less
than one element more; what is held back is also less than `m` bytes and one element; and `flush` adds at most one
block, no larger. (Bytes are a multiple of the element size, so if `m` is one they are exactly, or at most, `m`.) -/
theorem C29_primitive_block_sizes_partial (p q : Profile) (nullable : Bool) (m : Nat) (hm : 0 < m)
    (hm64 : m < 2 ^ 64) (hd : Element.size α ∣ m ∨ p = .debug) (bufs : List (List (Option α))) (bs)
    (hb : buildAll nullable bufs = .ok bs) (hlen : rowCount bufs < 2 ^ 32 - 8) (r e blocks)
    (hrun : encodeAll p recorder bs (Encoder.new m nullable, []) = (r, (e, blocks))) :
    (∀ b ∈ blocks, ∃ rows : List (Option α), readPrimitive q nullable b.2 = some rows ∧
      m ≤ (valuesOf rows).length * Element.size α ∧
      (valuesOf rows).length * Element.size α < m + Element.size α) ∧
    (r = .ok () → e.remaining.len * Element.size α < m + Element.size α ∧
      ∀ e' blocks', flush p recorder (e, blocks) = (.ok (), (e', blocks')) → blocks' = blocks ∨
        ∃ id block, blocks' = blocks ++ [(id, block)] ∧
          ∃ rows : List (Option α), readPrimitive q nullable block = some rows ∧
            0 < (valuesOf rows).length ∧ (valuesOf rows).length * Element.size α < m + Element.size α) := by
  obtain ⟨hA, rfl⟩ := buildAll_ok hb
  have hl := rowCount_eq bufs
  have hU : U32_MAX = 2 ^ 32 - 1 := rfl
  have hc := perBlock_pos (α := α) hm
  have hE0 : EndsWithValue ([] : List (Option α)) := by simp [EndsWithValue]
  have hfull : m ≤ perBlock α m * Element.size α ∧ perBlock α m * Element.size α < m + Element.size α := by
    have hsz := Element.size_eq (α := α)
    simp only [perBlock]
    rcases hsz with h | h <;> rw [h] <;> split <;> omega
  have hread : ∀ b ∈ blocksOf nullable 0 (stepsOf (perBlock α m) [] bufs), ∃ rows : List (Option α),
      readPrimitive q nullable b.2 = some rows ∧ m ≤ (valuesOf rows).length * Element.size α ∧
      (valuesOf rows).length * Element.size α < m + Element.size α := by
    intro b hb
    have h1 : b.2 ∈ (blocksOf nullable 0 (stepsOf (perBlock α m) [] bufs)).map (·.2) := List.mem_map.mpr ⟨b, hb, rfl⟩
    rw [blocksOf_data] at h1
    obtain ⟨rows, hr, heq⟩ := List.mem_map.mp h1
    have hr' : rows ∈ (callsOf (perBlock α m) [] bufs).flatten := by
      rw [callsOf, List.flatten_append]; exact List.mem_append_left _ hr
    obtain ⟨h2, h3⟩ := stepsOf_chunks hc bufs [] hE0 (by simp) rows hr
    refine ⟨rows, ?_, by rw [h2]; exact hfull⟩
    rw [← heq]
    exact readPrimitive_blockBytes q nullable rows h3 (callsOf_accepts hc hA hr')
      (by have := (callsOf_mem hc hr').2; omega)
  constructor
  · obtain ⟨r1, e1, j, h1, _⟩ := encodeAll_prefix p nullable m hm hm64 bufs [] (Encoder.new m nullable) [] rfl
      (PrimitiveBuffer.new_eq _) hE0 (by simp)
      (hd.symm.imp id fun hd => noUnderflow_of_dvd hm hd bufs [] hE0 (by simp))
      (by simp only [List.length_nil]; omega) (.inr (by simp only [List.length_nil]; omega)) (by simp [Encoder.new])
    rw [h1] at hrun
    simp only [Prod.mk.injEq, List.nil_append] at hrun
    obtain ⟨rfl, rfl, rfl⟩ := hrun
    exact fun b hb => hread b (List.mem_of_mem_take hb)
  · intro hok
    subst hok
    have hnu := noUnderflow_of_ok hm hm64 hd (by omega) hrun
    by_cases hr : 0 + totalIncrements nullable (stepsOf (perBlock α m) [] bufs) < 2 ^ 32
    · obtain ⟨e1, h1, h2, h3, h4⟩ := encodeAll_ok p nullable m hm hm64 bufs [] (Encoder.new m nullable) [] rfl
        (PrimitiveBuffer.new_eq _) hE0 (by simp) hnu
        (by simp only [List.length_nil]; omega) (.inr (by simp only [List.length_nil]; omega)) hr
      rw [h1] at hrun
      simp only [Prod.mk.injEq, List.nil_append, true_and] at hrun
      obtain ⟨rfl, rfl⟩ := hrun
      obtain ⟨g1, g2, g3⟩ := heldOf_spec hc bufs [] hE0 (by simp)
      have hlenr : e1.remaining.len = (valuesOf (heldOf (perBlock α m) [] bufs)).length := by rw [h3]; rfl
      have hle : (valuesOf (heldOf (perBlock α m) [] bufs)).length * Element.size α < m + Element.size α := by
        have := Nat.mul_le_mul_right (Element.size α) g2
        omega
      refine ⟨by rw [hlenr]; exact hle, ?_⟩
      intro e' blocks' hf
      simp only [List.length_nil, Nat.zero_add] at g3
      by_cases hr2 : e1.numRows + increments nullable 0 (flushOf (heldOf (perBlock α m) [] bufs)) < 2 ^ 32
      · obtain ⟨e2, f1, _⟩ := flush_ok p nullable _ e1 (blocksOf nullable 0 (stepsOf (perBlock α m) [] bufs))
          h3 g1 (by omega) hr2
        have hz : (Encoder.new (α := α) m nullable).numRows = 0 := rfl
        rw [hz, f1] at hf
        simp only [Prod.mk.injEq, true_and] at hf
        rw [← hf.2]
        by_cases h0 : (valuesOf (heldOf (perBlock α m) [] bufs)).length = 0
        · left; rw [flushOf, if_pos h0]; simp [blocksFrom, hz]
        · right
          rw [flushOf, if_neg h0]
          refine ⟨_, _, rfl, _, readPrimitive_blockBytes q nullable _ g1 ?_ (by omega), by omega, hle⟩
          apply callsOf_accepts hc hA
          rw [callsOf, List.flatten_append, flushOf, if_neg h0]
          simp
      · obtain ⟨e2, f1⟩ := flush_err p nullable _ e1 (blocksOf nullable 0 (stepsOf (perBlock α m) [] bufs))
          h3 g1 (by omega) (by
            rw [h4]; exact hr) hr2
        have hz : (Encoder.new (α := α) m nullable).numRows = 0 := rfl
        rw [hz, f1] at hf
        cases (Prod.mk.inj hf).1
    · obtain ⟨e1, j, h1, _⟩ := encodeAll_err p nullable m hm hm64 bufs [] (Encoder.new m nullable) [] rfl
        (PrimitiveBuffer.new_eq _) hE0 (by simp) hnu
        (by simp only [List.length_nil]; omega) (.inr (by simp only [List.length_nil]; omega))
        (by simp [Encoder.new]) hr
      rw [h1] at hrun
      cases (Prod.mk.inj hrun).1

/-- Six-byte blocks of `i32` in a debug build: two values in a block. -/
example : ∃ bs, buildAll false [List.replicate 5 (some (3 : Int32))] = .ok bs ∧
    (encodeAll .debug recorder bs (Encoder.new 6 false, [])).1 = .ok () ∧
    ((encodeAll .debug recorder bs (Encoder.new 6 false, [])).2.2.map fun b =>
      (readPrimitive (α := Int32) .debug false b.2).map fun rows => (valuesOf rows).length * Element.size Int32) =
        [some 8, some 8] :=
  ⟨_, buildAll_of_accepts (by simp [Accepts]), by decide +kernel, by decide +kernel⟩

/-- C29 is false of the code for other block sizes in release builds: with 6-byte blocks of `i32`, in a release build,
buffers of 1, 1 and 3 values leave 20 bytes held back, and buffers of 1, 1 and 10 values give a block
with 48 bytes of values. -/
theorem C29_primitive_block_sizes_violated :
    (∃ bufs bs, buildAll false bufs = .ok bs ∧
      (encodeAll .release recorder bs (Encoder.new (α := Int32) 6 false, [])).1 = .ok () ∧
      (encodeAll .release recorder bs (Encoder.new (α := Int32) 6 false, [])).2.1.remaining.len *
        Element.size Int32 = 20) ∧
    ∃ bufs bs, buildAll false bufs = .ok bs ∧
      (encodeAll .release recorder bs (Encoder.new (α := Int32) 6 false, [])).1 = .ok () ∧
      ((encodeAll .release recorder bs (Encoder.new (α := Int32) 6 false, [])).2.2.map fun b =>
        (readPrimitive (α := Int32) .release false b.2).map fun rows =>
          (valuesOf rows).length * Element.size Int32) = [some 48] := by
  constructor
  · refine ⟨[[some 1], [some 2], List.replicate 3 (some 3)], _, buildAll_of_accepts (by simp [Accepts]), ?_, ?_⟩
    · decide +kernel
    · decide +kernel
  · refine ⟨[[some 1], [some 2], List.replicate 10 (some 3)], _, buildAll_of_accepts (by simp [Accepts]), ?_, ?_⟩
    · decide +kernel
    · decide +kernel

end Meerkat
