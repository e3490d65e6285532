import Verif.Props.BinaryEnc
import Verif.Proofs.BinaryVolume

set_option autoImplicit false

/-! # Exactly which columns the binary encoder writes correctly (C32–C35)

For nullable columns and for others, in both build profiles. `Spec.Manageable m false` is what is left of the condition
when nulls are not looked at. -/

namespace Meerkat
open Spec BinaryEnc

/-! ## Counting the rows of the blocks -/

theorem countBits_append (as bs : List (List (Option Bytes) × List Bool)) :
    countBits (as ++ bs) = countBits as + countBits bs := by
  simp [countBits]

theorem withBits_full {nullable : Bool} {st : List Bool} (gs : List (List (Option Bytes)))
    (h : gs.flatten.length ≤ countBits (withBits nullable st gs)) :
    ∀ g ∈ gs, (writtenBits nullable st g).length = g.length := by
  induction gs with
  | nil => simp
  | cons g gs ih =>
    have h1 := writtenBits_length_le nullable st g
    have h2 := countBits_withBits_le nullable st gs
    have hc : countBits (withBits nullable st (g :: gs)) =
        (writtenBits nullable st g).length + countBits (withBits nullable st gs) := by
      simp [countBits, withBits]
    rw [hc, List.flatten_cons, List.length_append] at h
    intro g' hg'
    rcases List.mem_cons.mp hg' with rfl | hg'
    · omega
    · exact ih (by omega) g' hg'

theorem countBits_fillPairs_le (m : Nat) (nullable : Bool) (bufs : List (List (Option Bytes))) :
    ∀ (st : List Bool) (held : List (Option Bytes)),
    countBits (fillPairs m nullable st held bufs) ≤ (fillGroups m held bufs).flatten.length := by
  induction bufs with
  | nil =>
    intro st held
    simp only [fillPairs, fillGroups]
    split
    · simp [countBits]
    · simpa [countBits] using writtenBits_length_le nullable st held
  | cons b bufs ih =>
    intro st held
    rw [fillPairs, fillGroups, countBits_append, List.flatten_append, List.length_append]
    have := ih (nextStale st held (fillStep m held b).1) (fillStep m held b).2
    have := countBits_withBits_le nullable (if held = [] then [] else st) (fillStep m held b).1
    omega

/-- When the blocks count as many rows as their groups have, no null was lost. -/
theorem manageable_of_count (m : Nat) (nullable : Bool) (bufs : List (List (Option Bytes))) :
    ∀ (st : List Bool) (held : List (Option Bytes)), EndsWithValue held → Manageable m false st held bufs →
    (fillGroups m held bufs).flatten.length ≤ countBits (fillPairs m nullable st held bufs) →
    Manageable m nullable st held bufs := by
  cases nullable with
  | false => intro st held _ h _; exact h
  | true =>
    induction bufs with
    | nil =>
      intro st held hh hman hc
      refine ⟨hman.1, fun _ => ?_⟩
      simp only [fillPairs, fillGroups] at hc
      by_cases h0 : (valuesOf held).length = 0
      · rw [(ends_nil_iff hh).mp h0]
        simp [seenBits, validityOf]
      · rw [if_neg h0, if_neg h0] at hc
        have := writtenBits_length_le true st held
        simp only [countBits, List.flatten_cons, List.flatten_nil, List.append_nil, List.map_cons, List.map_nil,
          List.sum_cons, List.sum_nil, Nat.add_zero] at hc
        exact seen_of_length (by omega)
    | cons b bufs ih =>
      intro st held hh hman hc
      obtain ⟨h1, h2, _, h4⟩ := hman
      rw [fillPairs, fillGroups, countBits_append, List.flatten_append, List.length_append] at hc
      have k1 := countBits_fillPairs_le m true bufs (nextStale st held (fillStep m held b).1) (fillStep m held b).2
      have k2 := countBits_withBits_le true (if held = [] then [] else st) (fillStep m held b).1
      refine ⟨h1, h2, fun _ hne g hg => ?_, ih _ _ (fillStep_ends m hh).2 h4 (by omega)⟩
      rw [if_neg hne] at k2 hc
      exact seen_of_length (withBits_full _ (by omega) g hg)

theorem fillPairs_pos {m : Nat} {nullable : Bool} (bufs : List (List (Option Bytes))) :
    ∀ (st : List Bool) (held : List (Option Bytes)), byteCount held < m → Manageable m false st held bufs →
    ∀ g ∈ fillPairs m nullable st held bufs, g.2 ≠ [] := by
  have hne : ∀ (st : List Bool) (g : List (Option Bytes)), 1 ≤ (valuesOf g).length →
      writtenBits nullable st g ≠ [] := fun st g h => List.length_pos_iff.1 (writtenBits_pos nullable st h)
  induction bufs with
  | nil =>
    intro st held _ _ g hg
    simp only [fillPairs] at hg
    split at hg
    · cases hg
    · simp only [List.mem_singleton] at hg
      subst hg
      exact hne _ _ (by omega)
  | cons b bs ih =>
    intro st held hlt hman g hg
    obtain ⟨h1, _, _, h5⟩ := hman
    simp only [fillPairs, List.mem_append] at hg
    rcases hg with hg | hg
    · obtain ⟨g', hg', rfl⟩ := List.mem_map.mp hg
      exact hne _ _ (fillStep_values hlt g' hg').1
    · exact ih _ _ (fillStep_small hlt h1) h5 g hg

theorem blocksWith_ids (nullable : Bool) (n : Nat) (gs : List (List (Option Bytes) × List Bool)) :
    (blocksWith nullable n gs).map (·.1) = lastRowIds n (gs.map (·.2)) := by
  induction gs generalizing n with
  | nil => rfl
  | cons g gs ih => simp [blocksWith, lastRowIds, ih]

/-- Row ids determine the numbers of rows. -/
theorem lastRowIds_lengths {α β : Type} (as : List (List α)) : ∀ (bs : List (List β)) (n : Nat),
    (∀ a ∈ as, a ≠ []) → (∀ b ∈ bs, b ≠ []) → lastRowIds n as = lastRowIds n bs →
    as.map List.length = bs.map List.length := by
  induction as with
  | nil =>
    intro bs n _ _ h
    cases bs with
    | nil => rfl
    | cons b bs => simp [lastRowIds] at h
  | cons a as ih =>
    intro bs n ha hb h
    cases bs with
    | nil => simp [lastRowIds] at h
    | cons b bs =>
      simp only [lastRowIds, List.cons.injEq] at h
      have h1 := List.length_pos_iff.2 (ha a (by simp))
      have h2 := List.length_pos_iff.2 (hb b (by simp))
      have hl : a.length = b.length := by omega
      rw [List.map_cons, List.map_cons, hl,
        ih bs (n + a.length) (fun x hx => ha x (by simp [hx])) (fun x hx => hb x (by simp [hx]))
          (by rw [h.2, hl])]

theorem flatten_length_le (bufs : List (List (Option Bytes))) :
    (bufs.flatMap dropTrailingNulls).length ≤ bufs.flatten.length := by
  induction bufs with
  | nil => simp
  | cons b bs ih =>
    have := dropTrailingNulls_length_le b
    rw [List.flatMap_cons, List.flatten_cons, List.length_append, List.length_append]
    omega

/-- A column of as many rows as are left without trailing nulls has none. -/
theorem ends_of_length (bufs : List (List (Option Bytes)))
    (h : bufs.flatten.length ≤ (bufs.flatMap dropTrailingNulls).length) :
    ∀ b ∈ bufs, b = [] ∨ ∃ l v, b = l ++ [some v] := by
  induction bufs with
  | nil => simp
  | cons b bs ih =>
    have h1 := dropTrailingNulls_length_le b
    have h2 := flatten_length_le bs
    rw [List.flatMap_cons, List.flatten_cons, List.length_append, List.length_append] at h
    intro b' hb'
    rcases List.mem_cons.mp hb' with rfl | hb'
    · obtain ⟨q, hq, hqe, _⟩ := dropTrailingNulls_spec b'
      have hl := congrArg List.length hq
      rw [List.length_append] at hl
      have hq0 : q = [] := List.eq_nil_of_length_eq_zero (by omega)
      rw [hq0, List.append_nil] at hq
      rw [← hq] at hqe
      rcases hqe with h | h
      · exact .inl h
      · obtain ⟨v, hv⟩ := h
        obtain ⟨l, hl⟩ := List.getLast?_eq_some_iff.mp hv
        exact .inr ⟨l, v, hl⟩
    · exact ih (by omega) b' hb'

/-! ## C32: the data bytes -/

/-- What a run writes when nulls are not looked at. -/
theorem binary_written (p : Profile) {nullable : Bool} {m : Nat} (hm : 0 < m) {bufs : List (List (Option Bytes))} {bs}
    (hb : buildBinary nullable bufs = .ok bs) (hlen : bufs.flatten.length < 2 ^ 32)
    (hm32 : m ≤ U32_MAX)
    (hman : Manageable m false [] [] bufs) :
    ∃ e, encodeColumn p recorder bs (Encoder.new m nullable, []) =
      (.ok (), (e, blocksWith nullable 0 (fillPairs m nullable [] [] bufs))) := by
  obtain ⟨hA, hD, rfl⟩ := buildBinary_ok hb
  have hz : (Encoder.new m nullable).numRows = 0 := rfl
  obtain ⟨e, h⟩ := encodeColumn_written p nullable m hm hm32 bufs [] [] (Encoder.new m nullable) [] rfl
    (by
      have := holds_ofRows nullable []
      rw [← BinaryBuffer.new_eq] at this
      exact this)
    (.inl rfl) (by simpa [byteCount] using hm) (.inr (by simp)) hA hD hman
    (by rw [hz]; simpa using hlen)
  exact ⟨e, by rw [h, hz, List.nil_append]⟩

/-- A run that returns normally on any other history has written more bytes than the column has. -/
theorem binary_over (p q : Profile) {nullable : Bool} {m : Nat} (hm : 0 < m) {bufs : List (List (Option Bytes))} {bs}
    (hb : buildBinary nullable bufs = .ok bs) (hlen : bufs.flatten.length < 2 ^ 32)
    (hm32 : m ≤ U32_MAX)
    (hman : ¬ Manageable m false [] [] bufs) {e : Encoder} {blocks : List (Nat × Bytes)}
    (hrun : encodeColumn p recorder bs (Encoder.new m nullable, []) = (.ok (), (e, blocks))) :
    byteCount bufs.flatten < vol q blocks := by
  obtain ⟨hA, hD, rfl⟩ := buildBinary_ok hb
  have hz : (Encoder.new m nullable).numRows = 0 := rfl
  obtain ⟨new, h1, h2⟩ := encodeColumn_over p q nullable m hm hm32 bufs [] [] (Encoder.new m nullable) e [] blocks rfl
    (by
      have := holds_ofRows nullable []
      rw [← BinaryBuffer.new_eq] at this
      exact this)
    (.inl rfl) (by simpa [byteCount] using hm) (.inr (by simp)) hA hD hman
    (by rw [hz]; simpa using hlen) hrun
  rw [h1, List.nil_append]
  have : byteCount [] = 0 := rfl
  omega

/-- C32 and C33 exactly, as far as the data bytes go: the run completes and the data bytes of its blocks are those of
the byte strings of the column, if and only if no buffer leaves a block or more after completing one and no block
has more than 128 items. When the run completes otherwise, there are more data bytes than the column has. -/
theorem C32_binary_data_exact (p q : Profile) (nullable : Bool) (m : Nat) (hm : 0 < m)
    (bufs : List (List (Option Bytes))) (bs) (hb : buildBinary nullable bufs = .ok bs)
    (hlen : bufs.flatten.length < 2 ^ 32) (hm32 : m ≤ U32_MAX) :
    ((∃ (e : Encoder) (blocks : List (Nat × Bytes)) (datas : List Bytes),
      encodeColumn p recorder bs (Encoder.new m nullable, []) = (.ok (), (e, blocks)) ∧
      (blocks.map (·.2)).mapM (blockData q) = some datas ∧
      datas.flatten = (valuesOf bufs.flatten).flatten) ↔ Manageable m false [] [] bufs) ∧
    (¬ Manageable m false [] [] bufs → ∀ (e : Encoder) (blocks : List (Nat × Bytes)) (datas : List Bytes),
      encodeColumn p recorder bs (Encoder.new m nullable, []) = (.ok (), (e, blocks)) →
      (blocks.map (·.2)).mapM (blockData q) = some datas →
      (valuesOf bufs.flatten).flatten.length < datas.flatten.length) := by
  have hover : ¬ Manageable m false [] [] bufs → ∀ (e : Encoder) (blocks : List (Nat × Bytes)) (datas : List Bytes),
      encodeColumn p recorder bs (Encoder.new m nullable, []) = (.ok (), (e, blocks)) →
      (blocks.map (·.2)).mapM (blockData q) = some datas →
      (valuesOf bufs.flatten).flatten.length < datas.flatten.length := by
    intro hman e blocks datas hrun hd
    have := binary_over p q hm hb hlen hm32 hman hrun
    rw [vol_of_datas hd] at this
    exact this
  refine ⟨⟨?_, fun hman => ?_⟩, hover⟩
  · rintro ⟨e, blocks, datas, hrun, hd, heq⟩
    apply Classical.byContradiction
    intro hman
    have := hover hman e blocks datas hrun hd
    rw [heq] at this
    omega
  · obtain ⟨e, h⟩ := binary_written p (nullable := nullable) hm hb hlen hm32 hman
    have hsize : ∀ g ∈ fillPairs m nullable [] [] bufs, byteCount g.1 < 2 ^ 32 := by
      intro g hg
      have hmem : g.1 ∈ fillGroups m [] bufs := by
        rw [← fillPairs_groups m nullable bufs [] []]; exact List.mem_map_of_mem hg
      have := fillGroups_bytes hm32 bufs [] [] (by simpa [byteCount, valuesOf] using hm) (buildBinary_ok hb).2.1 hman g.1 hmem
      have hU : U32_MAX = 2 ^ 32 - 1 := rfl
      omega
    refine ⟨e, _, (fillPairs m nullable [] [] bufs).map fun g => (valuesOf g.1).flatten, h, ?_, ?_⟩
    · rw [blocksWith_data, List.mapM_map]
      exact mapM_some_of_forall fun g hgm => blockData_blockWith q nullable g.1 g.2 (hsize g hgm)
    · have hv := binary_values (bufs := bufs) m
      rw [← hv, ← fillPairs_groups m nullable bufs [] []]
      generalize fillPairs m nullable [] [] bufs = gs
      induction gs with
      | nil => rfl
      | cons g gs ih => rw [List.map_cons, List.map_cons, List.flatten_cons, List.flatten_cons, valuesOf_append,
          List.flatten_append, ih]

/-- Both sides occur, also with nulls. -/
example : Manageable 2 false [] [] [[some [1], none, some [2], none], [none, some [3]]] ∧
    ¬ Manageable 2 false [] [] [[some [1, 1], none, some [2], some [3]]] := by
  decide

/-! ## C34 and C35: row ids and nulls -/

theorem mapM_zip_data {q : Profile} {groups : List (List (Option Bytes))} : ∀ {blocks : List (Nat × Bytes)},
    blocks.length = groups.length →
    (∀ x ∈ groups.zip blocks, blockData q x.2.2 = some (valuesOf x.1).flatten) →
    (blocks.map (·.2)).mapM (blockData q) = some (groups.map fun g => (valuesOf g).flatten) := by
  induction groups with
  | nil => intro blocks hl _; rw [List.eq_nil_of_length_eq_zero hl]; rfl
  | cons g gs ih =>
    intro blocks hl h
    cases blocks with
    | nil => simp at hl
    | cons b blocks =>
      rw [List.zip_cons_cons] at h
      rw [List.map_cons, List.mapM_cons, h (g, b) (by simp),
        ih (by simpa using hl) (fun x hx => h x (List.mem_cons_of_mem _ hx))]
      rfl

/-- Right data bytes and right row ids leave no other possibility. -/
theorem binary_exact (p q : Profile) {nullable : Bool} {m : Nat} (hm : 0 < m)
    {bufs : List (List (Option Bytes))} {bs} (hb : buildBinary nullable bufs = .ok bs)
    (hlen : bufs.flatten.length < 2 ^ 32) (hm32 : m ≤ U32_MAX)
    {e : Encoder} {blocks : List (Nat × Bytes)} {groups : List (List (Option Bytes))}
    (hrun : encodeColumn p recorder bs (Encoder.new m nullable, []) = (.ok (), (e, blocks)))
    (hflat : groups.flatten = bufs.flatten) (hne : ∀ g ∈ groups, g ≠ [])
    (hdata : (blocks.map (·.2)).mapM (blockData q) = some (groups.map fun g => (valuesOf g).flatten))
    (hids : blocks.map (·.1) = lastRowIds 0 groups) :
    Manageable m nullable [] [] bufs ∧ (∀ b ∈ bufs, b = [] ∨ ∃ l v, b = l ++ [some v]) ∧
      groups = fillGroups m [] bufs := by
  have hman : Manageable m false [] [] bufs := by
    apply Classical.byContradiction
    intro hman
    have h1 := binary_over p q hm hb hlen hm32 hman hrun
    rw [vol_of_datas hdata] at h1
    have h2 : ∀ gs : List (List (Option Bytes)),
        (gs.map fun g => (valuesOf g).flatten).flatten = (valuesOf gs.flatten).flatten := by
      intro gs
      induction gs with
      | nil => rfl
      | cons g gs ih => rw [List.map_cons, List.flatten_cons, List.flatten_cons, valuesOf_append,
          List.flatten_append, ih]
    rw [h2, hflat, byteCount] at h1
    omega
  obtain ⟨e', h⟩ := binary_written p (nullable := nullable) hm hb hlen hm32 hman
  rw [h] at hrun
  simp only [Prod.mk.injEq, true_and] at hrun
  obtain ⟨_, rfl⟩ := hrun
  rw [blocksWith_ids] at hids
  have hpos := fillPairs_pos (nullable := nullable) bufs [] [] (by simpa [byteCount, valuesOf] using hm) hman
  have hlens := lastRowIds_lengths _ groups 0 (by
    intro x hx
    obtain ⟨g, hg, rfl⟩ := List.mem_map.mp hx
    exact hpos g hg) hne hids
  have hc : countBits (fillPairs m nullable [] [] bufs) = bufs.flatten.length := by
    rw [← hflat, List.length_flatten, ← hlens, countBits, List.map_map]
    rfl
  have hle := countBits_fillPairs_le m nullable bufs [] []
  have hrows := fillGroups_rows m bufs [] (.inl rfl)
  rw [List.nil_append] at hrows
  have hdl := flatten_length_le bufs
  have hends := ends_of_length bufs (by rw [hrows] at hle; omega)
  have hman' := manageable_of_count m nullable bufs [] [] (.inl rfl) hman (by rw [hrows] at hle ⊢; omega)
  refine ⟨hman', hends, ?_⟩
  have hbits := fillPairs_bits (nullable := nullable) bufs [] [] (.inl rfl) hman'
  rw [List.eq_iff_flatten_eq]
  refine ⟨by rw [hflat, hrows, flatMap_ends hends], ?_⟩
  rw [← hlens, ← fillPairs_groups m nullable bufs [] [], List.map_map, List.map_map]
  apply List.map_congr_left
  intro g hg
  simp only [Function.comp, hbits g hg, validityOf_length]

/-- C34 exactly: the run completes, its blocks hold the data bytes of successive groups of rows which make up the
column, and the row id of each block is the index of the last row of its group, if and only if the history is
manageable and no buffer ends with a null. -/
theorem C34_binary_row_ids_iff (p q : Profile) (nullable : Bool) (m : Nat) (hm : 0 < m)
    (bufs : List (List (Option Bytes))) (bs) (hb : buildBinary nullable bufs = .ok bs)
    (hlen : bufs.flatten.length < 2 ^ 32 - 7) (hm32 : m ≤ U32_MAX) :
    (∃ (e : Encoder) (blocks : List (Nat × Bytes)) (groups : List (List (Option Bytes))),
      encodeColumn p recorder bs (Encoder.new m nullable, []) = (.ok (), (e, blocks)) ∧
      groups.flatten = bufs.flatten ∧ (∀ g ∈ groups, g ≠ []) ∧
      (blocks.map (·.2)).mapM (blockData q) = some (groups.map fun g => (valuesOf g).flatten) ∧
      blocks.map (·.1) = lastRowIds 0 groups) ↔
    Manageable m nullable [] [] bufs ∧ ∀ b ∈ bufs, b = [] ∨ ∃ l v, b = l ++ [some v] := by
  constructor
  · rintro ⟨e, blocks, groups, hrun, hflat, hne, hdata, hids⟩
    obtain ⟨h1, h2, _⟩ := binary_exact p q hm hb (by omega) hm32 hrun hflat hne hdata hids
    exact ⟨h1, h2⟩
  · rintro ⟨hman, hend⟩
    obtain ⟨e, h⟩ := binary_run p hm hb (by omega) hm32 hman
    have hg := group_facts hb hlen hm hm32 hman
    refine ⟨e, _, fillGroups m [] bufs, h, ?_, ?_, ?_, blocksOf_ids ..⟩
    · rw [fillGroups_rows m bufs [] (.inl rfl), List.nil_append, flatMap_ends hend]
    · intro g hgm hnil
      have hp := fillPairs_pos (nullable := nullable) bufs [] [] (by simpa [byteCount, valuesOf] using hm)
        (manageable_orderly bufs [] hman)
      rw [← fillPairs_groups m nullable bufs [] []] at hgm
      obtain ⟨x, hx, rfl⟩ := List.mem_map.mp hgm
      apply hp x hx
      rw [fillPairs_bits bufs [] [] (.inl rfl) hman x hx, hnil]
      rfl
    · rw [blocksOf_data, List.mapM_map]
      exact mapM_some_of_forall fun g hgm => blockData_blockBytes q nullable g (hg g hgm).2.2.2.1

/-- C35 exactly: the run completes and its blocks, with their row ids, describe groups of rows that make up the column,
items, rows of the items and all, if and only if the history is manageable and no buffer ends with a null. -/
theorem C35_binary_nulls_exact (p q : Profile) (nullable : Bool) (m : Nat) (hm : 0 < m)
    (bufs : List (List (Option Bytes))) (bs) (hb : buildBinary nullable bufs = .ok bs)
    (hlen : bufs.flatten.length < 2 ^ 32 - 7) (hm32 : m ≤ U32_MAX) :
    (∃ (e : Encoder) (blocks : List (Nat × Bytes)) (groups : List (List (Option Bytes))),
      encodeColumn p recorder bs (Encoder.new m nullable, []) = (.ok (), (e, blocks)) ∧
      groups.flatten = bufs.flatten ∧ (∀ g ∈ groups, g ≠ []) ∧ Describes q nullable groups blocks ∧
      blocks.map (·.1) = lastRowIds 0 groups) ↔
    Manageable m nullable [] [] bufs ∧ ∀ b ∈ bufs, b = [] ∨ ∃ l v, b = l ++ [some v] := by
  constructor
  · rintro ⟨e, blocks, groups, hrun, hflat, hne, hD, hids⟩
    exact (C34_binary_row_ids_iff p q nullable m hm bufs bs hb hlen hm32).mp
      ⟨e, blocks, groups, hrun, hflat, hne, mapM_zip_data hD.1 (fun x hx => (hD.2 x hx).1), hids⟩
  · intro hgood
    obtain ⟨e, blocks, groups, hrun, hflat, hne, hdata, hids⟩ :=
      (C34_binary_row_ids_iff p q nullable m hm bufs bs hb hlen hm32).mpr hgood
    obtain ⟨_, _, rfl⟩ := binary_exact p q hm hb (by omega) hm32 hrun hflat hne hdata hids
    obtain ⟨e', h⟩ := binary_run p hm hb (by omega) hm32 hgood.1
    rw [h] at hrun
    simp only [Prod.mk.injEq, true_and] at hrun
    obtain ⟨_, rfl⟩ := hrun
    have hg := group_facts hb hlen hm hm32 hgood.1
    exact ⟨e', _, _, h, hflat, hne, describes_blocksOf q nullable _ 0 (fun g hgm => (hg g hgm).2.2), hids⟩

/-- Both sides occur: a null in a leftover buffer never used before, a null on a bit not set there before, and a null
on a bit that was. -/
example : Manageable 2 true [] [] [[some [1]], [none, some [2]]] ∧
    Manageable 2 true [] [] [[some [1]], [none, some [2]], [some [3]], [none, some [4]]] ∧
    ¬ Manageable 2 true [] [] [[some [1]], [some [2]], [none, some [3]]] := by
  decide

/-! ## The whole round trip -/

theorem cut_items {ls : List Nat} {bs : Bytes} {items : List Bytes} (h : cut ls bs = some items) :
    items.map List.length = ls ∧ items.flatten = bs := by
  induction ls generalizing bs items with
  | nil =>
    rw [cut] at h
    split at h
    · rename_i hb; subst hb; cases h; exact ⟨rfl, rfl⟩
    · cases h
  | cons l ls ih =>
    rw [cut] at h
    split at h
    · rename_i hle
      cases hc : cut ls (bs.drop l) with
      | none => rw [hc] at h; cases h
      | some r =>
        rw [hc] at h
        cases h
        obtain ⟨h1, h2⟩ := ih hc
        refine ⟨by rw [List.map_cons, h1, List.length_take, Nat.min_eq_left hle], ?_⟩
        rw [List.flatten_cons, h2, List.take_append_drop]
    · cases h

theorem placeRows_values {α : Type} (ps : List Nat) : ∀ (at_ : Nat) (vs : List α) (rows : List (Option α)),
    placeRows at_ ps vs = some rows → valuesOf rows = vs := by
  induction ps with
  | nil =>
    intro at_ vs rows h
    cases vs with
    | nil => cases h; rfl
    | cons v vs => cases h
  | cons p ps ih =>
    intro at_ vs rows h
    cases vs with
    | nil => cases h
    | cons v vs =>
      rw [placeRows] at h
      split at h
      · cases hr : placeRows (p + 1) ps vs with
        | none => rw [hr] at h; cases h
        | some r =>
          rw [hr] at h
          cases h
          rw [valuesOf_append]
          have : valuesOf (List.replicate (p - at_) (none : Option α)) = [] := by simp [valuesOf]
          rw [this, List.nil_append]
          simp only [valuesOf, List.filterMap_cons, id]
          have := ih _ _ _ hr
          rw [valuesOf] at this
          rw [this]
      · cases h

/-- What a block that is read holds. -/
theorem readBinary_spec {q : Profile} {nullable : Bool} {n : Nat} {block : Bytes} {rows : List (Option Bytes)}
    (h : readBinary q nullable n block = some rows) :
    blockData q block = some (valuesOf rows).flatten ∧ (valuesOf rows).length = n ∧
      ∃ data b packed validity, splitBlock q n block = some (data, b, packed, validity) ∧
        cut (unpack b n packed) data = some (valuesOf rows) := by
  rw [readBinary] at h
  cases hs : splitBlock q n block with
  | none => rw [hs] at h; cases h
  | some x =>
    obtain ⟨data, b, packed, validity⟩ := x
    rw [hs] at h
    simp only at h
    cases hc : cut (unpack b n packed) data with
    | none => rw [hc] at h; cases h
    | some items =>
      rw [hc] at h
      simp only at h
      have hv : valuesOf rows = items := by
        cases nullable with
        | true =>
          simp only [if_true] at h
          cases hp : readPositions q n block with
          | none => rw [hp] at h; cases h
          | some ps => rw [hp] at h; exact placeRows_values _ _ _ _ h
        | false =>
          simp only [Bool.false_eq_true, if_false] at h
          split at h
          · cases h
            simp [valuesOf, List.filterMap_map, Function.comp]
          · cases h
      obtain ⟨h1, h2⟩ := cut_items hc
      refine ⟨?_, ?_, data, b, packed, validity, rfl, by rw [hv]; exact hc⟩
      · rw [hv, h2]
        rw [splitBlock] at hs
        rw [blockData]
        cases hd : Varint.decodeVarint q block with
        | error x => rw [hd] at hs; cases hs
        | ok o =>
          cases o with
          | none => rw [hd] at hs; cases hs
          | some y =>
            obtain ⟨size, k⟩ := y
            rw [hd] at hs
            simp only at hs ⊢
            cases hbd : block.drop (k + size) with
            | nil => rw [hbd] at hs; cases hs
            | cons c tail =>
              rw [hbd] at hs
              simp only [Option.some.injEq, Prod.mk.injEq] at hs
              have hl := congrArg List.length hbd
              rw [List.length_drop, List.length_cons] at hl
              rw [if_pos (by omega), hs.1]
      · rw [hv, ← List.length_map (f := List.length), h1, unpack, List.length_map, List.length_range]

/-- A block from which its rows are read has lost no bit of its lengths. -/
theorem readable_of_read {q : Profile} {nullable : Bool} {rows : List (Option Bytes)} (hsize : byteCount rows < 2 ^ 32)
    (h128 : (valuesOf rows).length ≤ 128)
    (h : readBinary q nullable (valuesOf rows).length (blockBytes nullable rows) = some rows) :
    ReadableLengths ((valuesOf rows).map List.length) := by
  obtain ⟨_, _, data, b, packed, validity, hs, hc⟩ := readBinary_spec h
  rw [splitBlock_blockBytes q nullable rows hsize h128] at hs
  simp only [Option.some.injEq, Prod.mk.injEq] at hs
  obtain ⟨rfl, rfl, rfl, _⟩ := hs
  have h128' : ((valuesOf rows).map List.length).length ≤ 128 := by simpa using h128
  have hsum : (unpack (Offsets.width ((valuesOf rows).map List.length)) (valuesOf rows).length
      (BinaryEnc.kept ((valuesOf rows).map List.length))).sum = (valuesOf rows).flatten.length := cut_sum hc
  have hu := unpack_kept ((valuesOf rows).map List.length) (valuesOf rows).length
    (BinaryEnc.kept ((valuesOf rows).map List.length)).length
  rw [List.take_length] at hu
  rw [hu, List.length_flatten] at hsum
  refine ⟨_, (Offsets.width_eq_iff _ _).mp rfl, fun i c hi hbit => ?_⟩
  apply Classical.byContradiction
  intro hn
  have hlost := readLen_lost _ h128' (BinaryEnc.kept ((valuesOf rows).map List.length)).length i c hbit hi (by omega)
  have heq := sum_range_eq ((valuesOf rows).map List.length) (valuesOf rows).length _
    (readLen_le _ h128' (BinaryEnc.kept ((valuesOf rows).map List.length)).length) (by omega) i
  rw [if_pos (by simpa using hi)] at heq
  omega

/-- C31, exactly: the block of the rows `mid` of a buffer `pre ++ mid ++ post` is written and the rows are read back from it
if and only if they have at most 128 items and the lengths lose no bit in the bytes the offset encoder drops. -/
theorem C31_binary_block_exact (p q : Profile) (nullable : Bool) (pre mid post : List (Option Bytes)) (b)
    (hb : (BinaryBuffer.new nullable).pushAll (pre ++ mid ++ post) = .ok b) (be : Rle.Encoder)
    (hmid : ∃ l v, mid = l ++ [some v]) (hlen : mid.length < 2 ^ 32 - 7) (hpre : pre.length < 2 ^ 62) :
    (∃ r, encodeBinaryBuffer p b
        { startPos := (valuesOf pre).length, endPos := (valuesOf (pre ++ mid)).length,
          startOffset := (valuesOf pre).flatten.length, endOffset := (valuesOf (pre ++ mid)).flatten.length,
          size := (valuesOf mid).flatten.length, len := (valuesOf mid).length } pre.length be = .ok r ∧
      readBinary q nullable (valuesOf mid).length r.data = some mid) ↔
    (valuesOf mid).length ≤ 128 ∧ ReadableLengths ((valuesOf mid).map List.length) := by
  constructor
  · rintro ⟨r, h1, h2⟩
    obtain ⟨hA, hd, rfl⟩ := BinaryBuffer.new_pushAll_ok hb
    have hU : U32_MAX = 2 ^ 32 - 1 := rfl
    have hsz : byteCount mid ≤ U32_MAX := by
      have := byteCount_append (pre ++ mid) post
      rw [byteCount_append pre mid] at this
      unfold byteCount at this ⊢
      unfold BinaryBuffer.dataLen at hd
      omega
    have hv1 := valuesOf_length_le pre
    have hv2 := valuesOf_length_le mid
    obtain ⟨content, deltas, validity, _, g2, _, g4, _⟩ := encodeBinaryBuffer_layout p _ _ _ be
      (by show (valuesOf mid).flatten.length < 2 ^ 64; unfold byteCount at hsz; omega)
      (by show (valuesOf (pre ++ mid)).length < 2 ^ 63; rw [valuesOf_append, List.length_append]; omega) h1
    have h128 : (valuesOf mid).length ≤ 128 := by
      have := itemLens_length _ _ _ _ _ g2
      simp only [valuesOf_append, List.length_append] at this
      omega
    refine ⟨h128, ?_⟩
    have hend : EndsWithValue mid := by
      obtain ⟨l, v, rfl⟩ := hmid; simp [EndsWithValue]
    have h1' : 1 ≤ (valuesOf mid).length := by
      obtain ⟨l, v, rfl⟩ := hmid; simp [valuesOf]
    have hacc : Accepts nullable mid := accepts_sub hA (fun x hx => by simp [hx])
    have hsrc := holds_ofRows nullable (pre ++ mid ++ post)
    obtain ⟨be', ds, h⟩ := encodeBinaryBuffer_ok p hsrc pre.length (hsrc.shows_mid hacc hend) be
      (by rw [validityOf_length]; omega) (by omega) h1' h128
    have hr := Except.ok.inj (h1.symm.trans h)
    rw [hr] at h2
    exact readable_of_read (by omega) h128 h2
  · rintro ⟨h1, h2⟩
    exact C31_binary_block_partial p q nullable pre mid post b hb be hmid h1 hlen (.inl h2)

/-- Two items of which the second loses the bit of its length: no block that is read back. -/
example (p q : Profile) (be : Rle.Encoder) : ∃ b, (BinaryBuffer.new false).pushAll [some [1, 2], some [3]] = .ok b ∧
    ¬ ∃ r, encodeBinaryBuffer p b ⟨0, 2, 0, 3, 3, 2⟩ 0 be = .ok r ∧
      readBinary q false 2 r.data = some [some [1, 2], some [3]] := by
  have hb := BinaryBuffer.new_pushAll false [some [1, 2], some [3]] (.inr (by decide)) (by decide)
  refine ⟨_, hb, fun h => ?_⟩
  obtain ⟨_, b, hw, h3⟩ := (C31_binary_block_exact p q false [] [some [1, 2], some [3]] [] _ hb be ⟨[some [1, 2]], _, rfl⟩
    (by decide) (by decide)).1 h
  have hb2 : b = 2 := by
    rw [show valuesOf [some [1, 2], some [(3 : UInt8)]] = [[1, 2], [3]] from rfl] at hw
    rw [← (Offsets.width_eq_iff _ _).mpr hw]; decide
  subst hb2
  exact absurd (h3 1 0 (by decide) (by decide)) (by decide +kernel)

theorem readBlocks_zip {q : Profile} {nullable : Bool} {groups : List (List (Option Bytes))} :
    ∀ {counts : List Nat} {blocks : List Bytes}, counts.length = blocks.length →
    readBlocks q nullable (counts.zip blocks) = some groups →
    blocks.length = groups.length ∧ (blocks.mapM (blockData q) = some (groups.map fun g => (valuesOf g).flatten)) ∧
      ∀ x ∈ groups.zip blocks, readBinary q nullable (valuesOf x.1).length x.2 = some x.1 := by
  induction groups with
  | nil =>
    intro counts blocks hl h
    cases blocks with
    | nil => exact ⟨rfl, rfl, by simp⟩
    | cons b blocks =>
      cases counts with
      | nil => simp at hl
      | cons c counts =>
        rw [readBlocks, List.zip_cons_cons, List.mapM_cons] at h
        simp only [Option.bind_eq_bind, Option.pure_def] at h
        cases h1 : readBinary q nullable c b with
        | none => rw [h1] at h; cases h
        | some r =>
          rw [h1] at h
          cases h2 : (counts.zip blocks).mapM fun b => readBinary q nullable b.1 b.2 with
          | none => rw [h2] at h; cases h
          | some rs => rw [h2] at h; cases h
  | cons g gs ih =>
    intro counts blocks hl h
    cases blocks with
    | nil =>
      cases counts with
      | nil => cases h
      | cons c counts => simp at hl
    | cons b blocks =>
      cases counts with
      | nil => simp at hl
      | cons c counts =>
        rw [readBlocks, List.zip_cons_cons, List.mapM_cons] at h
        simp only [Option.bind_eq_bind, Option.pure_def] at h
        cases h1 : readBinary q nullable c b with
        | none => rw [h1] at h; cases h
        | some r =>
          rw [h1] at h
          cases h2 : (counts.zip blocks).mapM fun b => readBinary q nullable b.1 b.2 with
          | none => rw [h2] at h; cases h
          | some rs =>
            rw [h2] at h
            simp only [Option.bind_some, Option.some.injEq, List.cons.injEq] at h
            obtain ⟨rfl, rfl⟩ := h
            obtain ⟨k1, k2, k3⟩ := ih (by simpa using hl) h2
            obtain ⟨s1, s2, _⟩ := readBinary_spec h1
            refine ⟨by simp [k1], ?_, ?_⟩
            · rw [List.mapM_cons, s1, k2]; rfl
            · intro x hx
              rw [List.zip_cons_cons] at hx
              rcases List.mem_cons.mp hx with rfl | hx
              · rw [s2]; exact h1
              · exact k3 x hx

/-- C31 to C35 together, exactly: the run completes and its blocks, with some numbers of items, are read back to
non-empty groups of rows that make up the column and whose last rows are given by the row ids, if and only if the
history is manageable, no buffer ends with a null, and no block loses bits of its lengths. -/
theorem C35_binary_roundtrip_exact (p q : Profile) (nullable : Bool) (m : Nat) (hm : 0 < m)
    (bufs : List (List (Option Bytes))) (bs) (hb : buildBinary nullable bufs = .ok bs)
    (hlen : bufs.flatten.length < 2 ^ 32 - 7) (hm32 : m ≤ U32_MAX) :
    (∃ (e : Encoder) (blocks : List (Nat × Bytes)) (counts : List Nat) (groups : List (List (Option Bytes))),
      encodeColumn p recorder bs (Encoder.new m nullable, []) = (.ok (), (e, blocks)) ∧
      counts.length = blocks.length ∧ readBlocks q nullable (counts.zip (blocks.map (·.2))) = some groups ∧
      groups.flatten = bufs.flatten ∧ (∀ g ∈ groups, g ≠ []) ∧ blocks.map (·.1) = lastRowIds 0 groups) ↔
    Manageable m nullable [] [] bufs ∧ (∀ b ∈ bufs, b = [] ∨ ∃ l v, b = l ++ [some v]) ∧
      ∀ g ∈ fillGroups m [] bufs, ReadableLengths ((valuesOf g).map List.length) := by
  constructor
  · rintro ⟨e, blocks, counts, groups, hrun, hcl, hread, hflat, hne, hids⟩
    obtain ⟨k1, k2, k3⟩ := readBlocks_zip (by simpa using hcl) hread
    obtain ⟨hman, hends, rfl⟩ := binary_exact p q hm hb (by omega) hm32 hrun hflat hne k2 hids
    refine ⟨hman, hends, fun g hg => ?_⟩
    obtain ⟨e', h⟩ := binary_run p hm hb (by omega) hm32 hman
    rw [h] at hrun
    simp only [Prod.mk.injEq, true_and] at hrun
    obtain ⟨_, rfl⟩ := hrun
    obtain ⟨_, _, _, h4, h5⟩ := group_facts hb hlen hm hm32 hman g hg
    apply readable_of_read (q := q) (nullable := nullable) h4 h5
    apply k3 (g, blockBytes nullable g)
    rw [blocksOf_data]
    have := List.zip_map' (f := id) (g := blockBytes nullable) (l := fillGroups m [] bufs)
    rw [List.map_id] at this
    rw [this]
    exact List.mem_map.mpr ⟨g, hg, rfl⟩
  · rintro ⟨hman, hends, hr⟩
    obtain ⟨e, blocks, groups, hrun, hflat, hne, hdata, hids⟩ :=
      (C34_binary_row_ids_iff p q nullable m hm bufs bs hb hlen hm32).mpr ⟨hman, hends⟩
    obtain ⟨_, _, rfl⟩ := binary_exact p q hm hb (by omega) hm32 hrun hflat hne hdata hids
    obtain ⟨e', h⟩ := binary_run p hm hb (by omega) hm32 hman
    rw [h] at hrun
    simp only [Prod.mk.injEq, true_and] at hrun
    obtain ⟨_, rfl⟩ := hrun
    have hg := group_facts hb hlen hm hm32 hman
    refine ⟨e', _, (fillGroups m [] bufs).map fun g => (valuesOf g).length, _, h, ?_, ?_, hflat, hne, hids⟩
    · have := congrArg List.length (blocksOf_data nullable 0 (fillGroups m [] bufs))
      rw [List.length_map, List.length_map] at this
      rw [List.length_map, this]
    · rw [blocksOf_data, readBlocks, List.zip_map', List.mapM_map]
      have := mapM_some_of_forall (l := fillGroups m [] bufs) (g := id)
        (f := fun g => readBinary q nullable (valuesOf g).length (blockBytes nullable g)) fun g hgm =>
          readBinary_blockBytes q nullable g (hg g hgm).1 (hg g hgm).2.1 (hg g hgm).2.2.1 (hg g hgm).2.2.2.1
            (hg g hgm).2.2.2.2 (hr g hgm)
      rw [List.map_id] at this
      exact this

/-- A column with nulls that is read back, so that both sides hold. -/
example (p q : Profile) : Manageable 2 true [] [] [[none, some [7]], [], [none, none, some []]] ∧
    ∀ g ∈ fillGroups 2 [] [[none, some [7]], [], [none, none, some []]],
      ReadableLengths ((valuesOf g).map List.length) := by
  have hb := buildBinary_of_accepts (nullable := true) (bufs := [[none, some [7]], [], [none, none, some []]])
    (by simp [Accepts]) (by simp [byteCount, valuesOf, U32_MAX])
  obtain ⟨e, h⟩ := of_outcome (r := encodeColumn p recorder ([[none, some [7]], [], [none, none, some []]].map
    (BinaryBuffer.ofRows true)) (Encoder.new 2 true, [])) (a := .ok ())
    (b := [(4, [1, 7, 1, 1, 3, 18])]) (by cases p <;> decide +kernel)
  obtain ⟨h1, _, h3⟩ := (C35_binary_roundtrip_exact p q true 2 (by decide) [[none, some [7]], [], [none, none, some []]]
    _ hb (by decide) (by decide)).mp
    ⟨e, _, [2], [[none, some [7], none, none, some []]], h, rfl, by cases q <;> decide +kernel, rfl, by simp, rfl⟩
  exact ⟨h1, h3⟩

end Meerkat
