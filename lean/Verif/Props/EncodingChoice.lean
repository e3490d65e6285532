import Verif.Props.SegmentMeta
import Verif.Props.BinaryEnc
import Verif.Proofs.BinaryUnique

set_option autoImplicit false

/-! # What the encodings of a binary column store: C52 -/

namespace Meerkat

open Spec BinaryEnc

/-- The calls on a column writer that write the given buffers, then close it. -/
def writeAllOps (bs : List BinaryBuffer) : List ColOp := bs.map .write ++ [.close]

/-- A raw column alone is the raw encoder with its buffers. -/
theorem aloneOps_raw (p : Profile) (bs : List BinaryBuffer) (e : Encoder) (l : List (Nat × Bytes)) :
    aloneOps p (writeAllOps bs) (.raw e, l) =
      match encodeColumn p recorder bs (e, l) with
      | (r, (e', l')) => (r, (.raw e', l')) := by
  induction bs generalizing e l with
  | nil =>
    rcases h : flush p recorder (e, l) with ⟨x | x, e1, l1⟩ <;>
      simp [writeAllOps, aloneOps, ColOp.alone, BinaryEncoder.flush, BinaryEncoder.onRaw, encodeColumn, encodeAll,
        Run.bind_apply, Run.get_apply, Run.pure_apply, h]
  | cons b bs ih =>
    simp only [writeAllOps] at ih
    rcases h : encode p recorder b (e, l) with ⟨x | x, e1, l1⟩
    · simp [writeAllOps, aloneOps, ColOp.alone, BinaryEncoder.encode, BinaryEncoder.onRaw, encodeColumn, encodeAll,
        Run.bind_apply, Run.get_apply, h]
    · simp only [writeAllOps, List.map_cons, List.cons_append, aloneOps, ColOp.alone, BinaryEncoder.encode,
        BinaryEncoder.onRaw, encodeColumn, encodeAll, Run.bind_apply, Run.get_apply, h, ih]

/-- The blocks of a raw column. -/
theorem blocksAlone_raw (p : Profile) {ci : ColumnInfo} (hraw : ci.encoding = .raw) (bs : List BinaryBuffer) :
    blocksAlone p ci (writeAllOps bs) =
      (encodeColumn p recorder bs (Encoder.new BLOCK_SIZE ci.nullable, [])).2.2 := by
  simp only [blocksAlone, hraw, newBinaryEncoder, aloneOps_raw]

/-- The blocks of a Snappy column. -/
theorem blocksAlone_snappy (p : Profile) {ci : ColumnInfo} (hs : ci.encoding = .snappy) (bs : List BinaryBuffer) :
    blocksAlone p ci (writeAllOps bs) = List.replicate bs.length (43243, SNAPPY_BLOCK) := by
  have key : ∀ (bs : List BinaryBuffer) (l : List (Nat × Bytes)),
      (aloneOps p (writeAllOps bs) (.snappy, l)).2.2 = l ++ List.replicate bs.length (43243, SNAPPY_BLOCK) := by
    intro bs
    induction bs with
    | nil => intro l; simp [writeAllOps, aloneOps, ColOp.alone, BinaryEncoder.flush, Run.bind_apply, Run.get_apply,
        Run.pure_apply]
    | cons b bs ih =>
      intro l
      simp only [writeAllOps] at ih
      simp only [writeAllOps, List.map_cons, List.cons_append, aloneOps, ColOp.alone, BinaryEncoder.encode,
        Run.bind_apply, Run.get_apply, Run.emit_recorder, ih]
      simp [List.replicate_succ]
  simp only [blocksAlone, hs, newBinaryEncoder, key, List.nil_append]

/-- C52 is false of the code for both accepted encodings. A Snappy column stores nothing of what it is given:
every buffer becomes a block with the row id 43243 and the six letters of "snappy". And two raw columns with
different values get the same blocks. -/
theorem C52_stored_data_violated (p : Profile) :
    (∀ ci : ColumnInfo, ci.encoding = .snappy → ∀ bs : List BinaryBuffer,
      blocksAlone p ci (writeAllOps bs) = bs.map fun _ => (43243, "snappy".toList.map fun c => c.toNat.toUInt8)) ∧
    (∀ ci : ColumnInfo, ci.encoding = .raw → ∃ rows1 rows2 bs1 bs2, valuesOf rows1 ≠ valuesOf rows2 ∧
      buildBinary ci.nullable [rows1] = .ok bs1 ∧ buildBinary ci.nullable [rows2] = .ok bs2 ∧
      blocksAlone p ci (writeAllOps bs1) = blocksAlone p ci (writeAllOps bs2) ∧
      (blocksAlone p ci (writeAllOps bs1)).length = 1) := by
  have hl : SNAPPY_BLOCK = "snappy".toList.map fun c => c.toNat.toUInt8 := by decide
  refine ⟨fun ci hs bs => by rw [blocksAlone_snappy p hs, List.map_const', hl], fun ci hr => ?_⟩
  have hb : ∀ n, ∀ rows : List (Option Bytes), none ∉ rows → byteCount rows ≤ U32_MAX →
      buildBinary n [rows] = .ok [BinaryBuffer.ofRows n rows] := fun n rows h1 h2 =>
    buildBinary_of_accepts (by simpa using .inr h1) (by simpa using h2)
  refine ⟨[some [1, 2], some [3], some []], [some [1, 2], some [], some [3]], _, _, by decide,
    hb _ _ (by decide) (by decide +kernel), hb _ _ (by decide) (by decide +kernel), ?_⟩
  rw [blocksAlone_raw p hr, blocksAlone_raw p hr]
  cases p <;> cases ci.nullable <;> decide +kernel

theorem fillGroups_nonempty {m : Nat} {nullable : Bool} (bufs : List (List (Option Bytes))) : ∀ stale held,
    byteCount held < m → Manageable m nullable stale held bufs → ∀ g ∈ fillGroups m held bufs, g ≠ [] := by
  have hne : ∀ {g : List (Option Bytes)}, 1 ≤ (valuesOf g).length → g ≠ [] := by
    rintro g h rfl; simp [valuesOf] at h
  induction bufs with
  | nil =>
    intro stale held _ _ g hg
    simp only [fillGroups] at hg
    split at hg
    · cases hg
    · simp only [List.mem_singleton] at hg
      subst hg
      exact hne (by omega)
  | cons b bs ih =>
    intro stale held hlt hman g hg
    simp only [Manageable] at hman
    obtain ⟨h1, _, _, h5⟩ := hman
    simp only [fillGroups, List.mem_append] at hg
    rcases hg with hg | hg
    · exact hne (fillStep_values hlt g hg).1
    · exact ih _ _ (fillStep_small hlt h1) h5 g hg

theorem valuesOf_length_of_none {α : Type} {rows : List (Option α)} (h : none ∉ rows) :
    (valuesOf rows).length = rows.length := by
  induction rows with
  | nil => rfl
  | cons r rows ih =>
    simp only [List.mem_cons, not_or] at h
    cases r with
    | none => exact absurd rfl h.1
    | some v => simp only [valuesOf, List.filterMap_cons, id, List.length_cons] at ih ⊢; rw [ih h.2]

/-- Groups of rows are determined by their blocks with the row ids. -/
theorem blocksOf_inj {nullable : Bool} : ∀ (gs1 gs2 : List (List (Option Bytes))) (n : Nat),
    (∀ g ∈ gs1 ++ gs2, g ≠ [] ∧ Group nullable g) → blocksOf nullable n gs1 = blocksOf nullable n gs2 → gs1 = gs2 := by
  intro gs1
  induction gs1 with
  | nil =>
    intro gs2 n _ h
    cases gs2 with
    | nil => rfl
    | cons g gs2 => simp [blocksOf] at h
  | cons g1 gs1 ih =>
    intro gs2 n hall h
    cases gs2 with
    | nil => simp [blocksOf] at h
    | cons g2 gs2 =>
      simp only [blocksOf, List.cons.injEq, Prod.mk.injEq] at h
      obtain ⟨⟨hid, hbytes⟩, hrest⟩ := h
      obtain ⟨a0, a⟩ := hall g1 (by simp)
      obtain ⟨b0, b⟩ := hall g2 (by simp)
      have hg : g1 = g2 := by
        cases nullable with
        | true => exact blockBytes_inj a0 b0 a b hbytes
        | false =>
          have l1 := List.length_pos_iff.2 a0
          have l2 := List.length_pos_iff.2 b0
          have hl : g1.length = g2.length := by omega
          have v1 := valuesOf_length_of_none (a.accepts.resolve_left (by decide))
          have v2 := valuesOf_length_of_none (b.accepts.resolve_left (by decide))
          have q1 := readBinary_blockBytes .debug false g1 a.ends a.accepts a.len a.size a.count a.readable
          have q2 := readBinary_blockBytes .debug false g2 b.ends b.accepts b.len b.size b.count b.readable
          rw [v1, hl, hbytes] at q1
          rw [v2] at q2
          rw [q1] at q2
          exact Option.some.inj q2
      subst hg
      rw [ih gs2 (n + g1.length) (fun g hg => hall g (by
        simp only [List.mem_append, List.cons_append, List.mem_cons] at hg ⊢
        rcases hg with h | h
        · exact .inr (.inl h)
        · exact .inr (.inr (.inr h)))) hrest]

/-- C52 as far as it holds: for a raw column, on histories the encoder handles (`Manageable`: no buffer completes two
blocks, at most 128 items in a block, no null on a stale bit) and whose lengths lose no bit in the offset encoding
(`ReadableLengths`), the blocks with their row ids determine the values and, when no buffer ends with a null, all the
rows. -/
theorem C52_stored_data_partial (p : Profile) (ci : ColumnInfo) (hraw : ci.encoding = .raw)
    (bufs1 bufs2 : List (List (Option Bytes))) (bs1 bs2 : List BinaryBuffer)
    (hb1 : buildBinary ci.nullable bufs1 = .ok bs1) (hb2 : buildBinary ci.nullable bufs2 = .ok bs2)
    (hrows : ∀ bufs, bufs = bufs1 ∨ bufs = bufs2 →
      bufs.flatten.length < 2 ^ 32 - 7 ∧ Manageable BLOCK_SIZE ci.nullable [] [] bufs ∧
      ∀ g ∈ fillGroups BLOCK_SIZE [] bufs, ReadableLengths ((valuesOf g).map List.length))
    (heq : blocksAlone p ci (writeAllOps bs1) = blocksAlone p ci (writeAllOps bs2)) :
    valuesOf bufs1.flatten = valuesOf bufs2.flatten ∧
    ((∀ b ∈ bufs1 ++ bufs2, b = [] ∨ ∃ l v, b = l ++ [some v]) → bufs1.flatten = bufs2.flatten) := by
  rw [blocksAlone_raw p hraw, blocksAlone_raw p hraw] at heq
  have hB : BLOCK_SIZE ≤ U32_MAX := by decide +kernel
  have hB0 : 0 < BLOCK_SIZE := by decide
  obtain ⟨h1, h4, h5⟩ := hrows bufs1 (.inl rfl)
  obtain ⟨k1, k4, k5⟩ := hrows bufs2 (.inr rfl)
  obtain ⟨e1, r1⟩ := binary_run p hB0 hb1 (by omega) hB h4
  obtain ⟨e2, r2⟩ := binary_run p hB0 hb2 (by omega) hB k4
  rw [r1, r2] at heq
  dsimp only at heq
  have f1 := group_facts hb1 h1 hB0 hB h4
  have f2 := group_facts hb2 k1 hB0 hB k4
  have n1 := fillGroups_nonempty bufs1 [] [] (by simpa [byteCount, valuesOf] using hB0) h4
  have n2 := fillGroups_nonempty bufs2 [] [] (by simpa [byteCount, valuesOf] using hB0) k4
  have hgs := blocksOf_inj _ _ 0 (by
    intro g hg
    rcases List.mem_append.1 hg with hg | hg
    · obtain ⟨x1, x2, x3, x4, x5⟩ := f1 g hg
      exact ⟨n1 g hg, x1, x2, x3, x4, x5, h5 g hg⟩
    · obtain ⟨x1, x2, x3, x4, x5⟩ := f2 g hg
      exact ⟨n2 g hg, x1, x2, x3, x4, x5, k5 g hg⟩) heq
  refine ⟨by rw [← binary_values (bufs := bufs1) BLOCK_SIZE, ← binary_values (bufs := bufs2) BLOCK_SIZE, hgs],
    fun hend => ?_⟩
  have e1 := fillGroups_rows BLOCK_SIZE bufs1 [] (.inl rfl)
  have e2 := fillGroups_rows BLOCK_SIZE bufs2 [] (.inl rfl)
  rw [List.nil_append, flatMap_ends fun b hb => hend b (List.mem_append_left _ hb)] at e1
  rw [List.nil_append, flatMap_ends fun b hb => hend b (List.mem_append_right _ hb)] at e2
  rw [← e1, ← e2, hgs]

/-- The hypotheses hold of a column with one item, of any bytes. -/
example (v w : Bytes) (hv : v.length = 5) (hw : w.length = 5) (bs1 bs2 : List BinaryBuffer)
    (hb1 : buildBinary false [[some v]] = .ok bs1) (hb2 : buildBinary false [[some w]] = .ok bs2)
    (heq : blocksAlone .debug (exampleColumn "a") (writeAllOps bs1) =
      blocksAlone .debug (exampleColumn "a") (writeAllOps bs2)) : v = w := by
  have hU : U32_MAX = 2 ^ 32 - 1 := rfl
  have hB : BLOCK_SIZE = 128 := rfl
  have key : ∀ x : Bytes, x.length = 5 → [[some x]].flatten.length < 2 ^ 32 - 7 ∧
      Manageable BLOCK_SIZE false [] [] [[some x]] ∧
      ∀ g ∈ fillGroups BLOCK_SIZE [] [[some x]], ReadableLengths ((valuesOf g).map List.length) := by
    intro x hx
    have hbc : byteCount [some x] = 5 := by simp [byteCount, valuesOf, hx]
    have hd : dropTrailingNulls [some x] = [some x] := rfl
    have hst : fillStep BLOCK_SIZE [] [some x] = ([], [some x]) := by
      have : fill (BLOCK_SIZE - byteCount []) (valuesOf [some x]) = none := by
        simp [byteCount, valuesOf, hB, fill, hx]
      simp only [fillStep, this, hd, List.nil_append]
    refine ⟨by simp, ?_, ?_⟩
    · simp [Manageable, hst, valuesOf]
    · simp only [fillGroups, hst, List.nil_append]
      simp only [valuesOf, List.filterMap_cons, id, List.filterMap_nil, List.length_cons, List.length_nil]
      simp only [Nat.zero_add, Nat.one_ne_zero, if_false, List.mem_singleton, forall_eq, List.filterMap_cons, id,
        List.filterMap_nil, List.map_cons, List.map_nil, hx]
      refine ⟨3, ⟨by simp, .inr ⟨5, by simp, by decide⟩⟩, ?_⟩
      intro i c hi hc
      obtain rfl : i = 0 := by simpa using hi
      have hc3 : c < 3 := Classical.byContradiction fun hn => by
        have h5 : (5 : Nat) < 2 ^ c := Nat.lt_of_lt_of_le (by decide : 5 < 2 ^ 3) (Nat.pow_le_pow_right (by decide) (by omega))
        have : ([5].getD 0 0 : Nat) = 5 := rfl
        rw [this, Nat.testBit_lt_two_pow h5] at hc; cases hc
      have : c / 32 = 0 := by omega
      simp only [bytePos, List.length_cons, List.length_nil]
      omega
  have := C52_stored_data_partial .debug (exampleColumn "a") rfl [[some v]] [[some w]] bs1 bs2 hb1 hb2
    (by rintro b (rfl | rfl)
        · exact key v hv
        · exact key w hw) heq
  simpa [valuesOf] using this.1

/-- They hold of a nullable column with a null and an item. -/
example (v w : Bytes) (hv : v.length = 5) (hw : w.length = 5) (bs1 bs2 : List BinaryBuffer)
    (hb1 : buildBinary true [[none, some v]] = .ok bs1) (hb2 : buildBinary true [[none, some w]] = .ok bs2)
    (heq : blocksAlone .release { exampleColumn "a" with nullable := true } (writeAllOps bs1) =
      blocksAlone .release { exampleColumn "a" with nullable := true } (writeAllOps bs2)) :
    [[none, some v]].flatten = [[none, some w]].flatten := by
  have hU : U32_MAX = 2 ^ 32 - 1 := rfl
  have hB : BLOCK_SIZE = 128 := rfl
  have key : ∀ x : Bytes, x.length = 5 → [[none, some x]].flatten.length < 2 ^ 32 - 7 ∧
      Manageable BLOCK_SIZE true [] [] [[none, some x]] ∧
      ∀ g ∈ fillGroups BLOCK_SIZE [] [[none, some x]], ReadableLengths ((valuesOf g).map List.length) := by
    intro x hx
    have hbc : byteCount [none, some x] = 5 := by simp [byteCount, valuesOf, hx]
    have hd : dropTrailingNulls [none, some x] = [none, some x] := rfl
    have hst : fillStep BLOCK_SIZE [] [none, some x] = ([], [none, some x]) := by
      have : fill (BLOCK_SIZE - byteCount []) (valuesOf [none, some x]) = none := by
        simp [byteCount, valuesOf, hB, fill, hx]
      simp only [fillStep, this, hd, List.nil_append]
    refine ⟨by simp, ?_, ?_⟩
    · simp [Manageable, hst, valuesOf, seenBits, orBits, validityOf, nextStale]
    · simp only [fillGroups, hst, List.nil_append]
      simp only [valuesOf, List.filterMap_cons, id, List.filterMap_nil, List.length_cons, List.length_nil]
      simp only [Nat.zero_add, Nat.one_ne_zero, if_false, List.mem_singleton, forall_eq, List.filterMap_cons, id,
        List.filterMap_nil, List.map_cons, List.map_nil, hx]
      refine ⟨3, ⟨by simp, .inr ⟨5, by simp, by decide⟩⟩, ?_⟩
      intro i c hi hc
      obtain rfl : i = 0 := by simpa using hi
      have hc3 : c < 3 := Classical.byContradiction fun hn => by
        have h5 : (5 : Nat) < 2 ^ c := Nat.lt_of_lt_of_le (by decide : 5 < 2 ^ 3) (Nat.pow_le_pow_right (by decide) (by omega))
        have : ([5].getD 0 0 : Nat) = 5 := rfl
        rw [this, Nat.testBit_lt_two_pow h5] at hc; cases hc
      have : c / 32 = 0 := by omega
      simp only [bytePos, List.length_cons, List.length_nil]
      omega
  refine (C52_stored_data_partial .release { exampleColumn "a" with nullable := true } rfl [[none, some v]]
    [[none, some w]] bs1 bs2 hb1 hb2
    (by rintro b (rfl | rfl)
        · exact key v hv
        · exact key w hw) heq).2 ?_
  intro b hb
  simp only [List.cons_append, List.nil_append, List.mem_cons, List.not_mem_nil, or_false] at hb
  rcases hb with rfl | rfl
  · exact .inr ⟨[none], v, rfl⟩
  · exact .inr ⟨[none], w, rfl⟩

end Meerkat
