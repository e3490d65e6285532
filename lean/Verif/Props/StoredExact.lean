import Verif.Props.AnyReader
import Verif.Props.EncodingChoice
import Verif.Props.FilesAlone
import Verif.Props.Amplify

set_option autoImplicit false

/-! # Which raw columns are determined by their blocks (C52)

`C52_stored_data_partial` asks that no length loses a bit. Here the condition is exact, for columns without nulls: the blocks
of a column determine its values if and only if in no block the lengths could be replaced by others that are not told apart
from them and of which no proper part fills a block already. -/

namespace Meerkat
open Spec BinaryEnc

namespace StoredExact

/-- No proper part from the first item on fills a block. -/
def Capped (m : Nat) (g : List (Option Bytes)) : Prop := ((valuesOf g).map List.length).dropLast.sum < m

theorem dropLast_sum_le (l : List Nat) : l.dropLast.sum ≤ l.sum := by
  by_cases h : l = []
  · subst h; simp
  · have := congrArg List.sum (List.dropLast_concat_getLast h)
    rw [List.sum_append] at this
    omega

theorem lens_sum (g : List (Option Bytes)) : ((valuesOf g).map List.length).sum = byteCount g := by
  rw [byteCount, List.length_flatten]

theorem capped_of_lt {m : Nat} {g : List (Option Bytes)} (h : byteCount g < m) : Capped m g := by
  have := dropLast_sum_le ((valuesOf g).map List.length)
  rw [lens_sum] at this
  unfold Capped
  omega

theorem fillStep_capped {m : Nat} {held b : List (Option Bytes)} (hlt : byteCount held < m) :
    ∀ g ∈ (fillStep m held b).1, Capped m g := by
  simp only [fillStep]
  cases hf : fill (m - byteCount held) (valuesOf b) with
  | none => simp
  | some j =>
    simp only [List.mem_singleton, forall_eq]
    obtain ⟨h1, h2, h3⟩ := fill_some hf
    have h4 := fill_pos hf (by omega)
    have hj := h3 (j - 1) (by omega)
    have hs : (valuesOf b).take j = (valuesOf b).take (j - 1) ++ [(valuesOf b)[j - 1]] := by
      have := List.take_append_getElem (l := valuesOf b) (i := j - 1) (by omega)
      rw [show j - 1 + 1 = j by omega] at this
      exact this.symm
    have hh := lens_sum held
    rw [Capped, valuesOf_append, takeVals_values, hs, ← List.append_assoc, List.map_append (l₂ := [_]), List.map_singleton,
      List.dropLast_concat, List.map_append, List.sum_append, hh, ← List.length_flatten]
    omega

theorem fillGroups_capped {m : Nat} {nullable : Bool} (bufs : List (List (Option Bytes))) : ∀ stale held,
    byteCount held < m → Manageable m nullable stale held bufs → ∀ g ∈ fillGroups m held bufs, Capped m g := by
  induction bufs with
  | nil =>
    intro stale held h _ g hg
    simp only [fillGroups] at hg
    split at hg
    · cases hg
    · rw [List.mem_singleton.1 hg]; exact capped_of_lt h
  | cons b bufs ih =>
    intro stale held h hman g hg
    simp only [Manageable] at hman
    obtain ⟨h1, _, _, h5⟩ := hman
    rw [fillGroups, List.mem_append] at hg
    rcases hg with hg | hg
    · exact fillStep_capped h g hg
    · exact ih _ _ (fillStep_small h h1) h5 g hg

/-- Groups that each fill a block with their last item, but for the last group. -/
def Cut (m : Nat) : List (List (Option Bytes)) → Prop
  | [] => True
  | g :: gs => (byteCount g < m ∧ gs = []) ∨ (m ≤ byteCount g ∧ Capped m g ∧ Cut m gs)

theorem cut_of_filled {m : Nat} : ∀ {gs : List (List (Option Bytes))}, Filled m gs → (∀ g ∈ gs, Capped m g) → Cut m gs
  | [], _, _ => trivial
  | g :: gs, h, hc => by
    rcases h with h | ⟨h1, _, h3⟩
    · exact .inl h
    · exact .inr ⟨h1, hc g (by simp), cut_of_filled h3 fun g' hg' => hc g' (List.mem_cons_of_mem _ hg')⟩

theorem cut_replace {m : Nat} {g g' : List (Option Bytes)} {b : List (List (Option Bytes))}
    (hs : byteCount g' = byteCount g) (hc : Capped m g') : ∀ {a : List (List (Option Bytes))},
    Cut m (a ++ g :: b) → Cut m (a ++ g' :: b)
  | [], h => by
    rcases h with ⟨h1, h2⟩ | ⟨h1, _, h3⟩
    · exact .inl ⟨by omega, h2⟩
    · exact .inr ⟨by omega, hc, h3⟩
  | x :: a, h => by
    rcases h with ⟨_, h2⟩ | ⟨h1, h2, h3⟩
    · cases a <;> cases h2
    · exact .inr ⟨h1, h2, cut_replace hs hc h3⟩

theorem ends_of_nonnull {g : List (Option Bytes)} (h : none ∉ g) : EndsWithValue g := by
  by_cases hg : g = []
  · exact .inl hg
  · right
    rw [List.getLast?_eq_some_getLast hg]
    cases hl : g.getLast hg with
    | none => exact absurd (hl ▸ List.getLast_mem hg) h
    | some v => exact ⟨v, rfl⟩

/-- A buffer that is exactly a block. -/
theorem fillStep_whole {m : Nat} {g : List (Option Bytes)} (hn : none ∉ g) (hfull : m ≤ byteCount g) (hc : Capped m g) :
    fillStep m [] g = ([g], []) := by
  have hf : fill (m - byteCount []) (valuesOf g) = some (valuesOf g).length := by
    refine fill_eq ?_ fun i hi => ?_
    · rw [List.take_length]; exact Nat.le_trans (Nat.sub_le _ _) hfull
    · have h0 : byteCount [] = 0 := rfl
      rw [h0, Nat.sub_zero, List.length_flatten]
      refine Nat.lt_of_le_of_lt ?_ hc
      have hd : (valuesOf g).dropLast = (valuesOf g).take i ++ (valuesOf g).dropLast.drop i := by
        conv => lhs; rw [← List.take_append_drop i (valuesOf g).dropLast]
        rw [List.dropLast_eq_take, List.take_take, Nat.min_eq_left (by omega)]
      rw [← List.map_dropLast, hd, List.map_append, List.sum_append]
      exact Nat.le_add_right _ _
  have ht : takeVals (valuesOf g).length g = g := takeVals_all (ends_of_nonnull hn) (Nat.le_refl _)
  simp only [fillStep, hf, ht, List.nil_append, List.drop_length]
  rfl

/-- A buffer that is less than a block. -/
theorem fillStep_part {m : Nat} {g : List (Option Bytes)} (hn : none ∉ g) (hlt : byteCount g < m) :
    fillStep m [] g = ([], g) := by
  have hf : fill (m - byteCount []) (valuesOf g) = none := fill_eq_none _ _ hlt
  simp only [fillStep, hf, List.nil_append, dropTrailingNulls_of_ends (ends_of_nonnull hn)]

/-- Groups given as one buffer each are the blocks that are written. -/
theorem cut_groups {m : Nat} (hm : 0 < m) : ∀ {gs : List (List (Option Bytes))}, Cut m gs →
    (∀ g ∈ gs, none ∉ g ∧ 1 ≤ g.length ∧ g.length ≤ 128) →
    fillGroups m [] gs = gs ∧ Manageable m false [] [] gs
  | [], _, _ => ⟨rfl, by simp [Manageable, valuesOf]⟩
  | g :: gs, h, hall => by
    obtain ⟨hn, h1, h128⟩ := hall g (by simp)
    have hl := valuesOf_length_of_none hn
    rcases h with ⟨hlt, rfl⟩ | ⟨hfull, hc, hrest⟩
    · have hst := fillStep_part hn hlt
      simp only [fillGroups, Manageable, hst, nextStale]
      refine ⟨by rw [if_neg (by omega)]; rfl, by simp, by simp, by simp, by omega, by simp⟩
    · have hst := fillStep_whole hn hfull hc
      obtain ⟨e, hm'⟩ := cut_groups hm hrest fun g' hg' => hall g' (List.mem_cons_of_mem _ hg')
      simp only [fillGroups, Manageable, hst, nextStale]
      refine ⟨by rw [e]; rfl, fun _ => hm, ?_, by simp, hm'⟩
      intro g' hg'
      rw [List.mem_singleton.1 hg']
      exact ⟨by omega, fun h => absurd rfl h⟩

/-- Groups with the same blocks are the same when the lengths of the first ones cannot be replaced. -/
theorem groups_eq {m : Nat} : ∀ (gs1 gs2 : List (List (Option Bytes))) (n : Nat),
    (∀ g ∈ gs1 ++ gs2, none ∉ g ∧ 1 ≤ g.length ∧ g.length ≤ 128 ∧ byteCount g < 2 ^ 32) →
    (∀ g ∈ gs2, Capped m g) →
    (∀ g ∈ gs1, ∀ lens, Alike ((valuesOf g).map List.length) lens → lens.dropLast.sum < m →
      lens = (valuesOf g).map List.length) →
    blocksOf false n gs2 = blocksOf false n gs1 → gs2 = gs1 := by
  intro gs1
  induction gs1 with
  | nil =>
    intro gs2 n _ _ _ h
    cases gs2 with
    | nil => rfl
    | cons g gs2 => simp [blocksOf] at h
  | cons g1 gs1 ih =>
    intro gs2 n hall hcap huniq h
    cases gs2 with
    | nil => simp [blocksOf] at h
    | cons g2 gs2 =>
      simp only [blocksOf, List.cons.injEq, Prod.mk.injEq] at h
      obtain ⟨⟨hid, hbytes⟩, hrest⟩ := h
      obtain ⟨a1, a2, a3, a4⟩ := hall g1 (by simp)
      obtain ⟨b1, b2, b3, b4⟩ := hall g2 (by simp)
      have hl : g2.length = g1.length := by omega
      have v1 := valuesOf_length_of_none a1
      have v2 := valuesOf_length_of_none b1
      obtain ⟨hal, hval⟩ := AnyReader.alike_of_same a4 b4 (by omega) (by omega) hbytes
      have hv := hval (huniq g1 (by simp) _ hal (hcap g2 (by simp)))
      have hg : g2 = g1 := by rw [← rows_of_nonnull a1, ← rows_of_nonnull b1, hv]
      subst hg
      rw [ih gs2 (n + g2.length) (fun g hg => hall g (by
        simp only [List.mem_append, List.cons_append, List.mem_cons] at hg ⊢
        rcases hg with h | h
        · exact .inr (.inl h)
        · exact .inr (.inr (.inr h)))) (fun g hg => hcap g (List.mem_cons_of_mem _ hg))
        (fun g hg => huniq g (List.mem_cons_of_mem _ hg)) hrest]

end StoredExact

open StoredExact in
/-- C52 for raw columns without nulls, exactly: among the histories that the encoder handles (`Manageable`), no other values
have the same blocks with the same row ids if and only if in no block the lengths can be replaced by other lengths with the same
sum, width and kept bits, of which no proper part from the first on fills a block already. -/
theorem C52_stored_data_exact (p : Profile) (ci : ColumnInfo) (hraw : ci.encoding = .raw) (hnull : ci.nullable = false)
    (bufs : List (List (Option Bytes))) (bs : List BinaryBuffer) (hb : buildBinary ci.nullable bufs = .ok bs)
    (hlen : bufs.flatten.length < 2 ^ 32 - 7) (hman : Manageable BLOCK_SIZE ci.nullable [] [] bufs) :
    (∀ bufs' bs', buildBinary ci.nullable bufs' = .ok bs' → bufs'.flatten.length < 2 ^ 32 - 7 →
        Manageable BLOCK_SIZE ci.nullable [] [] bufs' →
        blocksAlone p ci (writeAllOps bs') = blocksAlone p ci (writeAllOps bs) → bufs'.flatten = bufs.flatten) ↔
      ∀ g ∈ fillGroups BLOCK_SIZE [] bufs, ∀ lens, Alike ((valuesOf g).map List.length) lens →
        lens.dropLast.sum < BLOCK_SIZE → lens = (valuesOf g).map List.length := by
  have hB : BLOCK_SIZE ≤ U32_MAX := by decide +kernel
  have hB0 : 0 < BLOCK_SIZE := by decide
  have hU : U32_MAX = 2 ^ 32 - 1 := rfl
  simp only [hnull] at hb hman ⊢
  have h00 : byteCount [] < BLOCK_SIZE := by simpa [byteCount, valuesOf] using hB0
  -- what is known of the groups of any such history
  have known : ∀ bufs bs, buildBinary false bufs = .ok bs → bufs.flatten.length < 2 ^ 32 - 7 →
      Manageable BLOCK_SIZE false [] [] bufs →
      (∀ g ∈ fillGroups BLOCK_SIZE [] bufs, none ∉ g ∧ 1 ≤ g.length ∧ g.length ≤ 128 ∧ byteCount g < 2 ^ 32) ∧
      (∀ g ∈ fillGroups BLOCK_SIZE [] bufs, Capped BLOCK_SIZE g) ∧
      blocksAlone p ci (writeAllOps bs) = blocksOf false 0 (fillGroups BLOCK_SIZE [] bufs) ∧
      (fillGroups BLOCK_SIZE [] bufs).flatten = bufs.flatten := by
    intro bufs bs hb hlen hman
    obtain ⟨e, r⟩ := binary_run p hB0 hb (by omega) hB hman
    refine ⟨fun g hg => ?_, fillGroups_capped bufs [] [] h00 hman, ?_, ?_⟩
    · obtain ⟨_, x2, _, x4, x5⟩ := group_facts hb hlen hB0 hB hman g hg
      have hn := x2.resolve_left (by decide)
      have := valuesOf_length_of_none hn
      exact ⟨hn, List.length_pos_iff.2 (fillGroups_nonempty bufs [] [] h00 hman g hg), by omega, x4⟩
    · rw [blocksAlone_raw p hraw, hnull, r]
    · rw [fillGroups_rows _ _ _ (.inl rfl), List.nil_append]
      refine flatMap_ends fun b hbm => ?_
      have hn : none ∉ b := ((buildBinary_ok hb).1 b hbm).resolve_left (by decide)
      rcases ends_of_nonnull hn with h | ⟨v, h⟩
      · exact .inl h
      · exact .inr ⟨b.dropLast, v, by
          have hne : b ≠ [] := by rintro rfl; cases h
          rw [List.getLast?_eq_some_getLast hne, Option.some.injEq] at h
          rw [← h, List.dropLast_concat_getLast hne]⟩
  obtain ⟨k1, k2, k3, k4⟩ := known bufs bs hb hlen hman
  constructor
  · intro h g hg lens hal hcap
    obtain ⟨a, c, hac⟩ := List.append_of_mem hg
    obtain ⟨g1, g2, g3, g4⟩ := k1 g hg
    have hvl := valuesOf_length_of_none g1
    obtain ⟨g', q1, q2, q3, q4, q5, q6⟩ := AnyReader.same_of_alike (nullable := false) (by omega) hal
    have hn' : none ∉ g' := (AnyReader.accepts_of_validity (nullable := false) q2 (.inr g1)).resolve_left (by decide)
    have hall : ∀ x ∈ a ++ g' :: c, none ∉ x ∧ 1 ≤ x.length ∧ x.length ≤ 128 ∧ byteCount x < 2 ^ 32 := by
      intro x hx
      simp only [List.mem_append, List.mem_cons] at hx
      rcases hx with hx | rfl | hx
      · exact k1 x (by rw [hac]; simp [hx])
      · exact ⟨hn', by omega, by omega, by omega⟩
      · exact k1 x (by rw [hac]; simp [hx])
    have hcut : Cut BLOCK_SIZE (a ++ g' :: c) := by
      have := cut_of_filled (fillGroups_filled bufs [] [] h00 hman) k2
      rw [hac] at this
      exact cut_replace q4 (by rw [Capped, q1]; exact hcap) this
    obtain ⟨e1, e2⟩ := cut_groups hB0 hcut fun x hx => ⟨(hall x hx).1, (hall x hx).2.1, (hall x hx).2.2.1⟩
    have hb' := buildBinary_of_accepts (nullable := false) (bufs := a ++ g' :: c) (fun x hx => .inr (hall x hx).1)
      (fun x hx => by have := (hall x hx).2.2.2; omega)
    have hl' : (a ++ g' :: c).flatten.length < 2 ^ 32 - 7 := by
      have : (a ++ g' :: c).flatten.length = (a ++ g :: c).flatten.length := by simp [q3]
      rw [this, ← hac, k4]
      exact hlen
    obtain ⟨_, _, m3, _⟩ := known _ _ hb' hl' e2
    have := h _ _ hb' hl' e2 (by
      rw [m3, k3, e1, hac, blocksOf_append, blocksOf_append, blocksOf, blocksOf, q6, q3])
    rw [← k4, hac, List.flatten_append, List.flatten_append, List.append_cancel_left_eq, List.flatten_cons,
      List.flatten_cons] at this
    rw [← q1, (List.append_inj this q3).1]
  · intro h bufs' bs' hb' hlen' hman' heq
    obtain ⟨m1, m2, m3, m4⟩ := known bufs' bs' hb' hlen' hman'
    rw [k3, m3] at heq
    rw [← k4, ← m4, groups_eq _ _ 0 (fun g hg => by
      rcases List.mem_append.1 hg with hg | hg
      · exact k1 g hg
      · exact m1 g hg) m2 h heq]

/-- A column of two items, the second too short to be read back by the reader of `Spec/BinaryBlock.lean`, is determined. -/
example (p : Profile) (bufs' : List (List (Option Bytes))) (bs' : List BinaryBuffer)
    (hb' : buildBinary false bufs' = .ok bs') (hlen' : bufs'.flatten.length < 2 ^ 32 - 7)
    (hman' : Manageable BLOCK_SIZE false [] [] bufs')
    (heq : blocksAlone p (exampleColumn "a") (writeAllOps bs') =
      blocksAlone p (exampleColumn "a") (writeAllOps [BinaryBuffer.ofRows false [some [1, 2], some [3]]])) :
    bufs'.flatten = [some [1, 2], some [3]] := by
  have hb : buildBinary false [[some [1, 2], some [3]]] = .ok [BinaryBuffer.ofRows false [some [1, 2], some [3]]] :=
    buildBinary_of_accepts (by simp [Accepts]) (by decide +kernel)
  refine (C52_stored_data_exact p (exampleColumn "a") rfl rfl [[some [1, 2], some [3]]] _ hb (by decide)
    (by decide +kernel)).2 ?_ bufs' bs' hb' hlen' hman' heq
  have hg : fillGroups BLOCK_SIZE [] [[some [1, 2], some [3]]] = [[some [1, 2], some [3]]] := by decide +kernel
  rw [hg]
  intro g hg lens hal _
  rw [List.mem_singleton.1 hg] at hal ⊢
  obtain ⟨hn, hs, b, hb1, _, hbits⟩ := hal
  have hb2 : b = 2 := by
    have := (Offsets.width_eq_iff _ _).mpr hb1
    rw [← this]; decide +kernel
  subst hb2
  match lens, hn with
  | [x, y], _ =>
    have hs : x + y = 3 := by simpa [valuesOf] using hs
    have h0 : x.testBit 0 = (2 : Nat).testBit 0 := hbits 0 0 (by decide) (by decide) (by decide)
    have h1 : x.testBit 1 = (2 : Nat).testBit 1 := hbits 0 1 (by decide) (by decide) (by decide)
    have hx : x = 0 ∨ x = 1 ∨ x = 2 ∨ x = 3 := by omega
    rcases hx with rfl | rfl | rfl | rfl
    · exact absurd h1 (by decide)
    · exact absurd h1 (by decide)
    · have : y = 1 := by omega
      subst this; rfl
    · exact absurd h0 (by decide)

end Meerkat
