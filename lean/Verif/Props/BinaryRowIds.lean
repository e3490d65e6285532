import Verif.Props.BinaryExact
import Verif.Props.BinaryWritten
import Verif.Props.WithValidity
import Verif.Props.RowTotalRelease

set_option autoImplicit false

/-! # C109, the row ids of binary columns: when they do not depend on whether the column is declared nullable -/

namespace Meerkat
namespace BinaryRowIds
open Spec BinaryEnc

theorem takeVals_full {rows : List (Option Bytes)} (h : none ∉ rows) {j : Nat} (hj : j ≤ (valuesOf rows).length) :
    (takeVals j rows).length = j := by
  rw [← valuesOf_length_of_no_none (fun hn => h ((takeVals_prefix j rows).subset hn)), takeVals_values, List.length_take]
  omega

theorem small_fill {m : Nat} {vs : List Bytes} (h : vs.flatten.length < m) : fill m vs = none := by
  cases hf : fill m vs with
  | none => rfl
  | some j =>
    have h1 := (fill_some hf).2.1
    have h2 := flatten_le (List.take_sublist j vs)
    omega

theorem whole_counted {rows : List (Option Bytes)} (h : none ∉ rows) (st st' : List Bool) :
    (wholeEntry true st rows).counted = (wholeEntry false st' rows).counted := by
  have h1 : ∀ (l : List Bool), (∀ x ∈ l, x = true) → (uptoSet l.length l).length = l.length := by
    intro l
    induction l with
    | nil => intro _; rfl
    | cons a l ih =>
      intro ha
      have := ha a (by simp)
      subst this
      simp only [List.length_cons, uptoSet, ih (fun x hx => ha x (by simp [hx]))]
  have h2 : ∀ x ∈ validityOf rows, x = true := by
    intro x hx
    simp only [validityOf, List.mem_map] at hx
    obtain ⟨o, ho, rfl⟩ := hx
    cases o with
    | none => exact absurd ho h
    | some v => rfl
  have h3 : (valuesOf rows).length = (validityOf rows).length := by
    rw [validityOf_length, valuesOf_length_of_no_none h]
  show (uptoSet (valuesOf rows).length (seenBits st rows)).length = (validityOf rows).length
  rw [seenBits_full st h, h3, h1 _ h2]

theorem loop_length (m : Nat) (rows : List (Option Bytes)) : ∀ n pos,
    (loopEntries m true rows n pos).length = (loopEntries m false rows n pos).length := by
  intro n
  induction n with
  | zero => intro pos; rfl
  | succ n ih =>
    intro pos
    simp only [loopEntries]
    cases fill m ((valuesOf rows).drop pos) with
    | none => rfl
    | some j =>
      simp only
      split
      · simp only [List.length_cons, ih]
      · rfl

/-- Past the beginning of its buffer, every block of the loop is counted differently. -/
theorem loop_counted {m : Nat} {rows : List (Option Bytes)} (hn : none ∉ rows) {n pos s : Nat} (hpos : 0 < pos)
    (he : loopEnd m (valuesOf rows) (n + 1) pos = some s) :
    ((loopEntries m true rows (n + 1) pos).map (·.counted) = (loopEntries m false rows (n + 1) pos).map (·.counted) ↔
      ((valuesOf rows).drop pos).flatten.length < m) ∧
    (((valuesOf rows).drop pos).flatten.length < m → s = pos) := by
  rw [loopEnd] at he
  simp only [loopEntries]
  cases hf : fill m ((valuesOf rows).drop pos) with
  | none =>
    rw [hf] at he
    exact ⟨⟨fun _ => fill_none hf, fun _ => rfl⟩, fun _ => (Option.some.inj he).symm⟩
  | some j =>
    rw [hf] at he
    have hbig : ¬ ((valuesOf rows).drop pos).flatten.length < m := fun h => by rw [small_fill h] at hf; cases hf
    refine ⟨⟨fun h => ?_, fun h => absurd h hbig⟩, fun h => absurd h hbig⟩
    simp only at he h
    by_cases hc : pos < j ∧ j - pos ≤ 128
    · rw [if_pos hc, if_pos hc] at h
      simp only [List.map_cons, List.cons.injEq, if_true, Bool.false_eq_true, if_false] at h
      have hj := (fill_some hf).1
      rw [List.length_drop] at hj
      rw [takeVals_full hn (by omega)] at h
      omega
    · rw [if_neg hc] at he; cases he

theorem ends_full {held : List (Option Bytes)} (h : none ∉ held) : EndsWithValue held := by
  rcases List.eq_nil_or_concat held with rfl | ⟨l, x, rfl⟩
  · exact .inl rfl
  · cases x with
    | none => exact absurd (by simp) h
    | some v => exact .inr ⟨v, by simp⟩

theorem call_counted {m : Nat} (hm : 0 < m) {held b : List (Option Bytes)} (hn : none ∉ held) (hb : none ∉ b)
    (hlt : byteCount held < m) {h' : List Bytes} (hh : heldAfter m (valuesOf held) (valuesOf b) = some h')
    (st st' : List Bool) :
    (callEntries m true st held b).length = (callEntries m false st' held b).length ∧
    ((callEntries m true st held b).map (·.counted) = (callEntries m false st' held b).map (·.counted) ↔
      ((fillStep m held b).1 ≠ [] → byteCount (fillStep m held b).2 < m)) ∧
    (((fillStep m held b).1 ≠ [] → byteCount (fillStep m held b).2 < m) → heldRows m held b = (fillStep m held b).2) ∧
    (∀ g ∈ (fillStep m held b).1, GroupFits held g) ∧ valuesOf (heldRows m held b) = h' := by
  have hnil : valuesOf held = [] ↔ held = [] :=
    ⟨fun h => (ends_nil_iff (ends_full hn)).mp (by rw [h]; rfl), fun h => by rw [h]; rfl⟩
  have hrest : ∀ j, byteCount (dropTrailingNulls (b.drop (takeVals j b).length)) = ((valuesOf b).drop j).flatten.length := by
    intro j
    have := behind_values j b
    rw [behind] at this
    rw [byteCount_dropTrailingNulls, byteCount, this]
  rw [heldAfter] at hh
  by_cases h0 : held = []
  · subst h0
    rw [if_pos (hnil.mpr rfl)] at hh
    obtain ⟨s, hs, rfl⟩ := Option.map_eq_some_iff.mp hh
    have hv : valuesOf (heldRows m [] b) = (valuesOf b).drop s := by
      simp only [heldRows, if_true, hs, Option.getD_some]
      rw [dropTrailingNulls_values, behind_values]
    have hz : m - byteCount [] = m := by simp [byteCount]
    simp only [fillStep, hz, callEntries, if_true]
    refine ⟨loop_length m b _ _, ?_⟩
    rw [loopEnd, List.drop_zero] at hs
    cases hf : fill m (valuesOf b) with
    | none =>
      rw [hf] at hs
      cases hs
      refine ⟨⟨fun _ h => absurd rfl h, fun _ => by simp [loopEntries, hf]⟩, fun _ => ?_, by simp, hv⟩
      simp only [heldRows, if_true, loopEnd, List.drop_zero, hf, Option.getD_some, behind]
      have : takeVals 0 b = [] := List.eq_nil_of_length_eq_zero (takeVals_full hb (Nat.zero_le _))
      rw [this]; rfl
    | some j =>
      rw [hf] at hs
      simp only at hs ⊢
      by_cases hc : 0 < j ∧ j - 0 ≤ 128
      · rw [if_pos hc] at hs
        have hj := (fill_some hf).1
        obtain ⟨l1, l2⟩ := loop_counted hb hc.1 hs
        have hl : (loopEntries m true b ((valuesOf b).length + 2) 0).map (·.counted) =
              (loopEntries m false b ((valuesOf b).length + 2) 0).map (·.counted) ↔
            (loopEntries m true b ((valuesOf b).length + 1) j).map (·.counted) =
              (loopEntries m false b ((valuesOf b).length + 1) j).map (·.counted) := by
          rw [loopEntries, loopEntries, List.drop_zero, hf]
          simp only [if_pos hc]
          simp only [List.map_cons, if_true, Bool.false_eq_true, if_false, takeVals_full hb hj, Nat.sub_zero,
            List.cons.injEq, true_and]
        refine ⟨?_, fun h => ?_, ?_, hv⟩
        · rw [hl, l1, hrest]
          exact ⟨fun h _ => h, fun h => h (by simp)⟩
        · have hs' := l2 (by rw [← hrest]; exact h (by simp))
          subst hs'
          simp only [heldRows, if_true, behind]
          rw [loopEnd, List.drop_zero, hf]
          simp only [if_pos hc, hs, Option.getD_some]
        · intro g hg
          rw [List.mem_singleton.mp hg]
          refine ⟨?_, fun h => absurd rfl h⟩
          rw [List.nil_append, takeVals_values, List.length_take]
          omega
      · rw [if_neg hc] at hs; cases hs
  · rw [if_neg (fun h => h0 (hnil.mp h))] at hh
    have hbh : (valuesOf held).flatten.length = byteCount held := rfl
    rw [hbh] at hh
    simp only [fillStep, callEntries, if_neg h0, heldRows]
    cases hf : fill (m - byteCount held) (valuesOf b) with
    | none =>
      rw [hf] at hh
      cases hh
      exact ⟨rfl, ⟨fun _ h => absurd rfl h, fun _ => rfl⟩, fun _ => rfl, by simp,
        by rw [valuesOf_append, dropTrailingNulls_values]⟩
    | some j =>
      rw [hf] at hh
      simp only at hh ⊢
      by_cases hc : (valuesOf held).length + j ≤ 128 ∧ (valuesOf held ++ (valuesOf b).take j).flatten.length < 2 ^ 32 - 1
      · rw [if_pos hc] at hh
        obtain ⟨s, hs, rfl⟩ := Option.map_eq_some_iff.mp hh
        have hj := (fill_some hf).1
        obtain ⟨l1, l2⟩ := loop_counted hb (fill_pos hf (by omega)) hs
        have hw : none ∉ held ++ takeVals j b := by
          intro h
          rcases List.mem_append.mp h with h | h
          · exact hn h
          · exact hb ((takeVals_prefix _ b).subset h)
        refine ⟨by simp only [List.length_cons, loop_length], ?_, fun h => ?_, ?_, ?_⟩
        · simp only [List.map_cons, whole_counted hw st st', List.cons.injEq, true_and]
          rw [l1, hrest]
          exact ⟨fun h _ => h, fun h => h (by simp)⟩
        · have hs' := l2 (by rw [← hrest]; exact h (by simp))
          rw [hs, hs']
          rfl
        · intro g hg
          rw [List.mem_singleton.mp hg]
          refine ⟨?_, fun _ => ?_⟩
          · rw [valuesOf_append, takeVals_values, List.length_append, List.length_take]
            omega
          · rw [byteCount, valuesOf_append, takeVals_values]
            exact hc.2
        · rw [hs, dropTrailingNulls_values, behind_values]; rfl
      · rw [if_neg hc] at hh; cases hh

theorem column_counted {m : Nat} (hm : 0 < m) (bufs : List (List (Option Bytes))) :
    ∀ (st st' st'' : List Bool) (held : List (Option Bytes)), none ∉ held → byteCount held < m → (∀ b ∈ bufs, none ∉ b) →
    Completes m (valuesOf held) (bufs.map valuesOf) →
    ((columnEntries m true st held bufs).map (·.counted) = (columnEntries m false st' held bufs).map (·.counted) ↔
      Manageable m false st'' held bufs) := by
  induction bufs with
  | nil =>
    intro st st' st'' held hn _ _ hc
    simp only [columnEntries]
    refine ⟨fun _ => ⟨hc, nofun⟩, fun _ => ?_⟩
    split
    · rfl
    · simp only [List.map_cons, List.map_nil, whole_counted hn st st']
  | cons b bufs ih =>
    intro st st' st'' held hn hlt hb hc
    rw [List.map_cons, Completes] at hc
    cases hh : heldAfter m (valuesOf held) (valuesOf b) with
    | none => rw [hh] at hc; exact hc.elim
    | some h' =>
      rw [hh] at hc
      simp only at hc
      obtain ⟨c1, c2, c3, c4, c5⟩ := call_counted hm hn (hb b (by simp)) hlt hh st st'
      subst c5
      have hsplit : ((columnEntries m true st held (b :: bufs)).map (·.counted) =
            (columnEntries m false st' held (b :: bufs)).map (·.counted)) ↔
          (callEntries m true st held b).map (·.counted) = (callEntries m false st' held b).map (·.counted) ∧
          (columnEntries m true (staleAfter m st held b) (heldRows m held b) bufs).map (·.counted) =
            (columnEntries m false (staleAfter m st' held b) (heldRows m held b) bufs).map (·.counted) := by
        simp only [columnEntries, List.map_append]
        exact ⟨fun h => List.append_inj h (by simp only [List.length_map, c1]), fun h => by rw [h.1, h.2]⟩
      rw [hsplit, c2]
      have hkeep : ((fillStep m held b).1 ≠ [] → byteCount (fillStep m held b).2 < m) →
          ((columnEntries m true (staleAfter m st held b) (heldRows m held b) bufs).map (·.counted) =
            (columnEntries m false (staleAfter m st' held b) (heldRows m held b) bufs).map (·.counted) ↔
          Manageable m false (nextStale st'' held (fillStep m held b).1) (fillStep m held b).2 bufs) := by
        intro hgood
        rw [← c3 hgood]
        refine ih _ _ _ _ ?_ ?_ (fun b' h => hb b' (by simp [h])) hc
        · rw [c3 hgood]
          have hbn := hb b (by simp)
          simp only [fillStep]
          cases fill (m - byteCount held) (valuesOf b) with
          | none =>
            intro h
            rcases List.mem_append.mp h with h | h
            · exact hn h
            · exact hbn (mem_of_mem_dropTrailingNulls h)
          | some j => exact none_dropTrailing (List.drop_suffix ..) hbn
        · rw [c3 hgood]; exact fillStep_small hlt hgood
      constructor
      · intro ⟨h1, h2⟩
        exact ⟨h1, c4, nofun, (hkeep h1).mp h2⟩
      · intro h
        exact ⟨h.1, (hkeep h.1).mpr h.2.2.2⟩

theorem ids_counted : ∀ (xs ys : List Entry) (n : Nat), xs.length = ys.length → (∀ x ∈ xs, 0 < x.counted) →
    (∀ y ∈ ys, 0 < y.counted) → ∀ a b, ((entryBlocks a n xs).map (·.1) = (entryBlocks b n ys).map (·.1) ↔
      xs.map (·.counted) = ys.map (·.counted)) := by
  intro xs
  induction xs with
  | nil => intro ys n hl _ _ a b; cases ys with
    | nil => simp [entryBlocks]
    | cons => cases hl
  | cons x xs ih =>
    intro ys n hl hx hy a b
    cases ys with
    | nil => cases hl
    | cons y ys =>
      have h1 := hx x (by simp)
      have h2 := hy y (by simp)
      simp only [entryBlocks, List.map_cons, List.cons.injEq]
      have key := fun k => ih ys k (Nat.succ.inj hl) (fun z h => hx z (by simp [h])) (fun z h => hy z (by simp [h])) a b
      constructor
      · intro ⟨h3, h4⟩
        have h5 : x.counted = y.counted := by omega
        rw [h5] at h4
        exact ⟨h5, (key _).mp h4⟩
      · intro ⟨h3, h4⟩
        rw [h3]
        exact ⟨rfl, (key _).mpr h4⟩

theorem column_length (m : Nat) (bufs : List (List (Option Bytes))) : ∀ (st st' : List Bool) (held : List (Option Bytes)),
    (columnEntries m true st held bufs).length = (columnEntries m false st' held bufs).length := by
  induction bufs with
  | nil => intro st st' held; simp only [columnEntries]; split <;> rfl
  | cons b bufs ih =>
    intro st st' held
    simp only [columnEntries, List.length_append, ih _ (staleAfter m st' held b)]
    congr 1
    simp only [callEntries]
    split
    · exact loop_length ..
    · split
      · rfl
      · simp only [List.length_cons, loop_length]

end BinaryRowIds

section
open Spec BinaryEnc BinaryRowIds

/-- C109, the row ids of binary columns: for a column without nulls, the row ids are the same declared nullable or not if and
only if after completing a block no buffer has another block left (`Spec.Manageable`). -/
theorem C109_binary_row_ids_iff (p : Profile) (m : Nat) (hm : 0 < m) (hm32 : m ≤ U32_MAX)
    (bufs : List (List (Option Bytes))) (hsome : ∀ rows ∈ bufs, none ∉ rows) (hlen : bufs.flatten.length < 2 ^ 32) (bs bs')
    (hb : buildBinary true bufs = .ok bs) (hb' : buildBinary false bufs = .ok bs') (e e' blocks blocks')
    (hrun : encodeColumn p recorder bs (Encoder.new m true, []) = (.ok (), (e, blocks)))
    (hrun' : encodeColumn p recorder bs' (Encoder.new m false, []) = (.ok (), (e', blocks'))) :
    blocks.map (·.1) = blocks'.map (·.1) ↔ Manageable m false [] [] bufs := by
  have h1 := binary_total p true m hm bufs bs hb hlen hm32
  have h2 := binary_total p false m hm bufs bs' hb' hlen hm32
  rw [(h1.2 e blocks hrun).1, (h2.2 e' blocks' hrun').1, ids_counted _ _ 0 (column_length m bufs [] [] [])
    (RowTotal.columnEntries_counted m hm true bufs [] [] (.inl rfl))
    (RowTotal.columnEntries_counted m hm false bufs [] [] (.inl rfl))]
  exact column_counted hm bufs [] [] [] [] (by simp) (by simpa [byteCount, valuesOf] using hm) hsome (h1.1.1 ⟨e, blocks, hrun⟩).1

/-- One block a buffer, and a buffer with two. -/
example : Manageable 2 false [] [] [[some [1]], [some [2]], [some [3, 3]]] ∧
    binaryBlocks .debug true 2 [[some [1]], [some [2]], [some [3, 3]]] =
      some [(1, [2, 1, 2, 1, 1, 3, 3]), (2, [2, 3, 3, 2, 2, 3, 1])] ∧
    binaryBlocks .debug false 2 [[some [1]], [some [2]], [some [3, 3]]] =
      some [(1, [2, 1, 2, 1, 1]), (2, [2, 3, 3, 2, 2])] ∧
    ¬ Manageable 2 false [] [] [[some [1, 1], some [2], some [3]]] := by
  decide +kernel

end
end Meerkat
