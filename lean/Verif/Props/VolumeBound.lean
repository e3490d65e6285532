import Verif.Props.BinaryWritten
import Verif.Props.BlockSizes

set_option autoImplicit false

/-! # C70: how far binary columns cannot exceed the bound -/

namespace Meerkat
open Spec

namespace BinaryEnc

theorem loopEntries_nonempty (m : Nat) (hm : 0 < m) (nullable : Bool) (rows : List (Option Bytes)) : ∀ (n pos : Nat),
    ∀ x ∈ loopEntries m nullable rows n pos, x.items ≠ [] := by
  intro n
  induction n with
  | zero => intro pos x hx; cases hx
  | succ n ih =>
    intro pos x hx
    rw [loopEntries] at hx
    cases hf : fill m ((valuesOf rows).drop pos) with
    | none => rw [hf] at hx; cases hx
    | some j =>
      rw [hf] at hx
      simp only at hx
      split at hx
      · rename_i hc
        rcases List.mem_cons.mp hx with rfl | hx
        · have h1 := (fill_some hf).1
          have h2 := fill_pos hf hm
          intro h
          have h3 := congrArg List.length h
          simp only [List.length_take, List.length_nil] at h3
          omega
        · exact ih j x hx
      · cases hx

theorem heldRows_ends (m : Nat) (held rows : List (Option Bytes)) (h : EndsWithValue held) :
    EndsWithValue (heldRows m held rows) := by
  simp only [heldRows]
  split
  · exact dropTrailingNulls_ends _
  · split
    · rcases dropTrailingNulls_ends rows with h1 | ⟨v, h1⟩
      · rw [h1, List.append_nil]; exact h
      · right; exact ⟨v, by rw [List.getLast?_append, h1]; rfl⟩
    · exact dropTrailingNulls_ends _

theorem columnEntries_nonempty (m : Nat) (hm : 0 < m) (nullable : Bool) (bufs : List (List (Option Bytes))) :
    ∀ (stale : List Bool) (held : List (Option Bytes)), EndsWithValue held →
    ∀ x ∈ columnEntries m nullable stale held bufs, x.items ≠ [] := by
  induction bufs with
  | nil =>
    intro stale held _ x hx
    rw [columnEntries] at hx
    split at hx
    · cases hx
    · rename_i h
      rw [List.mem_singleton] at hx
      subst hx
      exact h
  | cons b bufs ih =>
    intro stale held hhe x hx
    rw [columnEntries] at hx
    rcases List.mem_append.mp hx with hx | hx
    · simp only [callEntries] at hx
      split at hx
      · exact loopEntries_nonempty m hm nullable b _ _ x hx
      · rename_i h0
        split at hx
        · cases hx
        · rcases List.mem_cons.mp hx with rfl | hx
          · intro h
            simp only [wholeEntry, valuesOf_append] at h
            have h1 := (List.append_eq_nil_iff.mp h).1
            exact h0 ((ends_nil_iff hhe).mp (by rw [h1]; rfl))
          · exact loopEntries_nonempty m hm nullable b _ _ x hx
    · exact ih _ _ (heldRows_ends m held b hhe) x hx

theorem length_le_items (xs : List Entry) (h : ∀ x ∈ xs, x.items ≠ []) : xs.length ≤ (xs.flatMap (·.items)).length := by
  induction xs with
  | nil => exact Nat.le_refl _
  | cons x xs ih =>
    have h1 := List.length_pos_iff.2 (h x (by simp))
    have h2 := ih fun y hy => h y (by simp [hy])
    simp only [List.length_cons, List.flatMap_cons, List.length_append]
    omega

end BinaryEnc

open BinaryEnc

/-- C70 for any binary column: whenever the calls return there are at most as many blocks as values, and so at most that many times
the block size and the longest value in data bytes. (The columns of `C70_binary_overhead_amplified` have at least half as many
blocks as values.) -/
theorem C70_binary_overhead_bounded (p q : Profile) (nullable : Bool) (m : Nat) (hm : 0 < m)
    (bufs : List (List (Option Bytes))) (bs) (hb : buildBinary nullable bufs = .ok bs)
    (hlen : bufs.flatten.length < 2 ^ 32 - 7) (hm32 : m ≤ U32_MAX) (L : Nat) (hL : ∀ v ∈ valuesOf bufs.flatten, v.length ≤ L)
    (e blocks) (hrun : encodeColumn p recorder bs (Encoder.new m nullable, []) = (.ok (), (e, blocks))) :
    blocks.length ≤ (valuesOf bufs.flatten).length ∧
      ∃ datas, (blocks.map (·.2)).mapM (blockData q) = some datas ∧
        datas.flatten.length ≤ (valuesOf bufs.flatten).length * (m + L - 1) := by
  obtain ⟨⟨h1, h2, h3⟩, h4⟩ := C32_binary_blocks_exact p q nullable m hm bufs bs hb hlen hm32 e blocks hrun
  have h5 := length_le_items _ (columnEntries_nonempty m hm nullable bufs [] [] (.inl rfl))
  rw [h4, ← h2] at h5
  refine ⟨h5, ?_⟩
  have hU : U32_MAX = 2 ^ 32 - 1 := rfl
  have h6 := (C66_binary_sizes p q nullable m hm (by omega) bufs bs hb (by omega) L hL _ e blocks hrun).1
  have h7 : ∃ datas, (blocks.map (·.2)).mapM (blockData q) = some datas ∧ datas.flatten.length ≤ blocks.length * (m + L - 1) := by
    clear h1 h2 h3 h4 h5 hrun
    induction blocks with
    | nil => exact ⟨[], rfl, Nat.zero_le _⟩
    | cons x blocks ih =>
      obtain ⟨d, g1, g2⟩ := h6 x (by simp)
      obtain ⟨ds, g3, g4⟩ := ih fun y hy => h6 y (by simp [hy])
      refine ⟨d :: ds, ?_, ?_⟩
      · rw [List.map_cons, List.mapM_cons, g1, g3]; rfl
      · rw [List.flatten_cons, List.length_append, List.length_cons, Nat.succ_mul]
        omega
  obtain ⟨datas, g1, g2⟩ := h7
  exact ⟨datas, g1, Nat.le_trans g2 (Nat.mul_le_mul_right _ h5)⟩

/-- The bound on the number of blocks is reached: one value a block. -/
example :
    let r := do
      let b ← (BinaryBuffer.new false).pushAll [some [1, 2]]
      let c ← (BinaryBuffer.new false).pushAll [some [3, 4]]
      return (BinaryEnc.encodeColumn .debug recorder [b, c] (BinaryEnc.Encoder.new 2 false, [])).2.2
    r.toOption = some [(0, [2, 1, 2, 2, 2]), (1, [2, 3, 4, 2, 2])] := by
  decide +kernel

end Meerkat
