import Verif.Proofs.BinaryWritten
import Verif.Props.BinaryEnc

set_option autoImplicit false

/-! # C33, exactly: which binary columns are encoded without a panic -/

namespace Meerkat
section
open Spec BinaryEnc

theorem holds_new (nullable : Bool) (m : Nat) : Holds nullable [] (Encoder.new m nullable).remaining [] := by
  have h := holds_ofRows nullable []
  rw [← BinaryBuffer.new_eq] at h
  exact h

theorem total_start {nullable : Bool} {m : Nat} {bufs : List (List (Option Bytes))} {A : Prop}
    {r : Except Fault Unit × (Encoder × List (Nat × Bytes))}
    (h : A ∧ ∀ (e' : Encoder) (l' : List (Nat × Bytes)), r = (.ok (), (e', l')) →
      l' = [] ++ entryBlocks nullable (Encoder.new m nullable).numRows (columnEntries m nullable [] [] bufs) ∧
      ∀ x ∈ columnEntries m nullable [] [] bufs, Sound (([] : List (Option Bytes)).length + bufs.flatten.length) x) :
    A ∧ ∀ (e' : Encoder) (l' : List (Nat × Bytes)), r = (.ok (), (e', l')) →
      l' = entryBlocks nullable 0 (columnEntries m nullable [] [] bufs) ∧
      ∀ x ∈ columnEntries m nullable [] [] bufs, Sound bufs.flatten.length x := by
  refine ⟨h.1, fun e' l' hr => ?_⟩
  obtain ⟨h1, h2⟩ := h.2 e' l' hr
  exact ⟨h1, fun x hx => (h2 x hx).mono (by simp)⟩

/-- Whether the calls return, and what has been written then. -/
theorem binary_total (p : Profile) (nullable : Bool) (m : Nat) (hm : 0 < m)
    (bufs : List (List (Option Bytes))) (bs) (hb : buildBinary nullable bufs = .ok bs)
    (hlen : bufs.flatten.length < 2 ^ 32) (hm32 : m ≤ U32_MAX) :
    ((∃ e blocks, encodeColumn p recorder bs (Encoder.new m nullable, []) = (.ok (), (e, blocks))) ↔
      Completes m [] (bufs.map valuesOf) ∧ ((columnEntries m nullable [] [] bufs).map (·.counted)).sum < 2 ^ 32) ∧
    (∀ e blocks, encodeColumn p recorder bs (Encoder.new m nullable, []) = (.ok (), (e, blocks)) →
      blocks = entryBlocks nullable 0 (columnEntries m nullable [] [] bufs) ∧
      ∀ x ∈ columnEntries m nullable [] [] bufs, Sound bufs.flatten.length x) := by
  obtain ⟨hA, hD, rfl⟩ := buildBinary_ok hb
  have h := total_start (encodeColumn_total p nullable m hm hm32 bufs [] [] (Encoder.new m nullable) [] rfl
    (holds_new nullable m) (.inl rfl) hm (by cases nullable <;> simp [Accepts]) hA hD (by simpa using hlen)
    (by show 0 < 2 ^ 32; omega))
  have h0 : (Encoder.new m nullable).numRows = 0 := rfl
  rw [h0, Nat.zero_add] at h
  exact h

/-- C33, exactly, in both build profiles: the calls return if and only if in every buffer the loop comes to an end without a
block of no items or of more than 128, and no block completed from rows held back has too many bytes for a buffer filled from
another (`Spec.Completes`; nulls do not matter) and the rows counted for the blocks
(`Spec.columnEntries`) are less than 2^32. For columns that are not nullable the latter is always so. -/
theorem C33_binary_completes_exact (p : Profile) (nullable : Bool) (m : Nat) (hm : 0 < m)
    (bufs : List (List (Option Bytes))) (bs) (hb : buildBinary nullable bufs = .ok bs)
    (hlen : bufs.flatten.length < 2 ^ 32) (hm32 : m ≤ U32_MAX) :
    ((∃ e blocks, encodeColumn p recorder bs (Encoder.new m nullable, []) = (.ok (), (e, blocks))) ↔
      Completes m [] (bufs.map valuesOf) ∧ ((columnEntries m nullable [] [] bufs).map (·.counted)).sum < 2 ^ 32) ∧
    (nullable = false →
      ((∃ e blocks, encodeColumn p recorder bs (Encoder.new m nullable, []) = (.ok (), (e, blocks))) ↔
        Completes m [] (bufs.map valuesOf))) := by
  have h := (binary_total p nullable m hm bufs bs hb hlen hm32).1
  refine ⟨h, fun hn => h.trans ⟨And.left, fun hc => ⟨hc, ?_⟩⟩⟩
  subst hn
  have hn : ∀ b ∈ bufs, none ∉ b := fun b hbm => by
    rcases (buildBinary_ok hb).1 b hbm with h | h
    · cases h
    · exact h
  rw [List.map_congr_left (g := fun x => x.items.length) (columnEntries_counted m bufs [] [] (by simp) hn)]
  have h1 := columnEntries_items m false bufs [] [] (.inl rfl) hc
  have h2 : ((columnEntries m false [] [] bufs).map (fun x => x.items.length)).sum = (valuesOf bufs.flatten).length := by
    rw [List.flatMap_def] at h1
    have := congrArg List.length h1
    rw [List.length_flatten, List.map_map] at this
    simpa [Function.comp_def] using this
  rw [h2]
  have := valuesOf_length_le bufs.flatten
  omega

/-- Two byte strings of a block each at the start of a buffer, whatever follows them. -/
theorem completes_two_large {m : Nat} (hm : 0 < m) (v w : Bytes) (vs : List Bytes) (hv : m ≤ v.length) (hw : m ≤ w.length)
    (bufs : List (List Bytes)) : ¬ Completes m [] ((v :: w :: vs) :: bufs) := by
  have h1 : ∀ (x : Bytes) (xs : List Bytes), m ≤ x.length → fill m (x :: xs) = some 1 := by
    intro x xs hx
    cases m with
    | zero => omega
    | succ m => simp only [fill]; rw [Nat.sub_eq_zero_of_le hx]; cases xs <;> rfl
  have h2 : loopEnd m (v :: w :: vs) ((v :: w :: vs).length + 2) 0 = none := by
    rw [loopEnd, List.drop_zero, h1 v _ hv]
    simp only [if_pos (show 0 < 1 ∧ 1 - 0 ≤ 128 by omega)]
    rw [List.length_cons, loopEnd, List.drop_succ_cons, List.drop_zero, h1 w _ hw]
    simp only [if_neg (show ¬ (1 < 1 ∧ 1 - 1 ≤ 128) by omega)]
  simp only [Completes, heldAfter, if_true, h2, Option.map_none, not_false_eq_true]

/-- C33 fails for every first buffer that begins with two byte strings of the size of a block or more (nulls aside), whatever
follows, in both build profiles. -/
theorem C33_binary_two_large_violated (p : Profile) (nullable : Bool) (m : Nat) (hm : 0 < m) (first : List (Option Bytes))
    (v w : Bytes) (vs : List Bytes) (hvs : valuesOf first = v :: w :: vs) (hv : m ≤ v.length) (hw : m ≤ w.length)
    (bufs : List (List (Option Bytes))) (bs) (hb : buildBinary nullable (first :: bufs) = .ok bs)
    (hlen : (first :: bufs).flatten.length < 2 ^ 32)
    (hm32 : m ≤ U32_MAX) :
    ∃ f s, encodeColumn p recorder bs (Encoder.new m nullable, []) = (.error f, s) := by
  have h := (C33_binary_completes_exact p nullable m hm (first :: bufs) bs hb hlen hm32).1
  rw [List.map_cons, hvs] at h
  rcases hr : encodeColumn p recorder bs (Encoder.new m nullable, []) with ⟨f | u, s⟩
  · exact ⟨f, s, rfl⟩
  · exact absurd (h.mp ⟨s.1, s.2, hr⟩).1 (completes_two_large hm v w vs hv hw _)

/-- C33 fails, too, for a byte string near the limit of a buffer that comes after any item held back, although a column of that
byte string alone is encoded. -/
theorem C33_leftover_full_violated (p : Profile) (nullable : Bool) (m : Nat) (hm32 : m ≤ U32_MAX) (u v : Bytes)
    (hu : u.length < m) (hv : v.length ≤ U32_MAX) (hfull : U32_MAX ≤ u.length + v.length) :
    (∃ bs, buildBinary nullable [[some u], [some v]] = .ok bs ∧
      ∃ f s, encodeColumn p recorder bs (Encoder.new m nullable, []) = (.error f, s)) ∧
    (∃ bs, buildBinary nullable [[some v]] = .ok bs ∧
      ∃ e blocks, encodeColumn p recorder bs (Encoder.new m nullable, []) = (.ok (), (e, blocks))) := by
  have hU : U32_MAX = 2 ^ 32 - 1 := rfl
  have fillOne : ∀ (k : Nat) (x : Bytes), fill k [x] = if k = 0 then some 0 else if k ≤ x.length then some 1 else none := by
    intro k x
    cases k with
    | zero => rfl
    | succ k =>
      rw [fill, if_neg (by omega)]
      by_cases h : k + 1 ≤ x.length
      · rw [if_pos h, Nat.sub_eq_zero_of_le h]; rfl
      · rw [if_neg h]
        obtain ⟨n, hn⟩ : ∃ n, k + 1 - x.length = n + 1 := ⟨k - x.length, by omega⟩
        rw [hn]; rfl
  constructor
  · refine ⟨_, buildBinary_of_accepts (by cases nullable <;> simp [Accepts]) (by
      intro b hb
      simp only [List.mem_cons, List.not_mem_nil, or_false] at hb
      rcases hb with rfl | rfl <;> simp [byteCount, valuesOf] <;> omega), ?_⟩
    have h := (C33_binary_completes_exact p nullable m (by omega) [[some u], [some v]] _
      (buildBinary_of_accepts (by cases nullable <;> simp [Accepts]) (by
        intro b hb
        simp only [List.mem_cons, List.not_mem_nil, or_false] at hb
        rcases hb with rfl | rfl <;> simp [byteCount, valuesOf] <;> omega)) (by simp) hm32).1
    rcases hr : encodeColumn p recorder ([[some u], [some v]].map (BinaryBuffer.ofRows nullable)) (Encoder.new m nullable, []) with ⟨f | x, s⟩
    · exact ⟨f, s, rfl⟩
    · refine absurd (h.mp ⟨s.1, s.2, hr⟩).1 ?_
      have h1 : heldAfter m [] [u] = some [u] := by
        simp only [heldAfter, if_true, loopEnd, List.drop_zero, fillOne, if_neg (show ¬ m = 0 by omega),
          if_neg (show ¬ m ≤ u.length by omega), Option.map_some]
      have h2 : heldAfter m [u] [v] = none := by
        have hlu : [u].flatten.length = u.length := by simp
        have hj : fill (m - u.length) [v] = some 1 := by
          rw [fillOne, if_neg (by omega), if_pos (by omega)]
        have hf : ¬ ([u] ++ [v].take 1).flatten.length < 2 ^ 32 - 1 := by
          simp; omega
        simp only [heldAfter, if_neg (show ¬ [u] = [] by simp), hlu, hj, if_neg (fun h => hf (And.right h))]
      simp only [List.map_cons, List.map_nil, valuesOf, List.filterMap_cons, List.filterMap_nil, id, Completes, h1, h2, not_false_eq_true]
  · have hb := buildBinary_of_accepts (nullable := nullable) (bufs := [[some v]]) (by cases nullable <;> simp [Accepts])
      (by simp [byteCount, valuesOf]; omega)
    refine ⟨_, hb, ?_⟩
    refine C33_binary_completes_partial p nullable m (by omega) [[some v]] _ hb (by simp) hm32 ?_
    have hst : (fillStep m [] [some v] = ([[some v]], []) ∧ m ≤ v.length) ∨ fillStep m [] [some v] = ([], [some v]) := by
      have hb0 : byteCount [] = 0 := rfl
      have hvv : valuesOf [some v] = [v] := rfl
      simp only [fillStep, hb0, Nat.sub_zero, hvv, fillOne, if_neg (show ¬ m = 0 by omega)]
      by_cases h : m ≤ v.length
      · left; rw [if_pos h]; exact ⟨by simp [takeVals, dropTrailingNulls], h⟩
      · right; rw [if_neg h]; simp [dropTrailingNulls]
    rcases hst with ⟨hst, _⟩ | hst
    · simp only [Manageable, hst, GroupFits]
      refine ⟨fun _ => by simp [byteCount, valuesOf]; omega, by simp [valuesOf], by simp, by simp [valuesOf],
        by simp [seenBits, validityOf]⟩
    · simp only [Manageable, hst, nextStale]
      refine ⟨by simp, by simp, by simp, by simp [valuesOf], by simp [seenBits, validityOf, orBits]⟩

/-- The hypotheses hold of one byte held back and a byte string of the largest length, in blocks of the segment writer. -/
example : (([1] : Bytes).length < 128) ∧ (List.replicate U32_MAX (0 : UInt8)).length ≤ U32_MAX ∧
    U32_MAX ≤ ([1] : Bytes).length + (List.replicate U32_MAX (0 : UInt8)).length := by
  simp only [List.length_replicate]; exact ⟨by decide, Nat.le_refl _, by omega⟩

/-- A history that completes although its blocks are wrong: the third item is reached by counting from the second. -/
example : Completes 2 [] [[[1, 1], [2], [3]]] ∧ ¬ Manageable 2 false [] [] [[some [1, 1], some [2], some [3]]] := by
  decide +kernel

/-- One that does not: the second block ends at the item where it starts. -/
example : ¬ Completes 4 [] [[[1, 2, 3, 4], [5, 6, 7, 8]]] := by decide +kernel

/-- Held back items are completed by the next buffer. -/
example : Completes 4 [] [[[1, 2]], [[3, 4, 5], [6]]] := by decide +kernel

end
end Meerkat
