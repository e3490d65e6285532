import Verif.Props.AppendReturns
import Verif.Props.Unwind

set_option autoImplicit false

/-! # C85: inverted ranges given to `append_from` -/

namespace Meerkat
open Spec

theorem take_add_flatten {l : List Bytes} {e start : Nat} (h : e ≤ start) :
    (l.take start).flatten.length = (l.take e).flatten.length + ((l.drop e).take (start - e)).flatten.length := by
  have : l.take start = l.take e ++ (l.drop e).take (start - e) := by
    rw [← List.take_append_drop e (l.take start), List.take_take, List.drop_take]
    congr 2; omega
  rw [this]
  simp

/-- C85 for byte strings, exactly: an inverted range is accepted if and only if the overflow checks are off, neither buffer is
nullable, the range is inside the source, and the items in it are empty. The buffer is then unchanged, and the number
of items returned is the length of the range modulo 2^64. -/
theorem C85_inverted_exact (p : Profile) (nd ns : Bool) (ds ss : List (Option Bytes)) (dst src : BinaryBuffer)
    (start e pos : Nat) (hse : e < start) (hmem : (valuesOf ss).length < 2 ^ 63)
    (hd : (BinaryBuffer.new nd).pushAll ds = .ok dst) (hs : (BinaryBuffer.new ns).pushAll ss = .ok src)
    (r : BinaryBuffer × Nat) :
    dst.appendFrom p src start e pos = .ok r ↔
      p = .release ∧ nd = false ∧ ns = false ∧ start ≤ (valuesOf ss).length ∧
      (∀ x ∈ ((valuesOf ss).drop e).take (start - e), x = []) ∧ (valuesOf ds).flatten.length < 2 ^ 32 - 1 ∧
      r = (dst, 2 ^ 64 - (start - e)) := by
  obtain ⟨_, _, rfl⟩ := BinaryBuffer.new_pushAll_ok hd
  obtain ⟨_, _, rfl⟩ := BinaryBuffer.new_pushAll_ok hs
  have hU : U32_MAX = 2 ^ 32 - 1 := rfl
  have ho : (BinaryBuffer.ofRows ns ss).offsets = offsetsOf 0 (valuesOf ss) := rfl
  by_cases hst : start ≤ (valuesOf ss).length
  case neg =>
    have hidx : index (offsetsOf 0 (valuesOf ss)) start = .error .index := by
      simp only [index]; rw [List.getElem?_eq_none (by simp; omega)]
    simp only [BinaryBuffer.appendFrom, ho, hidx, hst, false_and, and_false, iff_false]
    intro h; cases h
  have hx := offsetsOf_get 0 (valuesOf ss) start hst
  have hy := offsetsOf_get 0 (valuesOf ss) e (by omega)
  have hempty : (∀ x ∈ ((valuesOf ss).drop e).take (start - e), x = []) ↔
      (((valuesOf ss).drop e).take (start - e)).flatten.length = 0 := by
    rw [List.length_eq_zero_iff, List.flatten_eq_nil_iff]
  have hlen := take_add_flatten (l := valuesOf ss) (Nat.le_of_lt hse)
  have hn : ¬ start ≤ e := by omega
  simp only [BinaryBuffer.appendFrom, index, ho, hx, hy, ok_bind, Nat.zero_add]
  cases p with
  | debug =>
    simp only [Profile.sub, if_neg hn]
    constructor
    · intro h; cases h
    · rintro ⟨h, _⟩; cases h
  | release =>
    simp only [Profile.sub, if_neg hn, ok_bind, Nat.sub_eq_zero_of_le (Nat.le_of_lt hse), BinaryBuffer.appendFromOffsets, slice]
    have hmod : (e + 2 ^ 64 - start) % 2 ^ 64 = 2 ^ 64 - (start - e) := by
      rw [Nat.mod_eq_of_lt (by omega)]; omega
    by_cases h0 : (((valuesOf ss).drop e).take (start - e)).flatten.length = 0
    case neg =>
      have h1 : ¬ (((valuesOf ss).take start).flatten.length ≤ ((valuesOf ss).take e).flatten.length ∧
          ((valuesOf ss).take e).flatten.length ≤ (BinaryBuffer.ofRows ns ss).data.length) := by omega
      rw [if_neg h1]
      constructor
      · intro h; cases h
      · rintro ⟨_, _, _, _, h, _⟩; exact absurd (hempty.1 h) h0
    have h1 : ((valuesOf ss).take start).flatten.length ≤ ((valuesOf ss).take e).flatten.length ∧
        ((valuesOf ss).take e).flatten.length ≤ (BinaryBuffer.ofRows ns ss).data.length := by
      refine ⟨by omega, ?_⟩
      have : (valuesOf ss).flatten.length = ((valuesOf ss).take e).flatten.length + ((valuesOf ss).drop e).flatten.length := by
        rw [← List.length_append, ← List.flatten_append, List.take_append_drop]
      simp only [BinaryBuffer.ofRows]
      omega
    rw [if_pos h1]
    have hz : ((valuesOf ss).take e).flatten.length - ((valuesOf ss).take start).flatten.length = 0 := by omega
    have hdd : (BinaryBuffer.ofRows nd ds).data = (valuesOf ds).flatten := rfl
    simp only [ok_bind, hz, List.take_zero, List.append_nil, hdd, hmod]
    rw [hempty]
    simp only [h0, hst, true_and]
    by_cases h2 : U32_MAX > (valuesOf ds).flatten.length
    case neg =>
      rw [if_neg h2]
      rw [hU] at h2
      constructor
      · intro h; cases h
      · rintro ⟨_, _, h, _⟩; exact absurd h h2
    rw [if_pos h2]
    rw [hU] at h2
    cases ns with
    | true =>
      have := validityAppendFrom_returns nd true (validityOf ds) ss pos (2 ^ 64 - (start - e))
      have hno : ¬ ∃ r, validityAppendFrom (validityOfBits nd (validityOf ds)) (validityOfBits true (validityOf ss)) pos
          (2 ^ 64 - (start - e)) = .ok r := by
        rw [this]
        rintro ⟨_, h⟩
        have h3 := h rfl
        have h4 : (valuesOf (ss.drop pos)).length ≤ (valuesOf ss).length := by
          have : valuesOf ss = valuesOf (ss.take pos) ++ valuesOf (ss.drop pos) := by
            rw [← valuesOf_append, List.take_append_drop]
          rw [this, List.length_append]; omega
        omega
      simp only [BinaryBuffer.ofRows]
      cases h : validityAppendFrom (validityOfBits nd (validityOf ds)) (validityOfBits true (validityOf ss)) pos
          (2 ^ 64 - (start - e)) with
      | error x => simp
      | ok r => exact absurd ⟨r, h⟩ hno
    | false =>
      cases nd with
      | true => simp [BinaryBuffer.ofRows, validityOfBits, validityAppendFrom]
      | false =>
        simp only [BinaryBuffer.ofRows, validityOfBits, validityAppendFrom, ok_bind, h2, true_and]
        constructor
        · intro h; cases h; rfl
        · rintro rfl; rfl

/-- C98 for inverted ranges of byte strings, exactly: a refused call leaves the bytes and the offsets as they were, and the validity
too, unless the overflow checks are off, both buffers are nullable, the range is inside the source, the items in it are
empty and there is room. Then all rows of the source from the position on have been marked, without any value. -/
theorem C98_binary_inverted_exact (p : Profile) (nd ns : Bool) (ds ss : List (Option Bytes)) (dst src : BinaryBuffer)
    (start e pos : Nat) (hse : e < start) (hd : (BinaryBuffer.new nd).pushAll ds = .ok dst)
    (hs : (BinaryBuffer.new ns).pushAll ss = .ok src) :
    (∀ dst' ret, dst.appendFrom p src start e pos = .ok (dst', ret) →
      src.appendFromRun p start e pos dst = (.ok ret, dst')) ∧
    ∀ x, dst.appendFrom p src start e pos = .error x →
      ∃ left, src.appendFromRun p start e pos dst = (.error (.panic x), left) ∧
      left.data = dst.data ∧ left.offsets = dst.offsets ∧
      (p = .release ∧ nd = true ∧ ns = true ∧ start ≤ (valuesOf ss).length ∧
          (∀ v ∈ ((valuesOf ss).drop e).take (start - e), v = []) ∧ (valuesOf ds).flatten.length < 2 ^ 32 - 1 →
        ValidityShows left.validity true (validityOf ds ++ (validityOf ss).drop pos)) ∧
      (¬ (p = .release ∧ nd = true ∧ ns = true ∧ start ≤ (valuesOf ss).length ∧
          (∀ v ∈ ((valuesOf ss).drop e).take (start - e), v = []) ∧ (valuesOf ds).flatten.length < 2 ^ 32 - 1) →
        left = dst) := by
  obtain ⟨_, _, rfl⟩ := BinaryBuffer.new_pushAll_ok hd
  obtain ⟨_, _, rfl⟩ := BinaryBuffer.new_pushAll_ok hs
  have hends := BinaryBuffer.appendFromRun_ends p (BinaryBuffer.ofRows ns ss) start e pos (BinaryBuffer.ofRows nd ds)
  refine ⟨fun dst' ret h => hends.ok h, fun x h => ?_⟩
  have hrun : ∃ left, (BinaryBuffer.ofRows ns ss).appendFromRun p start e pos (BinaryBuffer.ofRows nd ds) =
      (.error (.panic x), left) := by
    rw [h] at hends; exact hends
  clear h hends
  obtain ⟨left, hrun⟩ := hrun
  refine ⟨left, hrun, ?_⟩
  have hU : U32_MAX = 2 ^ 32 - 1 := rfl
  have ho : (BinaryBuffer.ofRows ns ss).offsets = offsetsOf 0 (valuesOf ss) := rfl
  have hod : (BinaryBuffer.ofRows nd ds).offsets = offsetsOf 0 (valuesOf ds) := rfl
  have hdata : (BinaryBuffer.ofRows ns ss).data = (valuesOf ss).flatten := rfl
  have hdd : (BinaryBuffer.ofRows nd ds).data = (valuesOf ds).flatten := rfl
  -- nothing has changed
  have same : left = BinaryBuffer.ofRows nd ds →
      ¬ (p = .release ∧ nd = true ∧ ns = true ∧ start ≤ (valuesOf ss).length ∧
          (∀ v ∈ ((valuesOf ss).drop e).take (start - e), v = []) ∧ (valuesOf ds).flatten.length < 2 ^ 32 - 1) →
      left.data = (BinaryBuffer.ofRows nd ds).data ∧ left.offsets = (BinaryBuffer.ofRows nd ds).offsets ∧
      (p = .release ∧ nd = true ∧ ns = true ∧ start ≤ (valuesOf ss).length ∧
          (∀ v ∈ ((valuesOf ss).drop e).take (start - e), v = []) ∧ (valuesOf ds).flatten.length < 2 ^ 32 - 1 →
        ValidityShows left.validity true (validityOf ds ++ (validityOf ss).drop pos)) ∧
      (¬ (p = .release ∧ nd = true ∧ ns = true ∧ start ≤ (valuesOf ss).length ∧
          (∀ v ∈ ((valuesOf ss).drop e).take (start - e), v = []) ∧ (valuesOf ds).flatten.length < 2 ^ 32 - 1) →
        left = BinaryBuffer.ofRows nd ds) := fun h1 h2 => ⟨by rw [h1], by rw [h1], fun h => absurd h h2, fun _ => h1⟩
  by_cases hst : start ≤ (valuesOf ss).length
  case neg =>
    have hidx : index (offsetsOf 0 (valuesOf ss)) start = .error .index := by
      simp only [index]; rw [List.getElem?_eq_none (by simp; omega)]
    simp only [BinaryBuffer.appendFromRun, ho, hidx] at hrun
    exact same (Prod.mk.inj hrun).2.symm fun h => hst h.2.2.2.1
  have hx := offsetsOf_get 0 (valuesOf ss) start hst
  have hy := offsetsOf_get 0 (valuesOf ss) e (by omega)
  have hempty : (∀ x ∈ ((valuesOf ss).drop e).take (start - e), x = []) ↔
      (((valuesOf ss).drop e).take (start - e)).flatten.length = 0 := by
    rw [List.length_eq_zero_iff, List.flatten_eq_nil_iff]
  have hlen := take_add_flatten (l := valuesOf ss) (Nat.le_of_lt hse)
  have hn : ¬ start ≤ e := by omega
  simp only [BinaryBuffer.appendFromRun, index, ho, hod, hx, hy, Nat.zero_add, hdata, hdd] at hrun
  cases p with
  | debug =>
    simp only [Profile.sub, if_neg hn] at hrun
    exact same (Prod.mk.inj hrun).2.symm fun h => (nomatch h.1)
  | release =>
    simp only [Profile.sub, if_neg hn, Nat.sub_eq_zero_of_le (Nat.le_of_lt hse), BinaryBuffer.appendFromOffsetsRun, slice] at hrun
    by_cases h0 : (((valuesOf ss).drop e).take (start - e)).flatten.length = 0
    case neg =>
      have h1 : ¬ (((valuesOf ss).take start).flatten.length ≤ ((valuesOf ss).take e).flatten.length ∧
          ((valuesOf ss).take e).flatten.length ≤ (valuesOf ss).flatten.length) := by omega
      rw [if_neg h1] at hrun
      exact same (Prod.mk.inj hrun).2.symm fun h => h0 (hempty.1 h.2.2.2.2.1)
    have h1 : ((valuesOf ss).take start).flatten.length ≤ ((valuesOf ss).take e).flatten.length ∧
        ((valuesOf ss).take e).flatten.length ≤ (valuesOf ss).flatten.length := by
      refine ⟨by omega, ?_⟩
      have : (valuesOf ss).flatten.length = ((valuesOf ss).take e).flatten.length + ((valuesOf ss).drop e).flatten.length := by
        rw [← List.length_append, ← List.flatten_append, List.take_append_drop]
      omega
    have hz : ((valuesOf ss).take e).flatten.length - ((valuesOf ss).take start).flatten.length = 0 := by omega
    rw [if_pos h1] at hrun
    simp only [hz, List.take_zero, List.append_nil] at hrun
    by_cases hroom : (valuesOf ds).flatten.length < 2 ^ 32 - 1
    case neg =>
      rw [if_neg (by omega)] at hrun
      exact same (Prod.mk.inj hrun).2.symm fun h => hroom h.2.2.2.2.2
    rw [if_pos (by omega)] at hrun
    generalize (e + 2 ^ 64 - start) % 2 ^ 64 = num at hrun
    rcases hv : validityAppendFromRun (BinaryBuffer.ofRows ns ss).validity pos num
      (BinaryBuffer.ofRows nd ds).validity with ⟨r, v⟩
    rw [hv] at hrun
    simp only [Prod.mk.injEq] at hrun
    obtain ⟨rfl, rfl⟩ := hrun
    have := Unwind.validity_left nd ns (validityOf ds) (validityOf ss) pos num _ v hv
    subst this
    refine ⟨rfl, rfl, fun h => ?_, fun h => ?_⟩
    · obtain ⟨_, rfl, rfl, _⟩ := h
      exact validityShows_ofBits _ _
    · have hb : (nd && ns) = false := by
        rcases nd with _ | _ <;> rcases ns with _ | _ <;> try rfl
        exact absurd ⟨rfl, rfl, rfl, hst, hempty.2 h0, hroom⟩ h
      simp only [hb, BinaryBuffer.ofRows]
      simp

/-- C85 is false of the code: without overflow checks the range from 1 to 0 of a buffer with an empty item is accepted. -/
theorem C85_inverted_violated :
    ¬ ∀ (p : Profile) (nd ns : Bool) (ds ss : List (Option Bytes)) (dst src : BinaryBuffer) (start e pos : Nat),
      e < start → (BinaryBuffer.new nd).pushAll ds = .ok dst → (BinaryBuffer.new ns).pushAll ss = .ok src →
      ∃ x, dst.appendFrom p src start e pos = .error x := by
  intro h
  obtain ⟨x, hx⟩ := h .release false false [some [7]] [some []] _ _ 1 0 0 (by decide) rfl rfl
  cases hx

/-- C85 for primitive values: an inverted range is never accepted. -/
theorem C85_primitive_partial {α : Type} (nd ns : Bool) (ds ss : List (Option α)) (dst src : PrimitiveBuffer α)
    (start e pos : Nat) (hse : e < start) (hd : (PrimitiveBuffer.new nd).pushAll ds = .ok dst)
    (hs : (PrimitiveBuffer.new ns).pushAll ss = .ok src) : ∃ x, dst.appendFrom src start e pos = .error x := by
  cases h : dst.appendFrom src start e pos with
  | error x => exact ⟨x, rfl⟩
  | ok r =>
    have := ((C10_append_from_returns nd ns ds ss dst src start e pos hd hs).1 ⟨r, h⟩).1
    omega

/-- What the accepted call returns: the buffer as it was, and 2^64 - 1 as the number of items. -/
example : ∃ dst src, (BinaryBuffer.new false).pushAll [some [7]] = .ok dst ∧
    (BinaryBuffer.new false).pushAll [some []] = .ok src ∧
    dst.appendFrom .release src 1 0 0 = .ok (dst, 2 ^ 64 - 1) ∧ dst.appendFrom .debug src 1 0 0 = .error .overflow :=
  ⟨_, _, rfl, rfl, rfl, rfl⟩

/-- A refused call with both buffers nullable: the row of the source is marked in the destination, which has no value for it. -/
example :
    let run := fun p : Profile => do
      let dst ← (BinaryBuffer.new true).pushAll [some [7]]
      let src ← (BinaryBuffer.new true).pushAll [some []]
      let (r, left) := src.appendFromRun p 1 0 0 dst
      return (r.toOption, left.len, left.numValues, decide (left = dst))
    (run .release).toOption = some (none, 1, 2, false) ∧ (run .debug).toOption = some (none, 1, 1, true) := by
  decide +kernel

end Meerkat
