import Verif.Proofs.WithValidity
import Verif.Props.PrimitiveExact
import Verif.Props.BinaryEnc

set_option autoImplicit false

/-!
# C109: a nullable column is the column of its values, and the validity

`Spec.withoutNulls bufs` are the same buffers without their nulls; for a column that has no nulls it is the column itself.
-/

namespace Meerkat
open Spec

theorem Spec.withoutNulls_same {α : Type} (bufs : List (List (Option α))) (h : ∀ rows ∈ bufs, none ∉ rows) :
    withoutNulls bufs = bufs := by
  unfold withoutNulls
  conv => rhs; rw [← List.map_id bufs]
  refine List.map_congr_left fun rows hr => ?_
  simp only [id]
  rw [List.filter_eq_self]
  intro x hx
  cases x with
  | none => exact absurd hx (h rows hr)
  | some v => rfl

section
open PrimitiveEnc
variable {α : Type} [Element α]

omit [Element α] in
theorem PrimitiveEnc.pushAll_without (full : Bool) (rows : List (Option α)) (hf : full = true → none ∉ rows) :
    ∀ b b' c : PrimitiveBuffer α, BufV full b b' →
    b.pushAll rows = .ok c → ∃ c', b'.pushAll (rows.filter Option.isSome) = .ok c' ∧ BufV full c c' := by
  induction rows with
  | nil => intro b b' c h hc; cases hc; exact ⟨b', rfl, h⟩
  | cons x rows ih =>
    intro b b' c h hc
    have ih := ih fun h1 h2 => hf h1 (by simp [h2])
    simp only [PrimitiveBuffer.pushAll, List.foldlM_cons] at hc
    obtain ⟨b1, h1, hc⟩ := ResI.inv hc
    cases x with
    | none =>
      obtain ⟨v, _, h1⟩ := ResI.inv h1
      cases h1
      exact ih { b with validity := v } b' c ⟨h.values, h.none, fun h => absurd (by simp) (hf h)⟩ hc
    | some v =>
      obtain ⟨w, hw, h1⟩ := ResI.inv h1
      cases h1
      obtain ⟨c', h2, h3⟩ := ih _ { values := b'.values ++ [v], validity := none } c
        ⟨by simp only [h.values], rfl, fun hf => (h.all hf).appendTrue hw⟩ hc
      refine ⟨c', ?_, h3⟩
      simp only [List.filter_cons, Option.isSome_some, if_true, PrimitiveBuffer.pushAll, List.foldlM_cons]
      simp only [PrimitiveBuffer.push, PrimitiveBuffer.append, h.none, validityAppendTrue, ok_bind, pure_eq_ok]
      exact h2

omit [Element α] in
theorem PrimitiveEnc.buildAll_without (full nullable : Bool) (bufs : List (List (Option α)))
    (hf : full = true → ∀ rows ∈ bufs, none ∉ rows) : ∀ bs, buildAll nullable bufs = .ok bs →
    ∃ bs', buildAll false (withoutNulls bufs) = .ok bs' ∧ Matched (BufV full) bs bs' := by
  induction bufs with
  | nil => intro bs h; cases h; exact ⟨[], rfl, .nil⟩
  | cons rows bufs ih =>
    intro bs h
    simp only [buildAll, List.mapM_cons] at h
    obtain ⟨b, h1, h⟩ := ResI.inv h
    obtain ⟨bs2, h2, h⟩ := ResI.inv h
    cases h
    obtain ⟨b', h3, h4⟩ := PrimitiveEnc.pushAll_without full rows (fun h => hf h rows (by simp))
      (.new nullable) (.new false) b ⟨rfl, rfl, fun _ => AllSet.ofNew nullable⟩ h1
    obtain ⟨bs', h5, h6⟩ := ih (fun h r hr => hf h r (by simp [hr])) bs2 h2
    refine ⟨b' :: bs', ?_, .cons h4 h6⟩
    simp only [buildAll, withoutNulls] at h5
    simp only [buildAll, withoutNulls, List.map_cons, List.mapM_cons, h3, h5, ok_bind, pure_eq_ok]

/-- C109 as far as it holds, primitive encoder: when the calls for a nullable column return, those for the column of its values
return too, and there are as many blocks; each has the bytes of the other one, followed by the validity, and no smaller a row id. -/
theorem C109_primitive_with_validity_partial (p : Profile) (m : Nat) (hm : 0 < m) (bufs : List (List (Option α))) (bs)
    (hb : buildAll true bufs = .ok bs) (e blocks)
    (hrun : encodeColumn p recorder bs (Encoder.new m true, []) = (.ok (), (e, blocks))) :
    ∃ bs' e' blocks', buildAll false (withoutNulls bufs) = .ok bs' ∧
      encodeColumn p recorder bs' (Encoder.new m false, []) = (.ok (), (e', blocks')) ∧
      Matched (WithValidity false) blocks blocks' := by
  obtain ⟨bs', h1, h2⟩ := PrimitiveEnc.buildAll_without false true bufs (nomatch ·) bs hb
  obtain ⟨_, ⟨e', blocks'⟩, h3, _, h4⟩ := encodeColumn_without m hm p h2 (Encoder.new m true, []) (Encoder.new m false, [])
    ⟨⟨⟨rfl, rfl, (nomatch ·)⟩, rfl, rfl, Nat.le_refl _⟩, .nil⟩ () _ hrun
  exact ⟨bs', e', blocks', h1, h3, h4.2⟩

omit [Element α] in
theorem PrimitiveEnc.ends_of_no_nulls {bufs : List (List (Option α))} (h : ∀ rows ∈ bufs, none ∉ rows) :
    ∀ b ∈ bufs, b = [] ∨ ∃ l v, b = l ++ [some v] := by
  intro b hb
  rcases List.eq_nil_or_concat b with hn | ⟨l, x, hl⟩
  · exact .inl hn
  · subst hl
    cases x with
    | none => exact absurd (by simp) (h _ hb)
    | some v => exact .inr ⟨l, v, by simp⟩

/-- C109, the row ids: for a column without nulls, all of whose values are written (C26), the row ids are the same declared
nullable or not if and only if no buffer has the values of two blocks. -/
theorem C109_primitive_row_ids_iff (p : Profile) (m : Nat) (hm : 0 < m) (hm64 : m < 2 ^ 64)
    (hd : Element.size α ∣ m ∨ p = .debug) (bufs : List (List (Option α))) (hsome : ∀ rows ∈ bufs, none ∉ rows)
    (hlen : rowCount bufs < 2 ^ 32 - 8)
    (hkept : kept ((m + Element.size α - 1) / Element.size α) (bufs.map fun b => (valuesOf b).length) =
        (bufs.map fun b => (valuesOf b).length).sum) (bs bs')
    (hb : buildAll true bufs = .ok bs) (hb' : buildAll false bufs = .ok bs') (e e' blocks blocks')
    (hrun : encodeColumn p recorder bs (Encoder.new m true, []) = (.ok (), (e, blocks)))
    (hrun' : encodeColumn p recorder bs' (Encoder.new m false, []) = (.ok (), (e', blocks'))) :
    blocks.map (·.1) = blocks'.map (·.1) ↔
      ∀ b ∈ bufs, (valuesOf b).length < 2 * ((m + Element.size α - 1) / Element.size α) := by
  have hends := PrimitiveEnc.ends_of_no_nulls hsome
  have h1 := C28_primitive_row_ids_iff p .debug true m hm hm64 hd bufs bs hb hlen e blocks hrun
  have h2 := (C28_primitive_row_ids_iff p .debug false m hm hm64 hd bufs bs' hb' hlen e' blocks' hrun').2
    ⟨hkept, hends, fun h => by cases h⟩
  obtain ⟨g', hr', hf', hi'⟩ := h2
  have hA := (buildAll_ok hb).1
  have hA' := (buildAll_ok hb').1
  have hr := run_read (α := α) .debug (nullable := true) hm hA hlen
  have hrr := run_read (α := α) .debug (nullable := false) hm hA' hlen
  rw [← run_blocks hm hm64 hd hb hlen hrun] at hr
  rw [← run_blocks hm hm64 hd hb' hlen hrun', hr'] at hrr
  rw [← hrr] at hr
  constructor
  · intro h
    exact (h1.1 ⟨g', hr, hf', by rw [h, hi']⟩).2.2 rfl
  · intro h
    obtain ⟨g, hg, _, hi⟩ := h1.2 ⟨hkept, hends, fun _ => h⟩
    rw [hr] at hg
    cases hg
    rw [hi, hi']

end

section
open BinaryEnc

theorem BinaryEnc.pushAll_without (full : Bool) (rows : List (Option Bytes)) (hf : full = true → none ∉ rows) :
    ∀ b b' c : BinaryBuffer, BufV full b b' →
    b.pushAll rows = .ok c → ∃ c', b'.pushAll (rows.filter Option.isSome) = .ok c' ∧ BufV full c c' := by
  induction rows with
  | nil => intro b b' c h hc; cases hc; exact ⟨b', rfl, h⟩
  | cons x rows ih =>
    intro b b' c h hc
    have ih := ih fun h1 h2 => hf h1 (by simp [h2])
    simp only [BinaryBuffer.pushAll, List.foldlM_cons] at hc
    obtain ⟨b1, h1, hc⟩ := ResI.inv hc
    cases x with
    | none =>
      obtain ⟨v, _, h1⟩ := ResI.inv h1
      cases h1
      exact ih { b with validity := v } b' c ⟨h.data, h.offsets, h.none, fun h => absurd (by simp) (hf h)⟩ hc
    | some v =>
      simp only [BinaryBuffer.push, BinaryBuffer.append] at h1
      split at h1
      · rename_i hle
        obtain ⟨w, hw, h1⟩ := ResI.inv h1
        cases h1
        obtain ⟨c', h2, h3⟩ := ih _ { data := b'.data ++ v, offsets := b'.offsets ++ [(b'.data ++ v).length], validity := none } c
          ⟨by simp only [h.data], by simp only [h.data, h.offsets], rfl, fun hf => (h.all hf).appendTrue hw⟩ hc
        refine ⟨c', ?_, h3⟩
        rw [h.data] at hle
        simp only [List.filter_cons, Option.isSome_some, if_true, BinaryBuffer.pushAll, List.foldlM_cons]
        simp only [BinaryBuffer.push, BinaryBuffer.append, h.none, validityAppendTrue, if_pos hle, ok_bind, pure_eq_ok]
        exact h2
      · cases h1

theorem BinaryEnc.buildBinary_without (full nullable : Bool) (bufs : List (List (Option Bytes)))
    (hf : full = true → ∀ rows ∈ bufs, none ∉ rows) : ∀ bs, buildBinary nullable bufs = .ok bs →
    ∃ bs', buildBinary false (withoutNulls bufs) = .ok bs' ∧ Matched (BufV full) bs bs' := by
  induction bufs with
  | nil => intro bs h; cases h; exact ⟨[], rfl, .nil⟩
  | cons rows bufs ih =>
    intro bs h
    simp only [buildBinary, List.mapM_cons] at h
    obtain ⟨b, h1, h⟩ := ResI.inv h
    obtain ⟨bs2, h2, h⟩ := ResI.inv h
    cases h
    obtain ⟨b', h3, h4⟩ := BinaryEnc.pushAll_without full rows (fun h => hf h rows (by simp))
      (.new nullable) (.new false) b ⟨rfl, rfl, rfl, fun _ => AllSet.ofNew nullable⟩ h1
    obtain ⟨bs', h5, h6⟩ := ih (fun h r hr => hf h r (by simp [hr])) bs2 h2
    refine ⟨b' :: bs', ?_, .cons h4 h6⟩
    simp only [buildBinary, withoutNulls] at h5
    simp only [buildBinary, withoutNulls, List.map_cons, List.mapM_cons, h3, h5, ok_bind, pure_eq_ok]

/-- C109 as far as it holds, binary encoder. -/
theorem C109_binary_with_validity_partial (p : Profile) (m : Nat) (hm : 0 < m) (bufs : List (List (Option Bytes))) (bs)
    (hb : buildBinary true bufs = .ok bs) (e blocks)
    (hrun : encodeColumn p recorder bs (Encoder.new m true, []) = (.ok (), (e, blocks))) :
    ∃ bs' e' blocks', buildBinary false (withoutNulls bufs) = .ok bs' ∧
      encodeColumn p recorder bs' (Encoder.new m false, []) = (.ok (), (e', blocks')) ∧
      Matched (WithValidity false) blocks blocks' := by
  obtain ⟨bs', h1, h2⟩ := BinaryEnc.buildBinary_without false true bufs (nomatch ·) bs hb
  obtain ⟨_, ⟨e', blocks'⟩, h3, _, h4⟩ := encodeColumn_without m hm p h2 (Encoder.new m true, []) (Encoder.new m false, [])
    ⟨⟨⟨rfl, rfl, rfl, (nomatch ·)⟩, rfl, rfl, Nat.le_refl _, Nat.zero_le _⟩, .nil⟩ () _ hrun
  exact ⟨bs', e', blocks', h1, h3, h4.2⟩

end

/-- The row ids and bytes of the blocks of a column of `i32`, when the calls return. -/
def Spec.intBlocks (p : Profile) (nullable : Bool) (m : Nat) (bufs : List (List (Option Int32))) : Option (List (Nat × Bytes)) :=
  match buildAll nullable bufs with
  | .ok bs =>
    match PrimitiveEnc.encodeColumn p recorder bs (PrimitiveEnc.Encoder.new m nullable, []) with
    | (.ok _, s) => some s.2
    | _ => none
  | _ => none

/-- The same for a binary column. -/
def Spec.binaryBlocks (p : Profile) (nullable : Bool) (m : Nat) (bufs : List (List (Option Bytes))) : Option (List (Nat × Bytes)) :=
  match buildBinary nullable bufs with
  | .ok bs =>
    match BinaryEnc.encodeColumn p recorder bs (BinaryEnc.Encoder.new m nullable, []) with
    | (.ok _, s) => some s.2
    | _ => none
  | _ => none

/-- The hypotheses of `C109_primitive_row_ids_iff`: with one `i32` a buffer, the row ids are the same. -/
example : kept ((8 + Element.size Int32 - 1) / Element.size Int32) ([[some (1 : Int32)]].map fun b => (valuesOf b).length) =
      ([[some (1 : Int32)]].map fun b => (valuesOf b).length).sum ∧
    intBlocks .debug true 8 [[some 1]] = some [(0, [4, 1, 0, 0, 0, 3, 1])] ∧
    intBlocks .debug false 8 [[some 1]] = some [(0, [4, 1, 0, 0, 0])] := by
  decide +kernel

/-- C109 is false of the code, primitive encoder: four `i32` without nulls, two blocks. Declared nullable, the column has other
row ids. -/
theorem C109_primitive_with_validity_violated (p : Profile) :
    let bufs : List (List (Option Int32)) := [[some 1, some 2, some 3, some 4]]
    withoutNulls bufs = bufs ∧
    intBlocks p true 8 bufs = some [(1, [8, 1, 0, 0, 0, 2, 0, 0, 0, 3, 3]), (5, [8, 3, 0, 0, 0, 4, 0, 0, 0, 3, 3])] ∧
    intBlocks p false 8 bufs = some [(1, [8, 1, 0, 0, 0, 2, 0, 0, 0]), (3, [8, 3, 0, 0, 0, 4, 0, 0, 0])] := by
  cases p <;> decide +kernel

/-- C109 is false of the code, binary encoder. -/
theorem C109_binary_with_validity_violated (p : Profile) :
    let bufs : List (List (Option Bytes)) := [[some [1, 1], some [2], some [3]]]
    withoutNulls bufs = bufs ∧
    binaryBlocks p true 2 bufs = some [(0, [2, 1, 1, 2, 2, 3, 1]), (2, [2, 2, 3, 1, 1, 3, 1]), (3, [1, 3, 1, 1, 3, 1])] ∧
    binaryBlocks p false 2 bufs = some [(0, [2, 1, 1, 2, 2]), (1, [2, 2, 3, 1, 1]), (2, [1, 3, 1, 1])] := by
  cases p <;> decide +kernel

/-- A column with nulls, of three buffers, beside its values. -/
example : intBlocks .debug true 8 [[some 1, none, some 2], [none, none, some 3], [some 4]] =
      some [(2, [8, 1, 0, 0, 0, 2, 0, 0, 0, 3, 5]), (6, [8, 3, 0, 0, 0, 4, 0, 0, 0, 3, 12])] ∧
    withoutNulls [[some (1 : Int32), none, some 2], [none, none, some 3], [some 4]] = [[some 1, some 2], [some 3], [some 4]] ∧
    intBlocks .debug false 8 [[some 1, some 2], [some 3], [some 4]] =
      some [(1, [8, 1, 0, 0, 0, 2, 0, 0, 0]), (3, [8, 3, 0, 0, 0, 4, 0, 0, 0])] := by
  decide +kernel

end Meerkat
