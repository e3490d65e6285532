import Verif.Props.PrimitiveExact
import Verif.Props.BinaryExact
import Verif.Props.EncodingChoice

set_option autoImplicit false

/-! # C73: how rows are divided into buffers -/

namespace Meerkat
open Spec

/-! ## Lists cut as soon as possible -/

namespace Batching

/-- `P` holds of every piece but the last, and of no shorter beginning of a piece. -/
def Cuts {β : Type} (P : List β → Prop) : List (List β) → Prop
  | [] => True
  | g :: gs => g ≠ [] ∧ (∀ pre x suf, g = pre ++ x :: suf → ¬ P pre) ∧ (gs ≠ [] → P g) ∧ Cuts P gs

theorem cuts_head {β : Type} {P : List β → Prop} {a : List β} {as : List (List β)} {b : List β} {bs : List (List β)}
    (ha : Cuts P (a :: as)) (hb : Cuts P (b :: bs)) (h : a ++ as.flatten = b ++ bs.flatten)
    (hl : a.length < b.length) : False := by
  obtain ⟨_, _, a3, _⟩ := ha
  obtain ⟨_, b2, _, _⟩ := hb
  obtain ⟨suf, hsuf⟩ : a <+: b := List.prefix_of_prefix_length_le ⟨as.flatten, rfl⟩ ⟨bs.flatten, h.symm⟩ (by omega)
  cases suf with
  | nil => rw [List.append_nil] at hsuf; rw [hsuf] at hl; omega
  | cons x suf =>
    have hP := b2 a x suf hsuf.symm
    cases as with
    | nil =>
      have := congrArg List.length h
      rw [List.length_append, List.length_append] at this
      simp only [List.flatten_nil, List.length_nil] at this
      omega
    | cons a' as => exact hP (a3 (by simp))

/-- There is at most one way to cut a list. -/
theorem cuts_unique {β : Type} {P : List β → Prop} : ∀ (as bs : List (List β)), Cuts P as → Cuts P bs →
    as.flatten = bs.flatten → as = bs
  | [], [], _, _, _ => rfl
  | [], b :: bs, _, hb, h => by
    have := congrArg List.length h
    have := List.length_pos_iff.mpr hb.1
    simp only [List.flatten_cons, List.flatten_nil, List.length_append, List.length_nil] at *
    omega
  | a :: as, [], ha, _, h => by
    have := congrArg List.length h
    have := List.length_pos_iff.mpr ha.1
    simp only [List.flatten_cons, List.flatten_nil, List.length_append, List.length_nil] at *
    omega
  | a :: as, b :: bs, ha, hb, h => by
    rw [List.flatten_cons, List.flatten_cons] at h
    rcases Nat.lt_trichotomy a.length b.length with hl | hl | hl
    · exact (cuts_head ha hb h hl).elim
    · obtain ⟨rfl, h2⟩ := List.append_inj h hl
      rw [cuts_unique as bs ha.2.2.2 hb.2.2.2 h2]
    · exact (cuts_head hb ha h.symm hl).elim

theorem cuts_append_one {β : Type} {P : List β → Prop} (as : List (List β)) (last : List (List β)) (hlast : last.length ≤ 1)
    (h1 : ∀ a ∈ as, P a)
    (h2 : ∀ a ∈ as ++ last, a ≠ [] ∧ ∀ pre x suf, a = pre ++ x :: suf → ¬ P pre) : Cuts P (as ++ last) := by
  induction as with
  | nil =>
    match last, hlast, h2 with
    | [], _, _ => exact trivial
    | [a], _, h2 => exact ⟨(h2 a (by simp)).1, (h2 a (by simp)).2, fun h => (h rfl).elim, trivial⟩
  | cons a as ih =>
    have ha := h2 a (by simp)
    exact ⟨ha.1, ha.2, fun _ => h1 a (by simp), ih (fun a' h' => h1 a' (List.mem_cons_of_mem _ h'))
      fun a' h' => h2 a' (List.mem_cons_of_mem _ h')⟩

/-- A list that ends with a value has more values than any shorter beginning. -/
theorem values_lt_of_prefix {α : Type} {g pre suf : List (Option α)} {x : Option α} (hE : EndsWithValue g)
    (h : g = pre ++ x :: suf) : (valuesOf pre).length < (valuesOf g).length := by
  have hE' : EndsWithValue (x :: suf) := EndsWithValue.of_append (p := pre) (h ▸ hE)
  have : (valuesOf (x :: suf)).length ≠ 0 := fun h0 => by
    have := (BinaryEnc.ends_nil_iff hE').mp h0
    cases this
  rw [h, valuesOf_append, List.length_append]
  omega

theorem pairs_ext {β γ : Type} : ∀ {as bs : List (β × γ)}, as.map (·.1) = bs.map (·.1) → as.map (·.2) = bs.map (·.2) → as = bs
  | [], [], _, _ => rfl
  | [], _ :: _, h, _ => by cases h
  | _ :: _, [], h, _ => by cases h
  | a :: as, b :: bs, h1, h2 => by
    rw [List.map_cons, List.map_cons, List.cons.injEq] at h1 h2
    rw [Prod.ext h1.1 h2.1, pairs_ext h1.2 h2.2]

end Batching

open Batching

/-! ## Primitive columns -/

section
open PrimitiveEnc
variable {α : Type} [Element α]

omit [Element α] in
theorem PrimitiveEnc.callsOf_cuts {c : Nat} (hc : 0 < c) (bufs : List (List (Option α))) :
    Cuts (fun rows => c ≤ (valuesOf rows).length) (callsOf c [] bufs).flatten := by
  rw [callsOf, List.flatten_append]
  refine cuts_append_one _ _ (by simp only [flushOf]; split <;> simp) ?_ ?_
  · intro a ha
    exact Nat.le_of_eq (stepsOf_chunks hc bufs [] (.inl rfl) (by simp) a ha).1.symm
  · intro a ha
    rw [← List.flatten_append] at ha
    obtain ⟨h1, h2, h3⟩ := callsOf_chunks hc bufs [] (.inl rfl) (by simp) a ha
    refine ⟨?_, fun pre x suf h => ?_⟩
    · rintro rfl; simp at h1
    · have := values_lt_of_prefix h3 h
      omega

/-- C73 for primitive columns, exactly: whatever the buffers of two runs, the blocks of the one have the same bytes as those of
the other if and only if the same rows are read back from them; when there can be no nulls, the row ids are then the same as well. -/
theorem C73_primitive_same_rows (p q : Profile) (nullable : Bool) (m : Nat) (hm : 0 < m) (hm64 : m < 2 ^ 64)
    (hd : Element.size α ∣ m ∨ p = .debug) (bufs bufs' : List (List (Option α))) (bs bs')
    (hb : buildAll nullable bufs = .ok bs) (hb' : buildAll nullable bufs' = .ok bs')
    (hlen : rowCount bufs < 2 ^ 32 - 8) (hlen' : rowCount bufs' < 2 ^ 32 - 8) (e e' blocks blocks')
    (hrun : encodeColumn p recorder bs (Encoder.new m nullable, []) = (.ok (), (e, blocks)))
    (hrun' : encodeColumn p recorder bs' (Encoder.new m nullable, []) = (.ok (), (e', blocks'))) :
    (blocks.map (·.2) = blocks'.map (·.2) ↔
      readColumn (α := α) q nullable (blocks.map (·.2)) = readColumn q nullable (blocks'.map (·.2))) ∧
    (nullable = false → blocks.map (·.2) = blocks'.map (·.2) → blocks = blocks') := by
  have hbl := run_blocks hm hm64 hd hb hlen hrun
  have hbl' := run_blocks hm hm64 hd hb' hlen' hrun'
  have hc := perBlock_pos (α := α) hm
  have hr := run_read q hm (buildAll_ok hb).1 hlen
  have hr' := run_read q hm (buildAll_ok hb').1 hlen'
  rw [← hbl] at hr
  rw [← hbl'] at hr'
  refine ⟨⟨fun h => by rw [h], fun h => ?_⟩, ?_⟩
  · rw [readColumn, readColumn, hr, hr', Option.map_some, Option.map_some, Option.some_inj] at h
    have := cuts_unique _ _ (callsOf_cuts hc bufs) (callsOf_cuts hc bufs') h
    rw [hbl, hbl', blocksOf_data, blocksOf_data, this]
  · rintro rfl h
    obtain ⟨g, g1, _, g3⟩ := C28_primitive_row_ids_partial p q false m hm hm64 hd bufs bs hb hlen (fun h => by cases h) e blocks hrun
    obtain ⟨g', g1', _, g3'⟩ := C28_primitive_row_ids_partial p q false m hm hm64 hd bufs' bs' hb' hlen' (fun h => by cases h)
      e' blocks' hrun'
    rw [h, g1', Option.some_inj] at g1
    rw [g1] at g3'
    exact pairs_ext (g3.trans g3'.symm) h

omit [Element α] in
theorem dropTrailingNulls_of_accepts {b : List (Option α)} (h : none ∉ b) : dropTrailingNulls b = b := by
  refine dropTrailingNulls_of_ends ?_
  rcases List.eq_nil_or_concat b with rfl | ⟨l, x, rfl⟩
  · exact .inl rfl
  · cases x with
    | none => simp at h
    | some v => exact .inr ⟨v, by simp⟩

/-- C73 for primitive columns: rows given in several buffers are written like the same rows in one buffer if and only if nothing of the
buffers is lost: no value (see C26), and no null between values. -/
theorem C73_primitive_batching_iff (p : Profile) (nullable : Bool) (m : Nat) (hm : 0 < m) (hm64 : m < 2 ^ 64)
    (hd : Element.size α ∣ m ∨ p = .debug) (bufs : List (List (Option α))) (bs bs')
    (hb : buildAll nullable bufs = .ok bs) (hb' : buildAll nullable [bufs.flatten] = .ok bs')
    (hlen : rowCount bufs < 2 ^ 32 - 8) (e e' blocks blocks')
    (hrun : encodeColumn p recorder bs (Encoder.new m nullable, []) = (.ok (), (e, blocks)))
    (hrun' : encodeColumn p recorder bs' (Encoder.new m nullable, []) = (.ok (), (e', blocks'))) :
    (blocks.map (·.2) = blocks'.map (·.2) ↔
      kept ((m + Element.size α - 1) / Element.size α) (bufs.map fun b => (valuesOf b).length) =
        (bufs.map fun b => (valuesOf b).length).sum ∧
      bufs.flatMap dropTrailingNulls = dropTrailingNulls bufs.flatten) ∧
    (nullable = false → (blocks = blocks' ↔
      kept ((m + Element.size α - 1) / Element.size α) (bufs.map fun b => (valuesOf b).length) =
        (bufs.map fun b => (valuesOf b).length).sum)) := by
  have hlen' : rowCount [bufs.flatten] < 2 ^ 32 - 8 := by simpa [rowCount] using hlen
  obtain ⟨h1, h2⟩ := C73_primitive_same_rows p .debug nullable m hm hm64 hd bufs [bufs.flatten] bs bs' hb hb' hlen hlen'
    e e' blocks blocks' hrun hrun'
  rw [C27_primitive_rows_exact p .debug nullable m hm hm64 hd bufs bs hb hlen e blocks hrun,
    C27_primitive_rows_exact p .debug nullable m hm hm64 hd _ bs' hb' hlen' e' blocks' hrun', Option.some_inj] at h1
  have hone : takeVals (kept ((m + Element.size α - 1) / Element.size α) ([bufs.flatten].map fun b => (valuesOf b).length))
      ([bufs.flatten].flatMap dropTrailingNulls) = dropTrailingNulls bufs.flatten := by
    rw [List.flatMap_cons, List.flatMap_nil, List.append_nil]
    refine takeVals_all (dropTrailingNulls_ends _) ?_
    rw [dropTrailingNulls_values, List.map_cons, List.map_nil, kept]
    split <;> omega
  rw [hone] at h1
  have hk := kept_le (c := (m + Element.size α - 1) / Element.size α) (bufs.map fun b => (valuesOf b).length)
  have hs := sum_valuesOf bufs
  have hE : EndsWithValue (bufs.flatMap dropTrailingNulls) := by
    rw [List.flatMap_def]
    exact ends_flatten (by simp; intro a _; exact dropTrailingNulls_ends a)
  have hfull : (blocks.map (·.2) = blocks'.map (·.2) ↔
      kept ((m + Element.size α - 1) / Element.size α) (bufs.map fun b => (valuesOf b).length) =
        (bufs.map fun b => (valuesOf b).length).sum ∧
      bufs.flatMap dropTrailingNulls = dropTrailingNulls bufs.flatten) := by
    rw [h1]
    constructor
    · intro h
      have hv := congrArg (fun l => (valuesOf l).length) h
      simp only [takeVals_values, flatMap_dropTrailing_values, dropTrailingNulls_values, List.length_take] at hv
      have hke : kept ((m + Element.size α - 1) / Element.size α) (bufs.map fun b => (valuesOf b).length) =
        (bufs.map fun b => (valuesOf b).length).sum := by omega
      rw [takeVals_all hE (by rw [flatMap_dropTrailing_values, hke, hs]; omega)] at h
      exact ⟨hke, h⟩
    · rintro ⟨hke, h⟩
      rw [takeVals_all hE (by rw [flatMap_dropTrailing_values, hke, hs]; omega), h]
  refine ⟨hfull, ?_⟩
  rintro rfl
  constructor
  · rintro rfl; exact (hfull.mp rfl).1
  · intro hke
    refine h2 rfl (hfull.mpr ⟨hke, ?_⟩)
    have hA : ∀ b ∈ bufs, none ∉ b := fun b hmem => by
      rcases (buildAll_ok hb).1 b hmem with h | h
      · cases h
      · exact h
    rw [dropTrailingNulls_of_accepts (by
      intro h
      obtain ⟨b, hmem, hn⟩ := List.mem_flatten.mp h
      exact hA b hmem hn), List.flatMap_def]
    congr 1
    conv => rhs; rw [← List.map_id bufs]
    exact List.map_congr_left fun b hmem => dropTrailingNulls_of_accepts (hA b hmem)

end

/-! ## Binary columns -/

section
open BinaryEnc

theorem BinaryEnc.byteCount_lt_of_prefix {m j : Nat} {held b pre suf : List (Option Bytes)} {x : Option Bytes}
    (hh : EndsWithValue held) (hlt : byteCount held < m) (hf : fill (m - byteCount held) (valuesOf b) = some j)
    (h : held ++ takeVals j b = pre ++ x :: suf) : byteCount pre < m := by
  obtain ⟨f1, f2, f3⟩ := fill_some hf
  have hj := fill_pos hf (by omega)
  have hE : EndsWithValue (held ++ takeVals j b) := (takeVals_ends j b f1).append_left hh
  have hl := values_lt_of_prefix hE h
  have hp : valuesOf pre <+: valuesOf held ++ (valuesOf b).take j := by
    rw [← takeVals_values, ← valuesOf_append, h, valuesOf_append]
    exact List.prefix_append ..
  rw [valuesOf_append, List.length_append, takeVals_values, List.length_take, Nat.min_eq_left f1] at hl
  have hq : valuesOf held ++ (valuesOf b).take (j - 1) <+: valuesOf held ++ (valuesOf b).take j := by
    refine (List.prefix_append_right_inj _).mpr ?_
    exact (List.take_prefix_take_left (by omega))
  obtain ⟨t, ht⟩ := List.prefix_of_prefix_length_le hp hq (by
    rw [List.length_append, List.length_take]; omega)
  have := congrArg (fun l => l.flatten.length) ht
  simp only [List.flatten_append, List.length_append] at this
  have h3 := f3 (j - 1) (by omega)
  simp only [byteCount] at *
  omega

theorem BinaryEnc.byteCount_prefix {g pre suf : List (Option Bytes)} {x : Option Bytes} (h : g = pre ++ x :: suf) :
    byteCount pre ≤ byteCount g := by
  rw [h, byteCount_append]; omega

theorem BinaryEnc.fillGroups_cuts {m : Nat} (nullable : Bool) (bufs : List (List (Option Bytes))) :
    ∀ (stale : List Bool) (held : List (Option Bytes)), EndsWithValue held → byteCount held < m →
    Manageable m nullable stale held bufs → Cuts (fun rows => m ≤ byteCount rows) (fillGroups m held bufs) := by
  induction bufs with
  | nil =>
    intro stale held hh hlt _
    simp only [fillGroups]
    split
    · exact trivial
    · rename_i h0
      refine ⟨?_, fun pre x suf h => ?_, fun h => (h rfl).elim, trivial⟩
      · rintro rfl; exact h0 rfl
      · have := byteCount_prefix h; omega
  | cons b bufs ih =>
    intro stale held hh hlt hman
    obtain ⟨h1, _, _, h4⟩ := hman
    have hsm := fillStep_small hlt h1
    have hIH := ih _ _ (fillStep_ends m hh).2 hsm h4
    have hval := fillStep_values (b := b) hlt
    rw [fillGroups]
    generalize fillGroups m (fillStep m held b).2 bufs = rest at hIH ⊢
    cases hf : fill (m - byteCount held) (valuesOf b) with
    | none => simpa only [fillStep, hf, List.nil_append] using hIH
    | some j =>
      have e1 : (fillStep m held b).1 = [held ++ takeVals j b] := by simp only [fillStep, hf]
      rw [e1] at hval ⊢
      have hv := hval _ (List.mem_singleton_self _)
      refine ⟨?_, fun pre x suf h => ?_, fun _ => hv.2, hIH⟩
      · intro h0; rw [h0] at hv; simp [valuesOf] at hv
      · have := byteCount_lt_of_prefix hh hlt hf h; omega

/-- C73 for binary columns as far as it holds: of two ways to divide the same rows into buffers, trailing nulls of the buffers left aside, that
the encoder can handle (see C32 and C35: these are exactly the ones it writes correctly) the encoder makes the same blocks. -/
theorem C73_binary_batching_partial (p : Profile) (nullable : Bool) (m : Nat) (hm : 0 < m)
    (bufs bufs' : List (List (Option Bytes))) (bs bs') (hb : buildBinary nullable bufs = .ok bs)
    (hb' : buildBinary nullable bufs' = .ok bs') (hlen : bufs.flatten.length < 2 ^ 32)
    (hlen' : bufs'.flatten.length < 2 ^ 32) (hm32 : m ≤ U32_MAX)
    (hman : Manageable m nullable [] [] bufs) (hman' : Manageable m nullable [] [] bufs')
    (hsame : bufs.flatMap dropTrailingNulls = bufs'.flatMap dropTrailingNulls) :
    ∃ e e' blocks, encodeColumn p recorder bs (Encoder.new m nullable, []) = (.ok (), (e, blocks)) ∧
      encodeColumn p recorder bs' (Encoder.new m nullable, []) = (.ok (), (e', blocks)) := by
  obtain ⟨e, h⟩ := binary_run p hm hb hlen hm32 hman
  obtain ⟨e', h'⟩ := binary_run p hm hb' hlen' hm32 hman'
  have hcut := cuts_unique _ _ (fillGroups_cuts nullable bufs [] [] (.inl rfl) (by simpa [byteCount, valuesOf] using hm) hman)
    (fillGroups_cuts nullable bufs' [] [] (.inl rfl) (by simpa [byteCount, valuesOf] using hm) hman')
    (by rw [fillGroups_rows m bufs [] (.inl rfl), fillGroups_rows m bufs' [] (.inl rfl), hsame])
  exact ⟨e, e', _, h, by rw [hcut]; exact h'⟩

/-- C73 for binary columns, without reference to what the encoder can handle: two runs that both describe the same rows correctly, in the
sense of C35, made the same blocks. -/
theorem C73_binary_same_rows (p q : Profile) (nullable : Bool) (m : Nat) (hm : 0 < m)
    (bufs bufs' : List (List (Option Bytes))) (bs bs') (hb : buildBinary nullable bufs = .ok bs)
    (hb' : buildBinary nullable bufs' = .ok bs') (hlen : bufs.flatten.length < 2 ^ 32 - 7)
    (hm32 : m ≤ U32_MAX)
    (hrows : bufs.flatten = bufs'.flatten)
    (e e' blocks blocks') (groups groups' : List (List (Option Bytes)))
    (hrun : encodeColumn p recorder bs (Encoder.new m nullable, []) = (.ok (), (e, blocks)))
    (hrun' : encodeColumn p recorder bs' (Encoder.new m nullable, []) = (.ok (), (e', blocks')))
    (hg : groups.flatten = bufs.flatten ∧ (∀ g ∈ groups, g ≠ []) ∧ Describes q nullable groups blocks ∧
      blocks.map (·.1) = lastRowIds 0 groups)
    (hg' : groups'.flatten = bufs'.flatten ∧ (∀ g ∈ groups', g ≠ []) ∧ Describes q nullable groups' blocks' ∧
      blocks'.map (·.1) = lastRowIds 0 groups') : blocks = blocks' := by
  obtain ⟨h1, h2⟩ := (C35_binary_nulls_exact p q nullable m hm bufs bs hb hlen hm32).mp
    ⟨e, blocks, groups, hrun, hg⟩
  obtain ⟨h1', h2'⟩ := (C35_binary_nulls_exact p q nullable m hm bufs' bs' hb' (hrows ▸ hlen) hm32).mp ⟨e', blocks', groups', hrun', hg'⟩
  have hd := (flatMap_dropTrailing_iff bufs).mpr fun b hmem => (endsWithValue_iff b).mpr (h2 b hmem)
  have hd' := (flatMap_dropTrailing_iff bufs').mpr fun b hmem => (endsWithValue_iff b).mpr (h2' b hmem)
  obtain ⟨e₁, e₁', blocks₁, r, r'⟩ := C73_binary_batching_partial p nullable m hm bufs bufs' bs bs' hb hb' (by omega)
    (by rw [← hrows]; omega) hm32 h1 h1' (by rw [hd, hd', hrows])
  rw [hrun] at r
  rw [hrun'] at r'
  rw [(Prod.mk.inj (Prod.mk.inj r).2).2, (Prod.mk.inj (Prod.mk.inj r').2).2]

end

/-- C73 is false of the code. 41 `i32` in buffers of 1 and 40 make one block, in one buffer they make two. The
binary rows `aa`, `b`, `c` in two buffers make two blocks, in one buffer they make three. -/
theorem C73_batching_violated (p : Profile) :
    (∃ (bs bs' : List (PrimitiveBuffer Int32)) (e e' : PrimitiveEnc.Encoder Int32) (blocks blocks' : List (Nat × Bytes)),
      buildAll false [[some 1], List.replicate 40 (some 2)] = .ok bs ∧
      buildAll false [some 1 :: List.replicate 40 (some 2)] = .ok bs' ∧
      PrimitiveEnc.encodeColumn p recorder bs (PrimitiveEnc.Encoder.new 128 false, []) = (.ok (), (e, blocks)) ∧
      PrimitiveEnc.encodeColumn p recorder bs' (PrimitiveEnc.Encoder.new 128 false, []) = (.ok (), (e', blocks')) ∧
      blocks.length = 1 ∧ blocks'.length = 2) ∧
    ∃ bs bs' e e' blocks blocks', buildBinary false [[some [97, 97]], [some [98], some [99]]] = .ok bs ∧
      buildBinary false [[some [97, 97], some [98], some [99]]] = .ok bs' ∧
      BinaryEnc.encodeColumn p recorder bs (BinaryEnc.Encoder.new 2 false, []) = (.ok (), (e, blocks)) ∧
      BinaryEnc.encodeColumn p recorder bs' (BinaryEnc.Encoder.new 2 false, []) = (.ok (), (e', blocks')) ∧
      blocks.length = 2 ∧ blocks'.length = 3 := by
  constructor
  · have hb := buildAll_of_accepts (nullable := false) (bufs := [[some (1 : Int32)], List.replicate 40 (some 2)])
      (by simp [Accepts])
    have hb' := buildAll_of_accepts (nullable := false) (bufs := [some (1 : Int32) :: List.replicate 40 (some 2)])
      (by simp [Accepts])
    obtain ⟨e, blocks, h⟩ := C30_primitive_completes_partial p false 128 (by decide) (by decide) (by decide)
      _ _ hb (by decide) (.inl (by decide)) (fun h => by cases h)
    obtain ⟨e', blocks', h'⟩ := C30_primitive_completes_partial p false 128 (by decide) (by decide) (by decide)
      _ _ hb' (by decide) (.inl (by decide)) (fun h => by cases h)
    refine ⟨_, _, e, e', blocks, blocks', hb, hb', h, h', ?_, ?_⟩
    · rw [run_blocks (by decide) (by decide) (.inl (by decide)) hb (by decide) h, PrimitiveEnc.blocksOf_length]; decide +kernel
    · rw [run_blocks (by decide) (by decide) (.inl (by decide)) hb' (by decide) h', PrimitiveEnc.blocksOf_length]; decide +kernel
  · have hb := buildBinary_of_accepts (nullable := false) (bufs := [[some [97, 97]], [some [98], some [99]]])
      (by simp [Accepts]) (by simp [byteCount, valuesOf, U32_MAX])
    have hb' := buildBinary_of_accepts (nullable := false) (bufs := [[some [97, 97], some [98], some [99]]])
      (by simp [Accepts]) (by simp [byteCount, valuesOf, U32_MAX])
    obtain ⟨e, h⟩ := of_outcome (r := BinaryEnc.encodeColumn p recorder ([[some [97, 97]], [some [98], some [99]]].map
      (BinaryBuffer.ofRows false)) (BinaryEnc.Encoder.new 2 false, [])) (a := .ok ())
      (b := [(0, [2, 97, 97, 2, 2]), (2, [2, 98, 99, 1, 1])]) (by cases p <;> decide +kernel)
    obtain ⟨e', h'⟩ := of_outcome (r := BinaryEnc.encodeColumn p recorder ([[some [97, 97], some [98], some [99]]].map
      (BinaryBuffer.ofRows false)) (BinaryEnc.Encoder.new 2 false, [])) (a := .ok ())
      (b := [(0, [2, 97, 97, 2, 2]), (1, [2, 98, 99, 1, 1]), (2, [1, 99, 1, 1])]) (by cases p <;> decide +kernel)
    exact ⟨_, _, e, e', _, _, hb, hb', h, h', rfl, rfl⟩

/-- The rows `aa`, `b`, `c` divided in two ways that the binary encoder handles. -/
example : Manageable 2 false [] [] [[some [97, 97]], [some [98], some [99]]] ∧
    Manageable 2 false [] [] [[some [97, 97], some [98]], [some [99]]] := by decide +kernel

/-- With nulls. -/
example : Manageable 3 true [] [] [[none, some [97, 97]], [some [98], none, some [99]], [none]] ∧
    Manageable 3 true [] [] [[none, some [97, 97], some [98]], [none, some [99], none]] ∧
    [[none, some [97, 97]], [some [98], none, some [99]], [none]].flatMap dropTrailingNulls =
      [[none, some [97, 97], some [98]], [none, some ([99] : Bytes), none]].flatMap dropTrailingNulls := by decide +kernel

/-- Buffers of 32, 1 and 20 values fill blocks of 32 like one buffer of 53 values; buffers of 1 and 40 do not. -/
example : kept 32 [32, 1, 20] = 53 ∧ kept 32 [1, 40] = 32 := by decide

end Meerkat
