import Verif.Props.Alike
import Verif.Props.WithValidity

set_option autoImplicit false

/-!
# C118: a changed value changes one block
-/

namespace Meerkat
open Spec

namespace OneBlock
open PrimitiveEnc
variable {α β : Type}

/-! ## What the encoder does with its rows does not depend on their values -/

/-- The rows with other values. -/
abbrev each (f : β → α) (rows : List (Option β)) : List (Option α) := rows.map (Option.map f)

theorem each_values (f : β → α) (rows : List (Option β)) : valuesOf (each f rows) = (valuesOf rows).map f := by
  induction rows with
  | nil => rfl
  | cons x rows ih => cases x <;> simp_all [valuesOf, each]

theorem each_takeVals (f : β → α) (rows : List (Option β)) : ∀ n, takeVals n (each f rows) = each f (takeVals n rows) := by
  induction rows with
  | nil => intro n; cases n <;> rfl
  | cons x rows ih =>
    intro n
    cases n with
    | zero => cases x <;> rfl
    | succ n => cases x <;> simp_all [takeVals, each]

theorem each_dropWhile (f : β → α) (rows : List (Option β)) :
    (each f rows).dropWhile Option.isNone = each f (rows.dropWhile Option.isNone) := by
  induction rows with
  | nil => rfl
  | cons x rows ih => cases x <;> simp_all [each]

theorem each_dropTrailingNulls (f : β → α) (rows : List (Option β)) :
    dropTrailingNulls (each f rows) = each f (dropTrailingNulls rows) := by
  simp only [dropTrailingNulls, each, ← List.map_reverse]
  exact congrArg List.reverse (each_dropWhile f rows.reverse) |>.trans (by simp [each])

theorem each_drop (f : β → α) (c : Nat) (rows : List (Option β)) :
    (each f rows).drop (takeVals c (each f rows)).length = each f (rows.drop (takeVals c rows).length) := by
  rw [each_takeVals]; simp [each]

theorem each_chunkRows (f : β → α) (c k : Nat) : ∀ rows : List (Option β),
    chunkRows c k (each f rows) = (chunkRows c k rows).map (each f) := by
  induction k with
  | zero => intro rows; rfl
  | succ k ih => intro rows; rw [chunkRows, chunkRows, each_drop, ih, each_takeVals]; rfl

theorem each_afterChunks (f : β → α) (c k : Nat) : ∀ rows : List (Option β),
    afterChunks c k (each f rows) = each f (afterChunks c k rows) := by
  induction k with
  | zero => intro rows; rfl
  | succ k ih => intro rows; rw [afterChunks, afterChunks, each_drop, ih]

theorem each_step (f : β → α) (c : Nat) (R rows : List (Option β)) :
    step c (each f R) (each f rows) = ((step c R rows).1.map (each f), each f (step c R rows).2) := by
  simp only [step, chunksOf, leftOf, each_values, List.length_map, each_chunkRows, each_afterChunks, each_dropTrailingNulls,
    each_takeVals]
  split
  · rfl
  · simp [each]

theorem each_stepsOf (f : β → α) (c : Nat) (bufs : List (List (Option β))) : ∀ R,
    stepsOf c (each f R) (bufs.map (each f)) = (stepsOf c R bufs).map (·.map (each f)) := by
  induction bufs with
  | nil => intro R; rfl
  | cons b bufs ih => intro R; simp only [List.map_cons, stepsOf, each_step, ih]

theorem each_heldOf (f : β → α) (c : Nat) (bufs : List (List (Option β))) : ∀ R,
    heldOf c (each f R) (bufs.map (each f)) = each f (heldOf c R bufs) := by
  induction bufs with
  | nil => intro R; rfl
  | cons b bufs ih => intro R; simp only [List.map_cons, heldOf, each_step, ih]

theorem each_callsOf (f : β → α) (c : Nat) (bufs : List (List (Option β))) (R) :
    (callsOf c (each f R) (bufs.map (each f))).flatten = (callsOf c R bufs).flatten.map (each f) := by
  simp only [callsOf, each_stepsOf, each_heldOf, flushOf, each_values, List.length_map]
  split <;> simp [List.map_flatten]

/-! ## No row is written twice -/

theorem dropTrailingNulls_sublist (rows : List (Option β)) : (dropTrailingNulls rows).Sublist rows := by
  have h := (List.dropWhile_sublist Option.isNone (l := rows.reverse)).reverse
  rwa [List.reverse_reverse] at h

theorem step_sublist {c : Nat} (hc : 0 < c) (R rows : List (Option β)) :
    ((step c R rows).1.flatten ++ (step c R rows).2).Sublist (R ++ rows) := by
  simp only [step]
  split
  · obtain ⟨_, _, _, h, _⟩ := leftOf_spec hc rows
    simp only
    rw [← h]
    exact (dropTrailingNulls_sublist rows).trans (List.sublist_append_right _ _)
  · simp only [List.flatten_nil, List.nil_append]
    exact (List.Sublist.refl R).append ((takeVals_prefix _ _).sublist.trans (dropTrailingNulls_sublist rows))

theorem steps_sublist {c : Nat} (hc : 0 < c) (bufs : List (List (Option β))) : ∀ R,
    ((stepsOf c R bufs).flatten.flatten ++ heldOf c R bufs).Sublist (R ++ bufs.flatten) := by
  induction bufs with
  | nil => intro R; simp [stepsOf, heldOf]
  | cons b bufs ih =>
    intro R
    have h1 := ih (step c R b).2
    have h2 := step_sublist hc R b
    simp only [stepsOf, heldOf, List.flatten_cons, List.flatten_append, List.append_assoc]
    refine ((List.Sublist.refl (step c R b).1.flatten).append h1).trans ?_
    rw [← List.append_assoc, ← List.append_assoc]
    exact h2.append (List.Sublist.refl _)

theorem calls_sublist {c : Nat} (hc : 0 < c) (bufs : List (List (Option β))) :
    (callsOf c [] bufs).flatten.flatten.Sublist bufs.flatten := by
  have h := steps_sublist hc bufs []
  simp only [callsOf, flushOf, List.flatten_append, List.flatten_cons, List.flatten_nil, List.append_nil]
  split
  · simp only [List.flatten_nil, List.append_nil]
    exact (List.sublist_append_left _ _).trans h
  · simpa using h

/-! ## The row that is changed, marked -/

theorem one_of_sum {γ : Type} (g : γ → Nat) (xs : List γ) (h : (xs.map g).sum ≤ 1) :
    ∃ j, ∀ (i : Nat) x, i ≠ j → xs[i]? = some x → g x = 0 := by
  induction xs with
  | nil => exact ⟨0, by simp⟩
  | cons x xs ih =>
    simp only [List.map_cons, List.sum_cons] at h
    by_cases hx : g x = 0
    · obtain ⟨j, hj⟩ := ih (by omega)
      refine ⟨j + 1, fun i y hi hy => ?_⟩
      cases i with
      | zero => simp at hy; rw [← hy]; exact hx
      | succ i => exact hj i y (by omega) (by simpa using hy)
    · refine ⟨0, fun i y hi hy => ?_⟩
      cases i with
      | zero => exact absurd rfl hi
      | succ i =>
        have hmem : y ∈ xs := List.mem_of_getElem? (by simpa using hy)
        have h0 : (xs.map g).sum = 0 := by omega
        exact List.sum_eq_zero_iff_forall_eq_nat.1 h0 _ (List.mem_map_of_mem hmem)

/-- The marked rows. -/
def marked (rows : List (Option (α × Bool))) : Nat := rows.countP fun x => x.any (·.2)

theorem marked_flatten (gs : List (List (Option (α × Bool)))) : (gs.map marked).sum = marked gs.flatten := by
  induction gs with
  | nil => rfl
  | cons g gs ih => simp only [List.map_cons, List.sum_cons, List.flatten_cons, marked, List.countP_append] at ih ⊢; omega

theorem marked_sublist {a b : List (Option (α × Bool))} (h : a.Sublist b) : marked a ≤ marked b := h.countP_le

theorem unmarked (y : α) (rows : List (Option (α × Bool))) (h : marked rows = 0) :
    each (fun t => if t.2 then y else t.1) rows = each Prod.fst rows := by
  refine List.map_congr_left fun x hx => ?_
  have := List.countP_eq_zero.1 h x hx
  cases x with
  | none => rfl
  | some t => simp_all

/-- The column, with a mark on one of its rows. -/
def mark (before after : List (List (Option α))) (r s : List (Option α)) (x : α) : List (List (Option (α × Bool))) :=
  before.map (each (·, false)) ++ (each (·, false) r ++ some (x, true) :: each (·, false) s) :: after.map (each (·, false))

theorem each_each (f : α × Bool → α) (hf : ∀ v, f (v, false) = v) (rows : List (Option α)) :
    each f (each (·, false) rows) = rows := by
  induction rows with
  | nil => rfl
  | cons v rows ih => cases v <;> simp_all [each]

theorem mark_each (f : α × Bool → α) (hf : ∀ v, f (v, false) = v) (before after : List (List (Option α)))
    (r s : List (Option α)) (x : α) :
    (mark before after r s x).map (each f) = before ++ (r ++ some (f (x, true)) :: s) :: after := by
  have h : ∀ bs : List (List (Option α)), (bs.map (each (·, false))).map (each f) = bs := by
    intro bs
    rw [List.map_map]
    conv => rhs; rw [← List.map_id bs]
    exact List.map_congr_left fun b _ => each_each f hf b
  simp only [mark, List.map_append, List.map_cons, h]
  have h1 := each_each f hf r
  have h2 := each_each f hf s
  simp only [each, List.map_append, List.map_cons, Option.map_some] at h1 h2 ⊢
  rw [h1, h2]

theorem marked_none (rows : List (Option α)) : marked (each (·, false) rows) = 0 := by
  simp only [marked, List.countP_eq_zero]
  intro x hx
  obtain ⟨v, _, rfl⟩ := List.mem_map.1 hx
  cases v <;> simp

theorem marked_nones (bs : List (List (Option α))) : marked (bs.map (each (·, false))).flatten = 0 := by
  rw [← marked_flatten, List.map_map]
  exact List.sum_eq_zero_iff_forall_eq_nat.2 fun n hn => by
    obtain ⟨b, _, rfl⟩ := List.mem_map.1 hn
    exact marked_none b

theorem marked_mark (before after : List (List (Option α))) (r s : List (Option α)) (x : α) :
    marked (mark before after r s x).flatten = 1 := by
  have h1 := marked_nones before
  have h2 := marked_nones after
  have h3 := marked_none r
  have h4 := marked_none s
  simp only [mark, List.flatten_append, List.flatten_cons]
  simp only [marked, List.countP_append, List.countP_cons] at h1 h2 h3 h4 ⊢
  rw [h1, h2, h3, h4]
  simp

theorem mem_mark {before after : List (List (Option α))} {r s : List (Option α)} {x v : α}
    (h : some (v, true) ∈ (mark before after r s x).flatten) : v = x := by
  have hno : ∀ rows : List (Option α), some (v, true) ∉ each (·, false) rows := by
    intro rows hm
    obtain ⟨w, _, hw⟩ := List.mem_map.1 hm
    cases w <;> simp at hw
  simp only [mark, List.flatten_append, List.flatten_cons, List.mem_append, List.mem_cons] at h
  rcases h with h | (h | h | h) | h
  · obtain ⟨l, hl, h⟩ := List.mem_flatten.1 h
    obtain ⟨b, _, rfl⟩ := List.mem_map.1 hl
    exact absurd h (hno b)
  · exact absurd h (hno r)
  · cases h; rfl
  · exact absurd h (hno s)
  · obtain ⟨l, hl, h⟩ := List.mem_flatten.1 h
    obtain ⟨b, _, rfl⟩ := List.mem_map.1 hl
    exact absurd h (hno b)

theorem split_mark (x : α) : ∀ rows : List (Option (α × Bool)), (∀ v, some (v, true) ∈ rows → v = x) → marked rows ≤ 1 →
    marked rows = 0 ∨ ∃ a b, rows = a ++ some (x, true) :: b ∧ marked a = 0 ∧ marked b = 0
  | [], _, _ => .inl rfl
  | t :: rows, hv, hm => by
    have ih := split_mark x rows fun v hm => hv v (by simp [hm])
    simp only [marked, List.countP_cons] at hm ih ⊢
    by_cases ht : t.any (·.2) = true
    · rw [if_pos ht] at hm
      cases t with
      | none => simp at ht
      | some t =>
        obtain ⟨v, tag⟩ := t
        simp only [Option.any_some] at ht
        subst ht
        obtain rfl := hv v (by simp)
        exact .inr ⟨[], rows, rfl, rfl, by omega⟩
    · rw [if_neg ht] at hm ⊢
      rcases ih (by omega) with h | ⟨a, b, h1, h2, h3⟩
      · exact .inl (by omega)
      · exact .inr ⟨t :: a, b, by rw [h1]; rfl, by rw [List.countP_cons, if_neg ht, h2], h3⟩

/-- Two lists that agree but at one place, where two lists of rows that agree but in one value are. -/
def ButOne (x y : α) (gs gs' : List (List (Option α))) : Prop :=
  ∃ j, (∀ i : Nat, i ≠ j → gs[i]? = gs'[i]?) ∧
    (gs[j]? = gs'[j]? ∨ ∃ a b, gs[j]? = some (a ++ some x :: b) ∧ gs'[j]? = some (a ++ some y :: b))

/-- The rows written, block by block, of two columns that differ in one value. -/
theorem chunks_but_one {c : Nat} (hc : 0 < c) (before after : List (List (Option α))) (r s : List (Option α)) (x y : α) :
    ButOne x y (callsOf c [] (before ++ (r ++ some x :: s) :: after)).flatten
      (callsOf c [] (before ++ (r ++ some y :: s) :: after)).flatten := by
  have hx := each_callsOf Prod.fst c (mark before after r s x) []
  have hy := each_callsOf (fun t : α × Bool => if t.2 then y else t.1) c (mark before after r s x) []
  rw [mark_each _ (fun _ => rfl)] at hx hy
  have hsub := calls_sublist hc (mark before after r s x)
  have hone := marked_sublist hsub
  rw [marked_mark, ← marked_flatten] at hone
  obtain ⟨j, hj⟩ := one_of_sum marked _ hone
  have hx : (callsOf c [] (before ++ (r ++ some x :: s) :: after)).flatten = _ := hx
  have hy : (callsOf c [] (before ++ (r ++ some y :: s) :: after)).flatten = _ := hy
  refine ⟨j, fun i hi => ?_, ?_⟩
  · rw [hx, hy, List.getElem?_map, List.getElem?_map]
    cases hg : (callsOf c [] (mark before after r s x)).flatten[i]? with
    | none => rfl
    | some g => simp only [Option.map_some, unmarked y g (hj i g hi hg)]
  · rw [hx, hy, List.getElem?_map, List.getElem?_map]
    cases hg : (callsOf c [] (mark before after r s x)).flatten[j]? with
    | none => exact .inl rfl
    | some g =>
      have hmem := List.mem_of_getElem? hg
      have hle : marked g ≤ 1 := by
        rw [marked_flatten] at hone
        exact Nat.le_trans (marked_sublist (List.sublist_flatten_of_mem hmem)) hone
      rcases split_mark x g (fun v hv => mem_mark (hsub.subset (List.mem_flatten.2 ⟨g, hmem, hv⟩))) hle with
        h0 | ⟨a, b, rfl, ha, hb⟩
      · exact .inl (by simp only [Option.map_some, unmarked y g h0])
      · refine .inr ⟨each Prod.fst a, each Prod.fst b, by simp [each], ?_⟩
        have h1 := unmarked y a ha
        have h2 := unmarked y b hb
        simp only [each] at h1 h2
        simp only [Option.map_some, each, List.map_append, List.map_cons, h1, h2, if_true]

end OneBlock

/-- All blocks are the same but one at most, and that one differs only in the bytes of a value. -/
def Spec.DifferAtMostIn (x y : Bytes) (blocks blocks' : List (Nat × Bytes)) : Prop :=
  ∃ j, (∀ i : Nat, i ≠ j → blocks[i]? = blocks'[i]?) ∧
    (blocks[j]? = blocks'[j]? ∨
      ∃ id pre post, blocks[j]? = some (id, pre ++ x ++ post) ∧ blocks'[j]? = some (id, pre ++ y ++ post))

/-- From the rows of the blocks to their bytes. -/
theorem OneBlock.blocks_but_one {α : Type} {x y : α} {gs gs' : List (List (Option α))} (h : ButOne x y gs gs')
    (f : List (Option α) → Bytes) {bx by' : Bytes}
    (hf : ∀ a b, ∃ pre post, f (a ++ some x :: b) = pre ++ bx ++ post ∧ f (a ++ some y :: b) = pre ++ by' ++ post)
    {blocks blocks' : List (Nat × Bytes)} (hx : blocks.map (·.2) = gs.map f) (hy : blocks'.map (·.2) = gs'.map f)
    (hid : blocks.map (fun b => (b.1, b.2.length)) = blocks'.map (fun b => (b.1, b.2.length))) :
    DifferAtMostIn bx by' blocks blocks' := by
  obtain ⟨j, h1, h2⟩ := h
  have same : ∀ i : Nat, gs[i]? = gs'[i]? → blocks[i]? = blocks'[i]? := by
    intro i hi
    have hid := congrArg (fun l => (l[i]?).map (·.1)) hid
    have hdx := congrArg (fun l => l[i]?) hx
    have hdy := congrArg (fun l => l[i]?) hy
    simp only [List.getElem?_map, hi] at hid hdx hdy
    rw [← hdy] at hdx
    cases hb1 : blocks[i]? <;> cases hb2 : blocks'[i]? <;> simp_all [Prod.ext_iff]
  refine ⟨j, fun i hi => same i (h1 i hi), ?_⟩
  rcases h2 with h2 | ⟨a, b, h3, h4⟩
  · exact .inl (same j h2)
  · obtain ⟨pre, post, g1, g2⟩ := hf a b
    have hid := congrArg (fun l => (l[j]?).map (·.1)) hid
    have hdx := congrArg (fun l => l[j]?) hx
    have hdy := congrArg (fun l => l[j]?) hy
    simp only [List.getElem?_map, h3, h4, Option.map_some, g1, g2] at hid hdx hdy
    cases hb1 : blocks[j]? with
    | none => rw [hb1] at hdx; simp at hdx
    | some u =>
      cases hb2 : blocks'[j]? with
      | none => rw [hb2] at hdy; simp at hdy
      | some w =>
        rw [hb1] at hdx hid
        rw [hb2] at hdy hid
        refine .inr ⟨u.1, pre, post, ?_, ?_⟩ <;> simp_all [Prod.ext_iff]

/-- C118 for primitive columns: when the column is written, so is the one with another value in one row, in as many blocks,
with the same row ids and lengths; all blocks but one at most are the same, and that one differs only in the bytes of the
value. -/
theorem C118_primitive_one_block {α : Type} [Element α] (p : Profile) (nullable : Bool) (m : Nat) (hm : 0 < m)
    (hm64 : m < 2 ^ 64) (hd : Element.size α ∣ m ∨ p = .debug) (before after : List (List (Option α)))
    (r s : List (Option α)) (x y : α) (hlen : rowCount (before ++ (r ++ some x :: s) :: after) < 2 ^ 32 - 8) (bs)
    (hb : buildAll nullable (before ++ (r ++ some x :: s) :: after) = .ok bs) (e blocks)
    (hrun : PrimitiveEnc.encodeColumn p recorder bs (PrimitiveEnc.Encoder.new m nullable, []) = (.ok (), (e, blocks))) :
    ∃ bs' e' blocks', buildAll nullable (before ++ (r ++ some y :: s) :: after) = .ok bs' ∧
      PrimitiveEnc.encodeColumn p recorder bs' (PrimitiveEnc.Encoder.new m nullable, []) = (.ok (), (e', blocks')) ∧
      blocks.map (fun b => (b.1, b.2.length)) = blocks'.map (fun b => (b.1, b.2.length)) ∧
      DifferAtMostIn (Element.bytes x) (Element.bytes y) blocks blocks' := by
  have hrefl : ∀ rows : List (Option α), Matched (RowAlike fun _ _ : α => True) rows rows := by
    intro rows
    induction rows with
    | nil => exact .nil
    | cons v rows ih => exact .cons (by cases v <;> trivial) ih
  have hrefls : ∀ bs : List (List (Option α)), Matched (Matched (RowAlike fun _ _ : α => True)) bs bs := by
    intro bs
    induction bs with
    | nil => exact .nil
    | cons b bs ih => exact .cons (hrefl b) ih
  have hal : Matched (Matched (RowAlike fun _ _ : α => True)) (before ++ (r ++ some x :: s) :: after)
      (before ++ (r ++ some y :: s) :: after) :=
    (hrefls before).append (.cons ((hrefl r).append (.cons trivial (hrefl s))) (hrefls after))
  obtain ⟨bs', res, e1, e', bl, blocks', h1, h2, h3, _, h5⟩ := C100_primitive_alike rfl p nullable m _ _ hal bs hb
  rw [hrun] at h2
  cases h2
  have hlen' : rowCount (before ++ (r ++ some y :: s) :: after) < 2 ^ 32 - 8 := by
    simpa [rowCount] using hlen
  refine ⟨bs', e', blocks', h1, h3, h5, ?_⟩
  have hx := congrArg (List.map (·.2)) (run_blocks hm hm64 hd hb hlen hrun)
  have hy := congrArg (List.map (·.2)) (run_blocks hm hm64 hd h1 hlen' h3)
  rw [PrimitiveEnc.blocksOf_data] at hx hy
  refine OneBlock.blocks_but_one (OneBlock.chunks_but_one (PrimitiveEnc.perBlock_pos (α := α) hm) before after r s x y)
    (PrimitiveEnc.blockBytes nullable) (fun a b => ?_) hx hy h5
  refine ⟨Varint.varintBytes (Element.size α * (valuesOf (a ++ some x :: b)).length) ++ PrimitiveEnc.toByteSlice (valuesOf a),
    PrimitiveEnc.toByteSlice (valuesOf b) ++ if nullable then Rle.rleBytes (validityOf (a ++ some x :: b)) else [], ?_, ?_⟩ <;>
  simp [PrimitiveEnc.blockBytes, PrimitiveEnc.toByteSlice, valuesOf, validityOf]

/-! ## Binary columns -/

namespace OneBlock
section
variable {f : Bytes → Bytes}

theorem each_validity (rows : List (Option Bytes)) : validityOf (each f rows) = validityOf rows := by
  simp only [validityOf, each, List.map_map]
  exact List.map_congr_left fun x _ => by cases x <;> rfl

theorem each_seen (stale : List Bool) (rows : List (Option Bytes)) : seenBits stale (each f rows) = seenBits stale rows := by
  simp only [seenBits, each_validity]; simp [each]

theorem each_fill (hf : ∀ v, (f v).length = v.length) (vs : List Bytes) : ∀ m, fill m (vs.map f) = fill m vs := by
  induction vs with
  | nil => intro m; cases m <;> rfl
  | cons v vs ih => intro m; cases m <;> simp [fill, hf, ih]

theorem each_bytes (hf : ∀ v, (f v).length = v.length) (rows : List (Option Bytes)) :
    byteCount (each f rows) = byteCount rows := by
  simp only [byteCount, each_values]
  induction valuesOf rows with
  | nil => rfl
  | cons v vs ih => simp only [List.map_cons, List.flatten_cons, List.length_append, hf, ih]

theorem each_fillStep (hf : ∀ v, (f v).length = v.length) (m : Nat) (held rows : List (Option Bytes)) :
    fillStep m (each f held) (each f rows) = ((fillStep m held rows).1.map (each f), each f (fillStep m held rows).2) := by
  simp only [fillStep, each_bytes hf, each_values, each_fill hf]
  cases fill (m - byteCount held) (valuesOf rows) with
  | none => simp only [each_dropTrailingNulls, List.map_nil]; simp [each]
  | some j =>
    simp only
    rw [each_drop, each_dropTrailingNulls, each_takeVals]
    simp [each]

theorem each_fillGroups (hf : ∀ v, (f v).length = v.length) (m : Nat) (bufs : List (List (Option Bytes))) : ∀ held,
    fillGroups m (each f held) (bufs.map (each f)) = (fillGroups m held bufs).map (each f) := by
  induction bufs with
  | nil =>
    intro held
    simp only [List.map_nil, fillGroups, each_values, List.length_map]
    split <;> rfl
  | cons b bufs ih => intro held; simp only [List.map_cons, fillGroups, each_fillStep hf, ih, List.map_append]

theorem each_manageable (hf : ∀ v, (f v).length = v.length) (m : Nat) (nullable : Bool) (bufs : List (List (Option Bytes))) :
    ∀ stale held, Manageable m nullable stale (each f held) (bufs.map (each f)) ↔ Manageable m nullable stale held bufs := by
  induction bufs with
  | nil =>
    intro stale held
    simp only [List.map_nil, Manageable, each_values, List.length_map, each_seen, each_validity]
  | cons b bufs ih =>
    intro stale held
    have h1 : nextStale stale (each f held) ((fillStep m held b).1.map (each f)) = nextStale stale held (fillStep m held b).1 := by
      simp only [nextStale, List.foldl_map, each_validity, each, List.map_eq_nil_iff]
    have h2 : ∀ g, GroupFits (each f held) (each f g) ↔ GroupFits held g := by
      intro g
      simp only [GroupFits, each_bytes hf, each_values, List.length_map, ne_eq, each, List.map_eq_nil_iff]
    simp only [List.map_cons, Manageable, each_fillStep hf, h1, ih, each_bytes hf, List.forall_mem_map, h2, each_seen,
      each_validity, ne_eq, List.map_eq_nil_iff, each]

end

/-- A value of the same length. -/
def blank (v : Bytes) : Bytes := List.replicate v.length 0

theorem same_cuts {γ : Type} (gs : List (List γ)) : ∀ gs', gs.map List.length = gs'.map List.length →
    gs.flatten = gs'.flatten → gs = gs' := by
  induction gs with
  | nil => intro gs' h _; cases gs' with
    | nil => rfl
    | cons => cases h
  | cons g gs ih =>
    intro gs' h hf
    cases gs' with
    | nil => cases h
    | cons g' gs' =>
      simp only [List.map_cons, List.cons.injEq] at h
      obtain ⟨h1, h2⟩ := List.append_inj hf h.1
      rw [h1, ih gs' h.2 h2]

theorem groups_but_one {α : Type} (gs : List (List (Option α))) : ∀ (gs' : List (List (Option α))) (a b : List (Option α)) (x y : α),
    gs.map List.length = gs'.map List.length → gs.flatten = a ++ some x :: b → gs'.flatten = a ++ some y :: b →
    ButOne x y gs gs' := by
  induction gs with
  | nil => intro gs' a b x y _ h _; simp at h
  | cons g gs ih =>
    intro gs' a b x y h hx hy
    cases gs' with
    | nil => cases h
    | cons g' gs' =>
      simp only [List.map_cons, List.cons.injEq] at h
      obtain ⟨h1, h2⟩ := h
      simp only [List.flatten_cons] at hx hy
      have later : ∀ a', g = g' → gs.flatten = a' ++ some x :: b → gs'.flatten = a' ++ some y :: b →
          ButOne x y (g :: gs) (g' :: gs') := by
        intro a' hg h3 h4
        obtain ⟨j, hj, hk⟩ := ih gs' a' b x y h2 h3 h4
        refine ⟨j + 1, fun i hi => ?_, by simpa using hk⟩
        cases i with
        | zero => simp [hg]
        | succ i => simpa using hj i (by omega)
      rcases List.append_eq_append_iff.1 hx with ⟨a', ha, hg⟩ | ⟨c, hc, hg⟩
      · -- the first group lies before the row
        rw [ha, List.append_assoc] at hy
        obtain ⟨h3, h4⟩ := List.append_inj hy h1.symm
        exact later a' h3.symm hg h4
      · cases c with
        | nil =>
          simp only [List.append_nil] at hc
          simp only [List.nil_append] at hg
          subst hc
          obtain ⟨h3, h4⟩ := List.append_inj hy h1.symm
          exact later [] h3.symm hg.symm h4
        | cons d c =>
          simp only [List.cons_append, List.cons.injEq] at hg
          obtain ⟨rfl, hg⟩ := hg
          have hy' : g' ++ gs'.flatten = (a ++ some y :: c) ++ gs.flatten := by rw [hy, hg]; simp
          obtain ⟨h3, h4⟩ := List.append_inj hy' (by rw [← h1, hc]; simp)
          have := same_cuts gs gs' h2 h4.symm
          refine ⟨0, fun i hi => ?_, .inr ⟨a, c, by simp [hc], by simp [h3]⟩⟩
          cases i with
          | zero => exact absurd rfl hi
          | succ i => simp [this]

theorem dropTrailingNulls_some {γ : Type} (r s : List (Option γ)) (x : γ) :
    dropTrailingNulls (r ++ some x :: s) = r ++ some x :: dropTrailingNulls s := by
  obtain ⟨q, hq, he, hv⟩ := dropTrailingNulls_spec s
  conv => lhs; rw [hq]
  rw [show r ++ some x :: (dropTrailingNulls s ++ q) = (r ++ some x :: dropTrailingNulls s) ++ q by simp]
  refine dropTrailingNulls_eq ?_ hv
  rcases he with he | ⟨v, he⟩
  · exact .inr ⟨x, by simp [he]⟩
  · exact .inr ⟨v, by simp [List.getLast?_cons, he]⟩

end OneBlock

/-- C118 as far as it holds, binary encoder: in the histories of C32 all blocks but one at most are the same when a value is
replaced by another one of the same length. -/
theorem C118_binary_one_block_partial (p : Profile) (nullable : Bool) (m : Nat) (hm : 0 < m) (hm32 : m ≤ U32_MAX)
    (before after : List (List (Option Bytes))) (r s : List (Option Bytes)) (x y : Bytes) (hxy : x.length = y.length)
    (hlen : (before ++ (r ++ some x :: s) :: after).flatten.length < 2 ^ 32)
    (hman : Manageable m nullable [] [] (before ++ (r ++ some x :: s) :: after)) (bs)
    (hb : buildBinary nullable (before ++ (r ++ some x :: s) :: after) = .ok bs) (e blocks)
    (hrun : BinaryEnc.encodeColumn p recorder bs (BinaryEnc.Encoder.new m nullable, []) = (.ok (), (e, blocks))) :
    ∃ bs' e' blocks', buildBinary nullable (before ++ (r ++ some y :: s) :: after) = .ok bs' ∧
      BinaryEnc.encodeColumn p recorder bs' (BinaryEnc.Encoder.new m nullable, []) = (.ok (), (e', blocks')) ∧
      blocks.map (fun b => (b.1, b.2.length)) = blocks'.map (fun b => (b.1, b.2.length)) ∧
      DifferAtMostIn x y blocks blocks' := by
  have hrefl : ∀ rows : List (Option Bytes), Matched (RowAlike SameLength) rows rows := by
    intro rows
    induction rows with
    | nil => exact .nil
    | cons v rows ih => exact .cons (by cases v <;> trivial) ih
  have hrefls : ∀ bs : List (List (Option Bytes)), Matched (Matched (RowAlike SameLength)) bs bs := by
    intro bs
    induction bs with
    | nil => exact .nil
    | cons b bs ih => exact .cons (hrefl b) ih
  have hal : Matched (Matched (RowAlike SameLength)) (before ++ (r ++ some x :: s) :: after)
      (before ++ (r ++ some y :: s) :: after) :=
    (hrefls before).append (.cons ((hrefl r).append (.cons hxy (hrefl s))) (hrefls after))
  obtain ⟨bs', res, e1, e', bl, blocks', h1, h2, h3, _, h5⟩ := C100_binary_alike p nullable m _ _ hal bs hb
  rw [hrun] at h2
  cases h2
  -- both columns have the same shape
  have hf : ∀ v : Bytes, (OneBlock.blank v).length = v.length := fun v => by simp [OneBlock.blank]
  have hshape : (before ++ (r ++ some x :: s) :: after).map (OneBlock.each OneBlock.blank) =
      (before ++ (r ++ some y :: s) :: after).map (OneBlock.each OneBlock.blank) := by
    simp [OneBlock.each, OneBlock.blank, hxy]
  have hman' : Manageable m nullable [] [] (before ++ (r ++ some y :: s) :: after) := by
    rw [← OneBlock.each_manageable hf, ← hshape]
    exact (OneBlock.each_manageable hf m nullable _ [] []).2 hman
  have hg : (fillGroups m [] (before ++ (r ++ some x :: s) :: after)).map List.length =
      (fillGroups m [] (before ++ (r ++ some y :: s) :: after)).map List.length := by
    have h6 := OneBlock.each_fillGroups hf m (before ++ (r ++ some x :: s) :: after) []
    have h7 := OneBlock.each_fillGroups hf m (before ++ (r ++ some y :: s) :: after) []
    rw [hshape, h7] at h6
    have := congrArg (List.map List.length) h6
    simpa [OneBlock.each, Function.comp_def] using this.symm
  have hlen' : (before ++ (r ++ some y :: s) :: after).flatten.length < 2 ^ 32 := by simpa using hlen
  obtain ⟨ex, hx⟩ := binary_run p hm hb hlen hm32 hman
  obtain ⟨ey, hy⟩ := binary_run p hm h1 hlen' hm32 hman'
  rw [hrun] at hx
  rw [h3] at hy
  have hx : blocks = _ := (Prod.mk.inj (Prod.mk.inj hx).2).2
  have hy : blocks' = _ := (Prod.mk.inj (Prod.mk.inj hy).2).2
  refine ⟨bs', e', blocks', h1, h3, h5, ?_⟩
  have hx := congrArg (List.map (·.2)) hx
  have hy := congrArg (List.map (·.2)) hy
  rw [BinaryEnc.blocksOf_data] at hx hy
  refine OneBlock.blocks_but_one (OneBlock.groups_but_one _ _ (before.flatMap dropTrailingNulls ++ r)
    (dropTrailingNulls s ++ after.flatMap dropTrailingNulls) x y hg
    (by rw [BinaryEnc.fillGroups_rows m _ [] (.inl rfl)]; simp [OneBlock.dropTrailingNulls_some])
    (by rw [BinaryEnc.fillGroups_rows m _ [] (.inl rfl)]; simp [OneBlock.dropTrailingNulls_some]))
    (BinaryEnc.blockBytes nullable) (fun a b => ?_) hx hy h5
  refine ⟨Varint.varintBytes (byteCount (a ++ some x :: b)) ++ (valuesOf a).flatten,
    (valuesOf b).flatten ++ Offsets.offsetBytes ((valuesOf (a ++ some x :: b)).map List.length) ++
      if nullable then Rle.rleBytes (validityOf (a ++ some x :: b)) else [], ?_, ?_⟩ <;>
  simp [BinaryEnc.blockBytes, valuesOf, validityOf, byteCount, hxy]

/-- C118 is false of the code, binary encoder: another third value, and two blocks are different. -/
theorem C118_one_block_violated (p : Profile) :
    binaryBlocks p false 2 [[some [1, 1], some [2], some [3]]] =
      some [(0, [2, 1, 1, 2, 2]), (1, [2, 2, 3, 1, 1]), (2, [1, 3, 1, 1])] ∧
    binaryBlocks p false 2 [[some [1, 1], some [2], some [4]]] =
      some [(0, [2, 1, 1, 2, 2]), (1, [2, 2, 4, 1, 1]), (2, [1, 4, 1, 1])] := by
  cases p <;> decide +kernel

/-- Five `i32` in two buffers, two in a block: only the last block changes with the last value. -/
example :
    intBlocks .debug true 8 [[some 1, none, some 2, some 3], [some 4]] =
      some [(2, [8, 1, 0, 0, 0, 2, 0, 0, 0, 3, 5]), (4, [8, 3, 0, 0, 0, 4, 0, 0, 0, 3, 3])] ∧
    intBlocks .debug true 8 [[some 1, none, some 2, some 3], [some 5]] =
      some [(2, [8, 1, 0, 0, 0, 2, 0, 0, 0, 3, 5]), (4, [8, 3, 0, 0, 0, 5, 0, 0, 0, 3, 3])] := by
  decide +kernel

/-- The hypotheses of `C118_binary_one_block_partial`: two blocks, of which one changes. -/
example :
    Manageable 2 true [] [] [[some [1]], [none, some [2]], [some [3, 4]]] ∧
    binaryBlocks .debug true 2 [[some [1]], [none, some [2]], [some [3, 4]]] =
      some [(2, [2, 1, 2, 1, 1, 3, 5]), (3, [2, 3, 4, 2, 2, 3, 1])] ∧
    binaryBlocks .debug true 2 [[some [1]], [none, some [9]], [some [3, 4]]] =
      some [(2, [2, 1, 9, 1, 1, 3, 5]), (3, [2, 3, 4, 2, 2, 3, 1])] := by
  decide +kernel

end Meerkat
