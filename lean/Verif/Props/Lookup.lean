import Verif.Proofs.Lookup
import Verif.Props.PrimitiveExact
import Verif.Props.BinaryExact
import Verif.Props.EncoderSink
import Verif.Props.EncodingChoice

set_option autoImplicit false

/-! # Looking up a row by its number (C75)

`Spec.rowAt` goes to the first block whose row id is not below the row and counts from the row id of the block before. -/

namespace Meerkat
open Spec Lookup

theorem inc_of_pairwise {γ : Type} (L : List (Nat × List γ)) : ∀ start, (∀ x ∈ L, start ≤ x.1) →
    (L.map Prod.fst).Pairwise (· < ·) → Inc start L := by
  induction L with
  | nil => intros; trivial
  | cons x L ih =>
    intro start h hp
    rw [List.map_cons, List.pairwise_cons] at hp
    exact ⟨h x (by simp), ih _ (fun y hy => hp.1 y.1 (List.mem_map_of_mem hy)) hp.2⟩

theorem inc_zip {γ : Type} {ids : List Nat} {gs : List (List γ)} (hl : ids.length = gs.length) (h : ids.Pairwise (· < ·)) :
    Inc 0 (ids.zip gs) :=
  inc_of_pairwise _ 0 (fun _ _ => Nat.zero_le _) (by rw [List.map_fst_zip (by omega)]; exact h)

theorem le_sum_of_mem {l : List Nat} {x : Nat} (h : x ∈ l) : x ≤ l.sum := by
  induction l with
  | nil => simp at h
  | cons y l ih =>
    rw [List.sum_cons]
    rcases List.mem_cons.mp h with rfl | h
    · omega
    · have := ih h; omega

theorem flatMap_dropTrailing_sublist {α : Type} (bufs : List (List (Option α))) :
    (bufs.flatMap dropTrailingNulls).Sublist bufs.flatten := by
  induction bufs with
  | nil => simp
  | cons b bufs ih =>
    rw [List.flatMap_cons, List.flatten_cons]
    refine List.Sublist.append ?_ ih
    obtain ⟨q, hq, _⟩ := dropTrailingNulls_spec b
    conv => rhs; rw [hq]
    exact List.sublist_append_left _ _

namespace PrimitiveEnc
variable {α : Type} [Element α]

/-- Which calls may write two blocks, in a nullable column: only the last one that writes, and no more than two. -/
def CallsRight : List (List (List (Option α))) → Prop
  | [] => True
  | ms :: cs => ms.length ≤ 1 ∧ CallsRight cs ∨ ms.length = 2 ∧ cs.flatten = []

theorem zip_blocksOf (nullable : Bool) (n : Nat) (ms : List (List (Option α))) (cs : List (List (List (Option α)))) :
    ((blocksOf nullable n (ms :: cs)).map Prod.fst).zip (ms :: cs).flatten =
      ((blocksFrom nullable n 0 ms).map Prod.fst).zip ms ++
        ((blocksOf nullable (n + increments nullable 0 ms) cs).map Prod.fst).zip cs.flatten := by
  rw [blocksOf, List.map_append, List.flatten_cons, List.zip_append]
  rw [List.length_map, blocksFrom_length]

theorem right_cons {γ : Type} {start id : Nat} {g : List γ} {L : List (Nat × List γ)} (hL : L ≠ []) :
    Right start ((id, g) :: L) ↔ id + 1 = start + g.length ∧ Right (id + 1) L := by
  cases L with
  | nil => exact absurd rfl hL
  | cons y L => exact Iff.rfl

theorem zip_nil_iff (n : Nat) (cs : List (List (List (Option α)))) :
    ((blocksOf true n cs).map Prod.fst).zip cs.flatten = [] ↔ cs.flatten = [] := by
  constructor
  · intro h
    have := congrArg List.length h
    rw [List.length_zip, List.length_map, blocksOf_length] at this
    exact List.eq_nil_of_length_eq_zero (by simpa using this)
  · intro h; rw [h, List.zip_nil_right]

/-- The row ids of a nullable column. -/
theorem right_blocksOf (cs : List (List (List (Option α)))) : ∀ n, (∀ x ∈ cs.flatten, x ≠ []) →
    (Right n (((blocksOf true n cs).map Prod.fst).zip cs.flatten) ↔ CallsRight cs) := by
  induction cs with
  | nil => intro n _; simp [blocksOf, Right, CallsRight]
  | cons ms cs ih =>
    intro n hne
    have hne' : ∀ x ∈ cs.flatten, x ≠ [] := fun x hx => hne x (by
      rw [List.flatten_cons]; exact List.mem_append_right _ hx)
    rw [zip_blocksOf]
    match ms, hne with
    | [], _ =>
      simp only [blocksFrom, List.map_nil, List.zip_nil_left, List.nil_append, increments, Nat.add_zero]
      rw [ih n hne', CallsRight]
      simp
    | [a], hne =>
      have ha := List.length_pos_iff.mpr (hne a (by simp))
      simp only [blocksFrom, List.map_cons, List.map_nil, List.zip_cons_cons, List.zip_nil_left, increments, increment,
        if_true, Nat.zero_add, Nat.add_zero, List.cons_append, List.nil_append, CallsRight, List.length_cons,
        List.length_nil]
      have hcr : (1 ≤ 1 ∧ CallsRight cs ∨ 1 = 2 ∧ cs.flatten = []) ↔ CallsRight cs := by
        constructor
        · rintro (h | h)
          · exact h.2
          · exact absurd h.1 (by decide)
        · exact fun h => .inl ⟨Nat.le_refl 1, h⟩
      rw [hcr, ← ih (n + a.length) hne']
      by_cases hz : ((blocksOf true (n + a.length) cs).map Prod.fst).zip cs.flatten = []
      · rw [hz]
        simp only [Right, iff_true]
        omega
      · rw [right_cons hz, show n + a.length - 1 + 1 = n + a.length by omega]
        simp
    | a :: b :: ms, hne =>
      have ha := List.length_pos_iff.mpr (hne a (by simp))
      have hb := List.length_pos_iff.mpr (hne b (by simp))
      simp only [blocksFrom, List.map_cons, List.zip_cons_cons, increment, if_true, Nat.zero_add, List.cons_append]
      rw [right_cons (by simp), show n + a.length - 1 + 1 = n + a.length by omega]
      simp only [true_and, CallsRight, List.length_cons]
      constructor
      · intro h
        refine .inr ?_
        generalize hL : ((blocksFrom true _ _ ms).map Prod.fst).zip ms ++ _ = L at h
        by_cases hz : L = []
        · rw [hz, List.append_eq_nil_iff] at hL
          refine ⟨?_, (zip_nil_iff _ cs).mp hL.2⟩
          have := congrArg List.length hL.1
          rw [List.length_zip, List.length_map, blocksFrom_length] at this
          simp at this
          rw [this]; rfl
        · rw [right_cons hz] at h
          omega
      · rintro (h | ⟨h, hcs⟩)
        · omega
        · obtain rfl : ms = [] := List.eq_nil_of_length_eq_zero (by omega)
          rw [(zip_nil_iff _ cs).mpr hcs]
          simp only [List.zip_nil_right, List.append_nil, Right]
          omega

omit [Element α] in
theorem flatten_flush {R : List (Option α)} : [flushOf R].flatten = flushOf R := by simp

omit [Element α] in
theorem callsRight_append {as bs : List (List (List (Option α)))} (h : as.flatten = []) :
    CallsRight (as ++ bs) ↔ CallsRight bs := by
  induction as with
  | nil => rfl
  | cons x as ih =>
    rw [List.flatten_cons, List.append_eq_nil_iff] at h
    rw [List.cons_append, CallsRight, ih h.2, h.1]
    simp

omit [Element α] in
theorem callsOf_cons {c : Nat} (R b : List (Option α)) (bs : List (List (Option α))) :
    callsOf c R (b :: bs) = (step c R b).1 :: callsOf c (step c R b).2 bs := rfl

omit [Element α] in
/-- In terms of the buffers, when all values are written. -/
theorem callsRight_iff {c : Nat} (hc : 0 < c) (bufs : List (List (Option α)))
    (hk : kept c (bufs.map fun b => (valuesOf b).length) = (bufs.map fun b => (valuesOf b).length).sum)
    (he : ∀ b ∈ bufs, EndsWithValue b) :
    CallsRight (callsOf c [] bufs) ↔ ∀ pre b post, bufs = pre ++ b :: post → (valuesOf b).length < 2 * c ∨
      (valuesOf b).length = 2 * c ∧ post.flatten = [] := by
  induction bufs with
  | nil =>
    simp only [callsOf, stepsOf, heldOf, List.nil_append, CallsRight]
    refine ⟨fun _ pre b post h => ?_, fun _ => .inl ⟨by simp [flushOf, valuesOf], trivial⟩⟩
    simp at h
  | cons b bufs ih =>
    have hst : step c [] b = (chunksOf c b, leftOf c b) := by simp [step]
    obtain ⟨g1, g2, g3, g4, g5⟩ := leftOf_spec hc b
    rw [callsOf_cons, hst, CallsRight, chunksOf_length]
    have he' : ∀ b' ∈ bufs, EndsWithValue b' := fun x hx => he x (List.mem_cons_of_mem _ hx)
    rw [List.map_cons, kept, List.sum_cons] at hk
    have hdiv : (valuesOf b).length / c * c + (valuesOf b).length % c = (valuesOf b).length := by
      rw [Nat.mul_comm]; exact Nat.div_add_mod _ _
    -- the splits of the list
    have hsplit : ∀ P : List (Option α) → List (List (Option α)) → Prop,
        (∀ pre x post, b :: bufs = pre ++ x :: post → P x post) ↔
          P b bufs ∧ ∀ pre x post, bufs = pre ++ x :: post → P x post := by
      intro P
      constructor
      · intro h
        exact ⟨h [] b bufs rfl, fun pre x post hs => h (b :: pre) x post (by rw [hs]; rfl)⟩
      · rintro ⟨h1, h2⟩ pre x post hs
        cases pre with
        | nil =>
          simp only [List.nil_append, List.cons.injEq] at hs
          obtain ⟨rfl, rfl⟩ := hs
          exact h1
        | cons y pre =>
          simp only [List.cons_append, List.cons.injEq] at hs
          exact h2 pre x post hs.2
    rw [hsplit (fun x post => (valuesOf x).length < 2 * c ∨ (valuesOf x).length = 2 * c ∧ post.flatten = [])]
    by_cases h0 : (valuesOf b).length % c = 0
    · rw [if_pos h0] at hk
      have hz : leftOf c b = [] := values_zero g2 (by rw [g1, h0])
      have hk' : kept c (bufs.map fun b => (valuesOf b).length) = (bufs.map fun b => (valuesOf b).length).sum := by omega
      rw [hz]
      have ih := ih hk' he'
      have hempty : (callsOf c [] bufs).flatten = [] ↔ bufs.flatten = [] := by
        have hr := callsOf_rows hc bufs
        rw [(takeVals_rows_iff bufs).mpr ⟨hk', fun x hx => (endsWithValue_iff x).mp (he' x hx)⟩] at hr
        constructor
        · intro h; rw [← hr, h]; rfl
        · intro h
          rw [h] at hr
          apply Classical.byContradiction
          intro hne
          obtain ⟨x, hx⟩ := List.exists_mem_of_ne_nil _ hne
          have h1 := (callsOf_chunks hc bufs [] (.inl rfl) (by simp) x hx).1
          have h2 : x = [] := List.flatten_eq_nil_iff.mp hr x hx
          rw [h2] at h1; simp at h1
      rw [hempty]
      constructor
      · rintro (⟨h1, h2⟩ | ⟨h1, h2⟩)
        · refine ⟨.inl ?_, ih.mp h2⟩
          exact (Nat.div_lt_iff_lt_mul hc).mp (by omega)
        · refine ⟨.inr ⟨by rw [h1] at hdiv; omega, h2⟩, fun pre x post hs => .inl ?_⟩
          have hx : x = [] := by
            have hm : x ∈ bufs := by rw [hs]; simp
            exact List.flatten_eq_nil_iff.mp h2 x hm
          rw [hx]; simp [valuesOf]; omega
      · rintro ⟨h1 | ⟨h1, h2⟩, h3⟩
        · have := (Nat.div_lt_iff_lt_mul hc).mpr h1
          exact .inl ⟨by omega, ih.mpr h3⟩
        · refine .inr ⟨?_, h2⟩
          rw [h1, Nat.mul_div_cancel _ hc]
    · rw [if_neg h0] at hk
      have hlt := Nat.mod_lt (valuesOf b).length hc
      obtain ⟨k1, k2⟩ := stepsOf_pending (c := c) bufs (leftOf c b) g2 (by omega) (by omega)
      have hne : ¬ (valuesOf (heldOf c (leftOf c b) bufs)).length = 0 := by
        rw [k2, valuesOf_append, List.length_append, g1]; omega
      have hright : CallsRight (callsOf c (leftOf c b) bufs) := by
        rw [callsOf, callsRight_append k1, CallsRight, flushOf, if_neg hne]
        exact .inl ⟨by simp, trivial⟩
      have hsome : (callsOf c (leftOf c b) bufs).flatten ≠ [] := by
        rw [callsOf, List.flatten_append, k1, flushOf, if_neg hne]
        simp
      have hsmall : ∀ x ∈ bufs, (valuesOf x).length ≤ (bufs.map fun b => (valuesOf b).length).sum := by
        intro x hx
        exact le_sum_of_mem (List.mem_map.mpr ⟨x, hx, rfl⟩)
      constructor
      · rintro (⟨h1, _⟩ | ⟨_, h2⟩)
        · refine ⟨.inl ((Nat.div_lt_iff_lt_mul hc).mp (by omega)), fun pre x post hs => .inl ?_⟩
          have := hsmall x (by rw [hs]; simp)
          omega
        · exact absurd h2 hsome
      · rintro ⟨h1 | ⟨h1, _⟩, _⟩
        · have := (Nat.div_lt_iff_lt_mul hc).mpr h1
          exact .inl ⟨by omega, hright⟩
        · rw [h1, Nat.mul_mod_left] at h0
          exact absurd rfl h0

end PrimitiveEnc

section Primitive
open PrimitiveEnc
variable {α : Type} [Element α]

/-- C75 for primitive columns, exactly: every row is found by its number, and is the right one, if and only if all values are
written, no buffer ends with a null and, in a nullable column, no buffer has the values of two blocks, except
that the last one with rows may have those of exactly two. -/
theorem C75_primitive_lookup_exact (p q : Profile) (nullable : Bool) (m : Nat) (hm : 0 < m)
    (hm64 : m < 2 ^ 64) (hd : Element.size α ∣ m ∨ p = .debug) (bufs : List (List (Option α))) (bs)
    (hb : buildAll nullable bufs = .ok bs) (hlen : rowCount bufs < 2 ^ 32 - 8) (e blocks)
    (hrun : encodeColumn p recorder bs (Encoder.new m nullable, []) = (.ok (), (e, blocks))) :
    (∀ r, r < bufs.flatten.length → rowAt (readPrimitive q nullable) blocks r = bufs.flatten[r]?) ↔
      kept ((m + Element.size α - 1) / Element.size α) (bufs.map fun b => (valuesOf b).length) =
        (bufs.map fun b => (valuesOf b).length).sum ∧
      (∀ b ∈ bufs, b = [] ∨ ∃ l v, b = l ++ [some v]) ∧
      (nullable = true → ∀ pre b post, bufs = pre ++ b :: post →
        (valuesOf b).length < 2 * ((m + Element.size α - 1) / Element.size α) ∨
        (valuesOf b).length = 2 * ((m + Element.size α - 1) / Element.size α) ∧ post.flatten = []) := by
  have hA := (buildAll_ok hb).1
  have hc := perBlock_pos (α := α) hm
  have hpw := (C57_row_ids_increase (α := α) p m hm hm64 nullable).1 bs
  rw [hrun] at hpw
  have hbl := run_blocks hm hm64 hd hb hlen hrun
  have hread := run_read q hm hA hlen
  rw [← hbl] at hread
  have hids : (blocks.map Prod.fst).length = (callsOf (perBlock α m) [] bufs).flatten.length := by
    rw [hbl, List.length_map, blocksOf_length]
  have hne : ∀ x ∈ (callsOf (perBlock α m) [] bufs).flatten, x ≠ [] := by
    intro x hx hx0
    have := (callsOf_chunks hc bufs [] (.inl rfl) (by simp) x hx).1
    rw [hx0] at this
    simp at this
  have hrows := callsOf_rows hc bufs
  have hlook := fun r => rowAt_read hread r
  have hiff : Right 0 ((blocks.map Prod.fst).zip (callsOf (perBlock α m) [] bufs).flatten) ↔
      (nullable = true → CallsRight (callsOf (perBlock α m) [] bufs)) := by
    cases nullable with
    | true =>
      rw [hbl, right_blocksOf _ 0 hne]
      simp
    | false =>
      simp only [Bool.false_eq_true, false_implies, iff_true]
      have : blocks.map Prod.fst = lastRowIds 0 (callsOf (perBlock α m) [] bufs).flatten := by
        rw [hbl]
        refine blocksOf_ids false _ 0 fun ms hms => ?_
        simp only [CountsRight, Bool.false_eq_true, if_false]
        intro x hx
        exact (callsOf_accepts hc hA (List.mem_flatten.mpr ⟨ms, hms, hx⟩)).resolve_left (by decide)
      rw [this]
      exact right_of_lastRowIds _ 0 hne
  rw [← perBlock_ceil]
  constructor
  · intro h
    have hfound : ∀ r, 0 ≤ r → r < 0 + bufs.flatten.length →
        (look 0 ((blocks.map Prod.fst).zip (callsOf (perBlock α m) [] bufs).flatten) r).isSome = true := by
      intro r _ hr
      rw [← hlook, h r (by omega), List.getElem?_eq_getElem (by omega)]
      rfl
    have hle := found_le _ 0 _ (inc_zip hids hpw) hfound
    rw [rowsIn_zip hids] at hle
    have hsub : (callsOf (perBlock α m) [] bufs).flatten.flatten.Sublist bufs.flatten := by
      rw [hrows]
      exact (takeVals_prefix _ _).sublist.trans (flatMap_dropTrailing_sublist bufs)
    have heq := hsub.eq_of_length_le hle
    have h12 := (takeVals_rows_iff bufs).mp (hrows.symm.trans heq)
    refine ⟨h12.1, h12.2, fun hn => ?_⟩
    refine (callsRight_iff hc bufs h12.1 fun b hb => (endsWithValue_iff b).mpr (h12.2 b hb)).mp (hiff.mp ?_ hn)
    refine right_of_found _ 0 (inc_zip hids hpw) (fun x hx => hne x.2 (List.of_mem_zip hx).2) ?_
    rw [rowsIn_zip hids, heq]
    exact hfound
  · rintro ⟨h1, h2, h3⟩ r hr
    have heq := hrows.trans ((takeVals_rows_iff bufs).mpr ⟨h1, h2⟩)
    have hR := hiff.mpr fun hn =>
      (callsRight_iff hc bufs h1 fun b hb => (endsWithValue_iff b).mpr (h2 b hb)).mpr (h3 hn)
    have := found_of_right _ 0 r hR (by omega) (by rw [rowsIn_zip hids, heq]; omega)
    rw [hlook, this, rowsIn_zip hids, heq, Nat.sub_zero]

/-- C75 as far as it holds for primitive columns that are not nullable, whatever the buffers: exactly the values
that are written are found by their row numbers. -/
theorem C75_primitive_lookup_partial (p q : Profile) (m : Nat) (hm : 0 < m)
    (hm64 : m < 2 ^ 64) (hd : Element.size α ∣ m ∨ p = .debug) (bufs : List (List (Option α))) (bs)
    (hb : buildAll false bufs = .ok bs) (hlen : rowCount bufs < 2 ^ 32 - 8) (e blocks)
    (hrun : encodeColumn p recorder bs (Encoder.new m false, []) = (.ok (), (e, blocks))) (r : Nat) :
    rowAt (readPrimitive q false) blocks r = (bufs.flatten.take
      (kept ((m + Element.size α - 1) / Element.size α) (bufs.map fun b => (valuesOf b).length)))[r]? := by
  have hA := (buildAll_ok hb).1
  have hc := perBlock_pos (α := α) hm
  obtain ⟨groups, h1, h2, h3⟩ := C28_primitive_row_ids_partial p q false m hm hm64 hd bufs bs hb hlen
    (fun h => by cases h) e blocks hrun
  have hv := C26_primitive_values_exact p q false m hm hm64 hd bufs bs hb hlen e blocks hrun
  rw [readColumn, h1, Option.map_some, Option.map_some, Option.some_inj] at hv
  have hbl := run_blocks hm hm64 hd hb hlen hrun
  have hread := run_read q hm hA hlen
  rw [← hbl, h1, Option.some_inj] at hread
  subst hread
  have hne : ∀ x ∈ (callsOf (perBlock α m) [] bufs).flatten, x ≠ [] := by
    intro x hx hx0
    have := (callsOf_chunks hc bufs [] (.inl rfl) (by simp) x hx).1
    rw [hx0] at this
    simp at this
  have hnn : none ∉ bufs.flatten := fun h => by
    obtain ⟨b, hbm, hx⟩ := List.mem_flatten.mp h
    exact (hA b hbm).resolve_left (by decide) hx
  have hsome : ∀ l : List (Option α), none ∉ l → (valuesOf l).map some = l := by
    intro l hl
    induction l with
    | nil => rfl
    | cons x l ih =>
      cases x with
      | none => simp at hl
      | some v =>
        simp only [List.mem_cons, reduceCtorEq, false_or] at hl
        have h := ih hl
        simp only [valuesOf, List.filterMap_cons, id_eq, List.map_cons] at h ⊢
        rw [h]
  rw [rowAt_read h1, h3, look_lastRowIds _ 0 r hne (by omega), Nat.sub_zero]
  rw [← hsome _ (fun h => hnn (h2.subset h)), hv, List.map_take, hsome _ hnn]

/-- C75 is false of the code. A null at the end of a buffer is not counted, so that what is found under its number is the row
after it, and the last row is not found. And when a nullable buffer gives three blocks, rows of the third one are not found,
although it is written. -/
theorem C75_primitive_lookup_violated (p q : Profile) :
    (∃ (bs : List (PrimitiveBuffer Int32)) (e : Encoder Int32) (blocks : List (Nat × Bytes)),
      buildAll true [[some 1, none], [some 2]] = .ok bs ∧
      encodeColumn p recorder bs (Encoder.new 128 true, []) = (.ok (), (e, blocks)) ∧
      rowAt (readPrimitive (α := Int32) q true) blocks 1 = some (some 2) ∧
      rowAt (readPrimitive (α := Int32) q true) blocks 2 = none) ∧
    ∃ (bs : List (PrimitiveBuffer Int32)) (e : Encoder Int32) (blocks : List (Nat × Bytes)),
      buildAll true [List.replicate 96 (some 5)] = .ok bs ∧
      encodeColumn p recorder bs (Encoder.new 128 true, []) = (.ok (), (e, blocks)) ∧
      readColumn q true (blocks.map (·.2)) = some (List.replicate 96 (some (5 : Int32))) ∧
      rowAt (readPrimitive (α := Int32) q true) blocks 63 = some (some 5) ∧
      rowAt (readPrimitive (α := Int32) q true) blocks 64 = none := by
  have key : ∀ bufs : List (List (Option Int32)), rowCount bufs * (rowCount bufs / (128 / Element.size Int32) + 1) < 2 ^ 32 →
      rowCount bufs < 2 ^ 32 - 8 →
      ∃ (bs : List (PrimitiveBuffer Int32)) (e : Encoder Int32) (blocks : List (Nat × Bytes)),
        buildAll true bufs = .ok bs ∧ encodeColumn p recorder bs (Encoder.new 128 true, []) = (.ok (), (e, blocks)) ∧
        (blocks.map (·.2)).mapM (readPrimitive q true) = some (callsOf (perBlock Int32 128) [] bufs).flatten ∧
        ∀ r, rowAt (readPrimitive (α := Int32) q true) blocks r =
          look 0 (((blocksOf true 0 (callsOf (perBlock Int32 128) [] bufs)).map Prod.fst).zip
            (callsOf (perBlock Int32 128) [] bufs).flatten) r := by
    intro bufs h1 h2
    have hb := buildAll_of_accepts (nullable := true) (bufs := bufs) (fun _ _ => .inl rfl)
    obtain ⟨e, blocks, h⟩ := C30_primitive_completes_partial p true 128 (by decide) (by decide) (by decide)
      _ _ hb (by omega) (.inl (by decide)) (fun _ => h1)
    have hbl := run_blocks (by decide) (by decide) (.inl (by decide)) hb h2 h
    have hread := run_read q (α := Int32) (m := 128) (by decide) (bufs := bufs) (nullable := true) (fun _ _ => .inl rfl) h2
    rw [← hbl] at hread
    refine ⟨_, e, blocks, hb, h, hread, fun r => ?_⟩
    rw [rowAt_read hread, hbl]
  constructor
  · obtain ⟨bs, e, blocks, h1, h2, h3, h4⟩ := key [[some 1, none], [some 2]] (by decide) (by decide)
    refine ⟨bs, e, blocks, h1, h2, ?_, ?_⟩
    · rw [h4]; decide +kernel
    · rw [h4]; decide +kernel
  · obtain ⟨bs, e, blocks, h1, h2, h3, h4⟩ := key [List.replicate 96 (some 5)] (by decide) (by decide)
    refine ⟨bs, e, blocks, h1, h2, ?_, ?_, ?_⟩
    · rw [readColumn, h3, Option.map_some]; decide +kernel
    · rw [h4]; decide +kernel
    · rw [h4]; decide +kernel

/-- Both sides occur: two blocks from the last buffer are found, from the one before they are not. -/
example : (∀ pre b post, [List.replicate 32 (some (7 : Int32)), List.replicate 64 (some 7), []] = pre ++ b :: post →
      (valuesOf b).length < 2 * ((128 + Element.size Int32 - 1) / Element.size Int32) ∨
      (valuesOf b).length = 2 * ((128 + Element.size Int32 - 1) / Element.size Int32) ∧ post.flatten = []) ∧
    ¬ ∀ pre b post, [List.replicate 64 (some (7 : Int32)), List.replicate 32 (some 7)] = pre ++ b :: post →
      (valuesOf b).length < 2 * ((128 + Element.size Int32 - 1) / Element.size Int32) ∨
      (valuesOf b).length = 2 * ((128 + Element.size Int32 - 1) / Element.size Int32) ∧ post.flatten = [] := by
  constructor
  · intro pre b post h
    match pre, h with
    | [], h => obtain ⟨rfl, rfl⟩ := List.cons.inj h; exact .inl (by decide)
    | [_], h => obtain ⟨rfl, rfl⟩ := List.cons.inj (List.cons.inj h).2; exact .inr ⟨by decide, rfl⟩
    | [_, _], h => obtain ⟨rfl, rfl⟩ := List.cons.inj (List.cons.inj (List.cons.inj h).2).2; exact .inl (by decide)
    | _ :: _ :: _ :: pre, h => have := congrArg List.length h; simp at this
  · intro h
    rcases h [] _ _ rfl with h | h
    · exact absurd h (by decide)
    · exact absurd h.2 (by decide)

end Primitive

section Binary
open BinaryEnc

theorem datas_flatten (gs : List (List (Option Bytes))) :
    (gs.map fun g => (valuesOf g).flatten).flatten = (valuesOf gs.flatten).flatten := by
  induction gs with
  | nil => rfl
  | cons g gs ih => rw [List.map_cons, List.flatten_cons, List.flatten_cons, valuesOf_append, List.flatten_append, ih]

theorem readBlocks_rowAt {q : Profile} {nullable : Bool} {counts : List Nat} {blocks : List (Nat × Bytes)}
    {groups : List (List (Option Bytes))} (hl : counts.length = blocks.length)
    (h : readBlocks q nullable (counts.zip (blocks.map (·.2))) = some groups) (r : Nat) :
    rowAt (fun x : Nat × Bytes => readBinary q nullable x.1 x.2)
        ((blocks.map (·.1)).zip (counts.zip (blocks.map (·.2)))) r =
      look 0 ((blocks.map (·.1)).zip groups) r := by
  have h1 : ((blocks.map (·.1)).zip (counts.zip (blocks.map (·.2)))).map Prod.snd = counts.zip (blocks.map (·.2)) :=
    List.map_snd_zip (by simp; omega)
  have h2 : ((blocks.map (·.1)).zip (counts.zip (blocks.map (·.2)))).map Prod.fst = blocks.map (·.1) :=
    List.map_fst_zip (by simp; omega)
  rw [rowAt_read (gs := groups) (by rw [h1]; exact h), h2]

/-- C75 for binary columns, exactly: the run completes, the blocks are read back to the column with some numbers of items, and
with these every row is found by its number, if and only if the history is manageable, no buffer ends with a null and no
block loses bits of its lengths. -/
theorem C75_binary_lookup_exact (p q : Profile) (nullable : Bool) (m : Nat) (hm : 0 < m)
    (bufs : List (List (Option Bytes))) (bs) (hb : buildBinary nullable bufs = .ok bs)
    (hlen : bufs.flatten.length < 2 ^ 32 - 7) (hm32 : m ≤ U32_MAX) :
    (∃ (e : Encoder) (blocks : List (Nat × Bytes)) (counts : List Nat) (groups : List (List (Option Bytes))),
      encodeColumn p recorder bs (Encoder.new m nullable, []) = (.ok (), (e, blocks)) ∧
      counts.length = blocks.length ∧ readBlocks q nullable (counts.zip (blocks.map (·.2))) = some groups ∧
      groups.flatten = bufs.flatten ∧ ∀ r, r < bufs.flatten.length →
        rowAt (fun x : Nat × Bytes => readBinary q nullable x.1 x.2)
          ((blocks.map (·.1)).zip (counts.zip (blocks.map (·.2)))) r = bufs.flatten[r]?) ↔
    Manageable m nullable [] [] bufs ∧ (∀ b ∈ bufs, b = [] ∨ ∃ l v, b = l ++ [some v]) ∧
      ∀ g ∈ fillGroups m [] bufs, ReadableLengths ((valuesOf g).map List.length) := by
  constructor
  · rintro ⟨e, blocks, counts, groups, hrun, hcl, hread, hflat, hrow⟩
    obtain ⟨k1, k2, k3⟩ := readBlocks_zip (by simpa using hcl) hread
    have hman : Manageable m false [] [] bufs :=
      (C32_binary_data_exact p q nullable m hm bufs bs hb (by omega) hm32).1.mp ⟨e, blocks, _, hrun, k2, by
        rw [← hflat]; exact datas_flatten groups⟩
    have hrun0 := hrun
    obtain ⟨e', h⟩ := binary_written p (nullable := nullable) hm hb (by omega) hm32 hman
    rw [h] at hrun
    simp only [Prod.mk.injEq, true_and] at hrun
    obtain ⟨_, rfl⟩ := hrun
    -- the last row is found
    have hcount : bufs.flatten.length ≤ countBits (fillPairs m nullable [] [] bufs) := by
      apply Classical.byContradiction
      intro hlt
      have h1 := hrow (countBits (fillPairs m nullable [] [] bufs)) (by omega)
      rw [readBlocks_rowAt hcl hread, look_none, List.getElem?_eq_getElem (by omega)] at h1
      · cases h1
      · intro x hx
        have h2 := (List.of_mem_zip hx).1
        rw [blocksWith_ids] at h2
        have hpos := fillPairs_pos (nullable := nullable) bufs [] [] (by simpa [byteCount, valuesOf] using hm) hman
        revert h2
        have gen : ∀ (L : List (List Bool)) (n : Nat), (∀ l ∈ L, l ≠ []) → x.1 ∈ lastRowIds n L →
            x.1 < n + (L.map List.length).sum := by
          intro L
          induction L with
          | nil => intro n _ h; simp [lastRowIds] at h
          | cons l L ih =>
            intro n hne h
            have hl := List.length_pos_iff.mpr (hne l (by simp))
            rw [lastRowIds] at h
            rw [List.map_cons, List.sum_cons]
            rcases List.mem_cons.mp h with h | h
            · omega
            · have := ih _ (fun x hx => hne x (List.mem_cons_of_mem _ hx)) h; omega
        intro h2
        have := gen _ 0 (by
          intro l hl
          obtain ⟨g, hg, rfl⟩ := List.mem_map.mp hl
          exact hpos g hg) h2
        rw [List.map_map] at this
        rw [countBits]
        simpa [Function.comp_def] using this
    have hle := countBits_fillPairs_le m nullable bufs [] []
    have hrows := fillGroups_rows m bufs [] (.inl rfl)
    rw [List.nil_append] at hrows
    have hdl := flatten_length_le bufs
    have hends := ends_of_length bufs (by rw [hrows] at hle; omega)
    have hman' := manageable_of_count m nullable bufs [] [] (.inl rfl) hman (by rw [hrows] at hle ⊢; omega)
    obtain ⟨e'', h'⟩ := binary_run p hm hb (by omega) hm32 hman'
    rw [h] at h'
    simp only [Prod.mk.injEq, true_and] at h'
    obtain ⟨_, hbl⟩ := h'
    have hids := congrArg (List.map Prod.fst) hbl
    rw [blocksOf_ids] at hids
    have hne := fillGroups_nonempty bufs [] [] (by simpa [byteCount, valuesOf] using hm) hman'
    rw [flatMap_ends hends] at hrows
    have hG : (fillGroups m [] bufs).length = groups.length := by
      have := congrArg List.length hids
      rw [List.length_map, lastRowIds_length] at this
      rw [← k1, List.length_map, this]
    obtain ⟨_, hlens⟩ := lengths_of_found (fillGroups m [] bufs) groups 0 hG hne (fun r _ hr => by
      rw [hrows] at hr
      have := hrow r (by omega)
      rw [readBlocks_rowAt hcl hread, hids] at this
      rw [this, List.getElem?_eq_getElem (by omega)]
      rfl)
    have hgroups : groups = fillGroups m [] bufs := by
      rw [List.eq_iff_flatten_eq]
      exact ⟨by rw [hflat, hrows], (hlens (by rw [hrows, hflat]; omega)).symm⟩
    exact (C35_binary_roundtrip_exact p q nullable m hm bufs bs hb hlen hm32).mp
      ⟨e, _, counts, groups, hrun0, hcl, hread, hflat, by rw [hgroups]; exact hne, by rw [hgroups]; exact hids⟩
  · rintro ⟨hman, hends, hr⟩
    obtain ⟨e, blocks, counts, groups, hrun, hcl, hread, hflat, hne, hids⟩ :=
      (C35_binary_roundtrip_exact p q nullable m hm bufs bs hb hlen hm32).mpr ⟨hman, hends, hr⟩
    refine ⟨e, blocks, counts, groups, hrun, hcl, hread, hflat, fun r _ => ?_⟩
    rw [readBlocks_rowAt hcl hread, hids, look_lastRowIds _ 0 r hne (by omega), hflat, Nat.sub_zero]

/-- A column with nulls each row of which is found, so that both sides hold. -/
example (p q : Profile) (r : Nat) (hr : r < 5) :
    ∃ e : Encoder, encodeColumn p recorder ([[none, some [7]], [], [none, none, some []]].map
      (BinaryBuffer.ofRows true)) (Encoder.new 2 true, []) = (.ok (), (e, [(4, [1, 7, 1, 1, 3, 18])])) ∧
    rowAt (fun x : Nat × Bytes => readBinary q true x.1 x.2) [(4, 2, [1, 7, 1, 1, 3, 18])] r =
      [none, some [7], none, none, some []][r]? := by
  obtain ⟨e, h⟩ := of_outcome (r := encodeColumn p recorder ([[none, some [7]], [], [none, none, some []]].map
    (BinaryBuffer.ofRows true)) (Encoder.new 2 true, [])) (a := .ok ())
    (b := [(4, [1, 7, 1, 1, 3, 18])]) (by cases p <;> decide +kernel)
  refine ⟨e, h, ?_⟩
  cases q <;> (revert r; decide +kernel)

/-- C75 fails for nullable binary columns: of a column of three rows with a null at the end of its first buffer, row 1
is found to be the empty item of row 2, and row 2 is not found at all, however many items the reader takes the block to have. -/
theorem C75_binary_lookup_violated (p q : Profile) :
    ∃ bs e blocks, buildBinary true [[some [7], none], [some []]] = .ok bs ∧
      encodeColumn p recorder bs (Encoder.new 128 true, []) = (.ok (), (e, blocks)) ∧
      rowAt (readBinary q true 2) blocks 1 = some (some []) ∧
      ∀ count, rowAt (readBinary q true count) blocks 2 = none := by
  have hb := buildBinary_of_accepts (nullable := true) (bufs := [[some [7], none], [some []]])
    (by simp [Accepts]) (by simp [byteCount, valuesOf, U32_MAX])
  obtain ⟨e, h⟩ := of_outcome (r := encodeColumn p recorder ([[some [7], none], [some []]].map
    (BinaryBuffer.ofRows true)) (Encoder.new 128 true, [])) (a := .ok ())
    (b := [(1, [1, 7, 1, 1, 3, 3])]) (by cases p <;> decide +kernel)
  exact ⟨_, e, _, hb, h, by cases q <;> decide +kernel, fun _ => rfl⟩

end Binary
end Meerkat
