import Verif.Props.PrimitiveEnc
import Verif.Props.Damage

set_option autoImplicit false

/-! # Damaged files of primitive columns: C96 -/

namespace Meerkat
open Spec PrimitiveEnc Damage

namespace DamagePrimitive
variable {α : Type}

/-- The rows without their values. -/
def nulls (a : List (Option α)) : List (Option Unit) := a.map (Option.map fun _ => ())

theorem nulls_of_validity {a a' : List (Option α)} (h : validityOf a = validityOf a') : nulls a = nulls a' := by
  induction a generalizing a' with
  | nil => cases a' with
    | nil => rfl
    | cons => simp [validityOf] at h
  | cons x a ih => cases a' with
    | nil => simp [validityOf] at h
    | cons y a' =>
      simp only [validityOf, List.map_cons, List.cons.injEq] at h
      have := ih h.2
      simp only [nulls, List.map_cons] at this ⊢
      rw [this]
      cases x <;> cases y <;> simp_all

theorem validity_nulls (a : List (Option α)) : validityOf (nulls a) = validityOf a := by simp [nulls, validityOf]

theorem nulls_length (a : List (Option α)) : (nulls a).length = a.length := by simp [nulls]

theorem count_nulls (a : List (Option α)) : (valuesOf (nulls a)).length = (valuesOf a).length := by
  induction a with
  | nil => rfl
  | cons x a ih => cases x <;> simp_all [nulls, valuesOf]

theorem nulls_append (a b : List (Option α)) : nulls (a ++ b) = nulls a ++ nulls b := by simp [nulls]

theorem nulls_drop (n : Nat) (a : List (Option α)) : (nulls a).drop n = nulls (a.drop n) := by
  simp [nulls, List.map_drop]

theorem nulls_takeVals (a : List (Option α)) : ∀ j, takeVals j (nulls a) = nulls (takeVals j a) := by
  induction a with
  | nil => intro j; cases j <;> rfl
  | cons x a ih =>
    intro j
    cases j with
    | zero => cases x <;> rfl
    | succ j => cases x <;> simp_all [nulls, takeVals]

theorem nulls_dropTrailing (a : List (Option α)) : dropTrailingNulls (nulls a) = nulls (dropTrailingNulls a) := by
  have h : ∀ l : List (Option α), (l.map (Option.map fun _ => ())).dropWhile Option.isNone =
      (l.dropWhile Option.isNone).map (Option.map fun _ => ()) := by
    intro l
    induction l with
    | nil => rfl
    | cons x l ih => cases x <;> simp_all
  simp only [dropTrailingNulls, nulls, ← List.map_reverse, h]

theorem nulls_chunks (c k : Nat) : ∀ a : List (Option α), chunkRows c k (nulls a) = (chunkRows c k a).map nulls ∧
    afterChunks c k (nulls a) = nulls (afterChunks c k a) := by
  induction k with
  | zero => intro a; exact ⟨rfl, rfl⟩
  | succ k ih =>
    intro a
    obtain ⟨h1, h2⟩ := ih (a.drop (takeVals c a).length)
    simp only [chunkRows, afterChunks, nulls_takeVals, nulls_length, nulls_drop, h1, h2, List.map_cons, and_self]

theorem nulls_step (c : Nat) (R a : List (Option α)) :
    step c (nulls R) (nulls a) = ((step c R a).1.map nulls, nulls (step c R a).2) := by
  simp only [step, count_nulls, chunksOf, leftOf, (nulls_chunks ..).1, (nulls_chunks ..).2, nulls_dropTrailing,
    nulls_takeVals]
  split
  · rfl
  · simp [nulls_append]

theorem nulls_steps (c : Nat) (bufs : List (List (Option α))) : ∀ R : List (Option α),
    stepsOf c (nulls R) (bufs.map nulls) = (stepsOf c R bufs).map (List.map nulls) ∧
    heldOf c (nulls R) (bufs.map nulls) = nulls (heldOf c R bufs) := by
  induction bufs with
  | nil => intro R; exact ⟨rfl, rfl⟩
  | cons b bufs ih =>
    intro R
    obtain ⟨h1, h2⟩ := ih (step c R b).2
    simp only [List.map_cons, stepsOf, heldOf, nulls_step, h1, h2, and_self]

theorem nulls_calls (c : Nat) (R : List (Option α)) (bufs : List (List (Option α))) :
    callsOf c (nulls R) (bufs.map nulls) = (callsOf c R bufs).map (List.map nulls) := by
  obtain ⟨h1, h2⟩ := nulls_steps c bufs R
  simp only [callsOf, h1, h2, flushOf, count_nulls, List.map_append, List.map_cons, List.map_nil]
  split <;> rfl

theorem nulls_increment (nullable : Bool) (base : Nat) (a : List (Option α)) :
    increment nullable base (nulls a) = increment nullable base a := by
  simp [increment, nulls_length, count_nulls]

theorem nulls_increments (nullable : Bool) (ms : List (List (Option α))) : ∀ base,
    increments nullable base (ms.map nulls) = increments nullable base ms := by
  induction ms with
  | nil => intro _; rfl
  | cons m ms ih => intro base; simp only [List.map_cons, increments, nulls_increment, nulls_length, ih]

theorem nulls_total (nullable : Bool) (cs : List (List (List (Option α)))) :
    totalIncrements nullable (cs.map (List.map nulls)) = totalIncrements nullable cs := by
  induction cs with
  | nil => rfl
  | cons c cs ih => simp only [List.map_cons, totalIncrements, nulls_increments, ih]

section
variable [Element α]

theorem noUnderflow_nulls {m : Nat} {bufs : List (List (Option α))} : ∀ {bufs' : List (List (Option α))}
    {R R' : List (Option α)}, nulls R = nulls R' → bufs.map nulls = bufs'.map nulls → NoUnderflow m R bufs →
    NoUnderflow m R' bufs' := by
  induction bufs with
  | nil =>
    intro bufs' R R' _ hb _
    cases bufs' with
    | nil => trivial
    | cons => simp at hb
  | cons b bufs ih =>
    intro bufs' R R' hR hb h
    cases bufs' with
    | nil => simp at hb
    | cons b' bufs' =>
      simp only [List.map_cons, List.cons.injEq] at hb
      refine ⟨?_, ih ?_ hb.2 h.2⟩
      · rw [← count_nulls R', ← hR, count_nulls]; exact h.1
      · have h1 := congrArg Prod.snd (nulls_step (perBlock α m) R b)
        have h2 := congrArg Prod.snd (nulls_step (perBlock α m) R' b')
        rw [hR, hb.1, h2] at h1
        exact h1.symm

theorem slice_length (l : List α) : (toByteSlice l).length = Element.size α * l.length := by
  induction l with
  | nil => rfl
  | cons x l ih =>
    have h : toByteSlice (x :: l) = Element.bytes x ++ toByteSlice l := by simp [toByteSlice]
    rw [h, List.length_append, Element.bytes_length, ih, List.length_cons, Nat.mul_add, Nat.mul_one, Nat.add_comm]

theorem slice_append (a b : List α) : toByteSlice (a ++ b) = toByteSlice a ++ toByteSlice b := by simp [toByteSlice]

theorem block_nulls (nullable : Bool) {a a' : List (Option α)} (h : nulls a = nulls a') :
    (PrimitiveEnc.blockBytes nullable a).length = (PrimitiveEnc.blockBytes nullable a').length ∧
    distance (PrimitiveEnc.blockBytes nullable a) (PrimitiveEnc.blockBytes nullable a') =
      distance (toByteSlice (valuesOf a)) (toByteSlice (valuesOf a')) := by
  have hc : (valuesOf a).length = (valuesOf a').length := by rw [← count_nulls, h, count_nulls]
  have hv : validityOf a = validityOf a' := by rw [← validity_nulls, h, validity_nulls]
  have hl : (toByteSlice (valuesOf a)).length = (toByteSlice (valuesOf a')).length := by
    rw [slice_length, slice_length, hc]
  rw [PrimitiveEnc.blockBytes, PrimitiveEnc.blockBytes, hc, hv]
  refine ⟨by simp [hl], ?_⟩
  rw [distance_append (by simp [hl]), distance_append rfl]
  simp

theorem from_nulls (nullable : Bool) {ms : List (List (Option α))} : ∀ {ms' : List (List (Option α))} (n base : Nat),
    ms.map nulls = ms'.map nulls →
    (blocksFrom nullable n base ms).map Prod.fst = (blocksFrom nullable n base ms').map Prod.fst ∧
    (blocksFrom nullable n base ms).map (fun b => b.2.length) =
      (blocksFrom nullable n base ms').map (fun b => b.2.length) ∧
    ((blocksFrom nullable n base ms).flatMap Prod.snd).length = ((blocksFrom nullable n base ms').flatMap Prod.snd).length ∧
    (valuesOf ms.flatten).length = (valuesOf ms'.flatten).length ∧
    distance ((blocksFrom nullable n base ms).flatMap Prod.snd) ((blocksFrom nullable n base ms').flatMap Prod.snd) =
      distance (toByteSlice (valuesOf ms.flatten)) (toByteSlice (valuesOf ms'.flatten)) := by
  induction ms with
  | nil =>
    intro ms' n base h
    cases ms' with
    | nil => exact ⟨rfl, rfl, rfl, rfl, rfl⟩
    | cons => simp at h
  | cons g ms ih =>
    intro ms' n base h
    cases ms' with
    | nil => simp at h
    | cons g' ms' =>
      simp only [List.map_cons, List.cons.injEq] at h
      have hl : g.length = g'.length := by rw [← nulls_length, h.1, nulls_length]
      have hc : (valuesOf g).length = (valuesOf g').length := by rw [← count_nulls, h.1, count_nulls]
      have hi : increment nullable base g = increment nullable base g' := by
        rw [← nulls_increment, h.1, nulls_increment]
      obtain ⟨b1, b2⟩ := block_nulls nullable h.1
      obtain ⟨i1, i2, i3, i4, i5⟩ := ih (n + increment nullable base g) (base + g.length) h.2
      simp only [blocksFrom, List.map_cons, List.flatMap_cons, List.flatten_cons, valuesOf_append, slice_append,
        List.length_append, ← hi, ← hl, i1, i2, i3, i4, b1, hc, true_and]
      rw [distance_append b1, distance_append (by rw [slice_length, slice_length, hc]), b2, i5]

theorem of_nulls (nullable : Bool) {cs : List (List (List (Option α)))} : ∀ {cs' : List (List (List (Option α)))} (n : Nat),
    cs.map (List.map nulls) = cs'.map (List.map nulls) →
    (PrimitiveEnc.blocksOf nullable n cs).map Prod.fst = (PrimitiveEnc.blocksOf nullable n cs').map Prod.fst ∧
    (PrimitiveEnc.blocksOf nullable n cs).map (fun b => b.2.length) =
      (PrimitiveEnc.blocksOf nullable n cs').map (fun b => b.2.length) ∧
    distance ((PrimitiveEnc.blocksOf nullable n cs).flatMap Prod.snd)
        ((PrimitiveEnc.blocksOf nullable n cs').flatMap Prod.snd) =
      distance (toByteSlice (valuesOf cs.flatten.flatten)) (toByteSlice (valuesOf cs'.flatten.flatten)) := by
  induction cs with
  | nil =>
    intro cs' n h
    cases cs' with
    | nil => exact ⟨rfl, rfl, rfl⟩
    | cons => simp at h
  | cons ms cs ih =>
    intro cs' n h
    cases cs' with
    | nil => simp at h
    | cons ms' cs' =>
      simp only [List.map_cons, List.cons.injEq] at h
      have hi : increments nullable 0 ms = increments nullable 0 ms' := by
        rw [← nulls_increments, h.1, nulls_increments]
      obtain ⟨b1, b2, b3, b4, b5⟩ := from_nulls nullable n 0 h.1
      obtain ⟨i1, i2, i3⟩ := ih (n + increments nullable 0 ms) h.2
      simp only [PrimitiveEnc.blocksOf, List.map_append, List.flatMap_append, List.flatten_cons, List.flatten_append,
        valuesOf_append, slice_append, ← hi, i1, i2, b1, b2, true_and]
      rw [distance_append b3, distance_append (by rw [slice_length, slice_length, b4]), b5, i3]

end

theorem kept_pos (c : Nat) : ∀ lens : List Nat, 0 < lens.sum → 0 < kept c lens := by
  intro lens
  induction lens with
  | nil => intro h; simp at h
  | cons l ls ih =>
    intro h
    rw [List.sum_cons] at h
    rw [kept]
    split
    · rcases Nat.eq_zero_or_pos l with h0 | h0
      · have := ih (by omega); omega
      · omega
    · rename_i hl
      rcases Nat.eq_zero_or_pos l with h0 | h0
      · subst h0; simp at hl
      · omega

theorem first_value (bufs : List (List (Option α))) (h : valuesOf bufs.flatten ≠ []) :
    ∃ pre r1 v r2 post, bufs = pre ++ (r1 ++ some v :: r2) :: post ∧ valuesOf pre.flatten = [] ∧ valuesOf r1 = [] := by
  have hrow : ∀ r : List (Option α), valuesOf r ≠ [] → ∃ r1 v r2, r = r1 ++ some v :: r2 ∧ valuesOf r1 = [] := by
    intro r
    induction r with
    | nil => intro h; simp at h
    | cons x r ih =>
      intro h
      cases x with
      | some v => exact ⟨[], v, r, rfl, rfl⟩
      | none =>
        obtain ⟨r1, v, r2, rfl, h2⟩ := ih (by simpa [valuesOf] using h)
        exact ⟨none :: r1, v, r2, rfl, by simpa [valuesOf] using h2⟩
  induction bufs with
  | nil => simp at h
  | cons b bufs ih =>
    by_cases hb : valuesOf b = []
    · rw [List.flatten_cons, valuesOf_append, hb, List.nil_append] at h
      obtain ⟨pre, r1, v, r2, post, rfl, h2, h3⟩ := ih h
      exact ⟨b :: pre, r1, v, r2, post, rfl, by rw [List.flatten_cons, valuesOf_append, hb, h2]; rfl, h3⟩
    · obtain ⟨r1, v, r2, rfl, h2⟩ := hrow b hb
      exact ⟨[], r1, v, r2, bufs, rfl, rfl, h2⟩

theorem nulls_columns {bufs : List (List (Option α))} : ∀ {bufs' : List (List (Option α))},
    bufs.map validityOf = bufs'.map validityOf → bufs.map nulls = bufs'.map nulls := by
  induction bufs with
  | nil =>
    intro bufs' hs
    cases bufs' with
    | nil => rfl
    | cons => simp at hs
  | cons b bufs ih =>
    intro bufs' hs
    cases bufs' with
    | nil => simp at hs
    | cons b' bufs' =>
      simp only [List.map_cons, List.cons.injEq] at hs ⊢
      exact ⟨nulls_of_validity hs.1, ih hs.2⟩

theorem accepts_columns {nullable : Bool} {bufs bufs' : List (List (Option α))}
    (hs : bufs.map validityOf = bufs'.map validityOf) (hA : ∀ b ∈ bufs, Accepts nullable b) :
    ∀ b ∈ bufs', Accepts nullable b := by
  intro b' hb'
  have : validityOf b' ∈ bufs.map validityOf := by rw [hs]; exact List.mem_map.2 ⟨b', hb', rfl⟩
  obtain ⟨b, hbm, hv⟩ := List.mem_map.1 this
  rcases hA b hbm with h | h
  · exact .inl h
  · refine .inr fun hno => h ?_
    have h1 : false ∈ validityOf b' := List.mem_map.2 ⟨none, hno, rfl⟩
    rw [← hv] at h1
    obtain ⟨x, hx, hx2⟩ := List.mem_map.1 h1
    cases x with
    | none => exact hx
    | some => cases hx2

end DamagePrimitive

open DamagePrimitive
variable {α : Type} [Element α]

/-- C96 for primitive columns, what the files show of the values: if a column is written, so is every column with nulls at
the same rows, as blocks with the same row ids and lengths, and the blocks differ in exactly as many bytes as the values
that get into blocks (all of them unless C26 is violated). -/
theorem C96_primitive_exact (p : Profile) (nullable : Bool) (m : Nat) (hm : 0 < m) (hm64 : m < 2 ^ 64)
    (hd : Element.size α ∣ m ∨ p = .debug) (bufs bufs' : List (List (Option α)))
    (hs : bufs.map validityOf = bufs'.map validityOf) (bs) (hb : buildAll nullable bufs = .ok bs)
    (hlen : rowCount bufs < 2 ^ 32 - 8) (e blocks)
    (hrun : encodeColumn p recorder bs (Encoder.new m nullable, []) = (.ok (), (e, blocks))) :
    ∃ bs' e' blocks', buildAll nullable bufs' = .ok bs' ∧
      encodeColumn p recorder bs' (Encoder.new m nullable, []) = (.ok (), (e', blocks')) ∧
      blocks.map Prod.fst = blocks'.map Prod.fst ∧
      blocks.map (fun b => b.2.length) = blocks'.map (fun b => b.2.length) ∧
      let k := kept ((m + Element.size α - 1) / Element.size α) (bufs.map fun b => (valuesOf b).length)
      distance (blocks.flatMap Prod.snd) (blocks'.flatMap Prod.snd) =
        distance (((valuesOf bufs.flatten).take k).flatMap Element.bytes)
          (((valuesOf bufs'.flatten).take k).flatMap Element.bytes) := by
  have hn := nulls_columns hs
  obtain ⟨hA, hbs⟩ := buildAll_ok hb
  have hl := rowCount_eq bufs
  have hU : U32_MAX = 2 ^ 32 - 1 := rfl
  have hlens : bufs'.map List.length = bufs.map List.length := by
    have := congrArg (List.map List.length) hn
    simpa only [List.map_map, Function.comp_def, nulls_length] using this.symm
  have hcounts : bufs'.map (fun b => (valuesOf b).length) = bufs.map (fun b => (valuesOf b).length) := by
    have := congrArg (List.map fun b => (valuesOf b).length) hn
    simpa only [List.map_map, Function.comp_def, count_nulls] using this.symm
  have hA' := accepts_columns hs hA
  have hnu : NoUnderflow m [] bufs := by
    rw [hbs] at hrun
    rcases ha : encodeAll p recorder (bufs.map (PrimitiveBuffer.ofRows nullable)) (Encoder.new m nullable, []) with ⟨r, s⟩
    cases r with
    | ok _ => exact noUnderflow_of_ok hm hm64 hd (by omega) ha
    | error x => rw [encodeColumn, Run.bind_error ha] at hrun; cases (Prod.mk.inj hrun).1
  have hbl := run_blocks hm hm64 hd hb hlen hrun
  have hcalls : (callsOf (perBlock α m) [] bufs).map (List.map nulls) =
      (callsOf (perBlock α m) [] bufs').map (List.map nulls) := by
    have h1 := nulls_calls (perBlock α m) ([] : List (Option α)) bufs
    have h2 := nulls_calls (perBlock α m) ([] : List (Option α)) bufs'
    rw [← h1, ← h2, hn]
  have htot : totalIncrements nullable (callsOf (perBlock α m) [] bufs') =
      totalIncrements nullable (callsOf (perBlock α m) [] bufs) := by
    rw [← nulls_total, ← hcalls, nulls_total]
  have hr : 0 + totalIncrements nullable (callsOf (perBlock α m) [] bufs) < 2 ^ 32 := by
    rcases Nat.lt_or_ge (0 + totalIncrements nullable (callsOf (perBlock α m) [] bufs)) (2 ^ 32) with h | h
    · exact h
    · obtain ⟨e', j, h1, _⟩ := encodeColumn_err p nullable m hm hm64 bufs [] (Encoder.new m nullable) [] rfl
        (PrimitiveBuffer.new_eq _) (by simp [EndsWithValue]) (by simp) hnu
        (by simp only [List.length_nil]; omega) (.inr (by simp only [List.length_nil]; omega))
        (by simp [Encoder.new]) (by show ¬ (0 + _ < 2 ^ 32); omega)
      rw [hbs, h1] at hrun
      cases (Prod.mk.inj hrun).1
  obtain ⟨e', h1, _⟩ := encodeColumn_ok p nullable m hm hm64 bufs' [] (Encoder.new m nullable) [] rfl
    (PrimitiveBuffer.new_eq _) (by simp [EndsWithValue]) (by simp) (noUnderflow_nulls rfl hn hnu)
    (by simp only [List.length_nil, hlens]; omega) (.inr (by simp only [List.length_nil, hlens]; omega))
    (by rw [htot]; exact hr)
  obtain ⟨g1, g2, g3⟩ := of_nulls nullable (cs := callsOf (perBlock α m) [] bufs) 0 hcalls
  have hc := perBlock_pos (α := α) hm
  refine ⟨_, e', _, buildAll_of_accepts hA', h1, ?_, ?_, ?_⟩
  · rw [hbl, g1]; rfl
  · rw [hbl, g2]; rfl
  · intro k
    rw [hbl]
    refine g3.trans ?_
    rw [callsOf_rows hc, callsOf_rows hc, takeVals_values, takeVals_values, flatMap_dropTrailing_values,
      flatMap_dropTrailing_values, hcounts, perBlock_ceil]
    rfl

/-- C96 is false for primitive columns, when the wrapping subtraction is not reached (see `C96_primitive_violated`). -/
theorem DamagePrimitive.violated_even (hflip : ∀ x : α, ∃ y : α, distance (Element.bytes x) (Element.bytes y) = 1)
    (p : Profile) (nullable : Bool) (m : Nat) (hm : 0 < m) (hm64 : m < 2 ^ 64)
    (hd : Element.size α ∣ m ∨ p = .debug) (bufs : List (List (Option α))) (hv : valuesOf bufs.flatten ≠ [])
    (bs) (hb : buildAll nullable bufs = .ok bs) (hlen : rowCount bufs < 2 ^ 32 - 8) (e blocks)
    (hrun : encodeColumn p recorder bs (Encoder.new m nullable, []) = (.ok (), (e, blocks))) :
    ∃ bufs' bs' e' blocks', bufs' ≠ bufs ∧ buildAll nullable bufs' = .ok bs' ∧
      encodeColumn p recorder bs' (Encoder.new m nullable, []) = (.ok (), (e', blocks')) ∧
      blocks.map Prod.fst = blocks'.map Prod.fst ∧
      blocks.map (fun b => b.2.length) = blocks'.map (fun b => b.2.length) ∧
      distance (blocks.flatMap Prod.snd) (blocks'.flatMap Prod.snd) = 1 := by
  obtain ⟨pre, r1, v, r2, post, rfl, h1, h2⟩ := first_value bufs hv
  obtain ⟨w, hw⟩ := hflip v
  obtain ⟨bs', e', blocks', g1, g2, g3, g4, g5⟩ := C96_primitive_exact p nullable m hm hm64 hd _
    (pre ++ (r1 ++ some w :: r2) :: post) (by simp [validityOf]) bs hb hlen e blocks hrun
  have hval : ∀ x : α, valuesOf (pre ++ (r1 ++ some x :: r2) :: post).flatten =
      x :: (valuesOf r2 ++ valuesOf post.flatten) := by
    intro x
    rw [List.flatten_append, List.flatten_cons, valuesOf_append, valuesOf_append, valuesOf_append, h1, h2]
    simp [valuesOf]
  have hsum : 0 < ((pre ++ (r1 ++ some v :: r2) :: post).map fun b => (valuesOf b).length).sum := by
    simp only [List.map_append, List.map_cons, List.sum_append, List.sum_cons, valuesOf_append, List.length_append]
    have : (valuesOf (some v :: r2)).length = (valuesOf r2).length + 1 := by simp [valuesOf]
    omega
  have hk := kept_pos ((m + Element.size α - 1) / Element.size α) _ hsum
  refine ⟨_, bs', e', blocks', ?_, g1, g2, g3, g4, ?_⟩
  · intro h
    have := hval w
    rw [h, hval v] at this
    have hvw := (List.cons.inj this).1
    rw [hvw, distance_self] at hw
    cases hw
  · refine g5.trans ?_
    obtain ⟨k, hk'⟩ := Nat.exists_eq_add_of_lt hk
    rw [hk', hval, hval, show 0 + k + 1 = k + 1 by omega, List.take_succ_cons, List.take_succ_cons, List.flatMap_cons,
      List.flatMap_cons, distance_append (by rw [Element.bytes_length, Element.bytes_length]), hw, distance_self]

namespace DamagePrimitive

theorem leBytes_flip (n v : Nat) : ∃ w, distance (leBytes (n + 1) v) (leBytes (n + 1) w) = 1 ∧
    (∀ k, v < 256 ^ (k + 1) → w < 256 ^ (k + 1)) := by
  refine ⟨v / 256 * 256 + (v % 256 + 1) % 256, ?_, ?_⟩
  · rw [leBytes, leBytes, distance, if_neg, show (v / 256 * 256 + (v % 256 + 1) % 256) / 256 = v / 256 by omega,
      distance_self]
    intro h
    have := congrArg UInt8.toNat h
    simp only [UInt8.toNat_ofNat'] at this
    omega
  · intro k h
    rw [Nat.pow_succ] at h ⊢
    omega

end DamagePrimitive

/-- For the element types in use another value differs in one byte. -/
theorem C96_elements :
    (∀ x : Int32, ∃ y : Int32, distance (Element.bytes x) (Element.bytes y) = 1) ∧
    (∀ x : Int64, ∃ y : Int64, distance (Element.bytes x) (Element.bytes y) = 1) ∧
    (∀ x : UInt64, ∃ y : UInt64, distance (Element.bytes x) (Element.bytes y) = 1) := by
  refine ⟨fun x => ?_, fun x => ?_, fun x => ?_⟩
  · obtain ⟨w, h1, h2⟩ := leBytes_flip 3 x.toUInt32.toNat
    refine ⟨⟨UInt32.ofNat w⟩, ?_⟩
    have hw := h2 3 x.toUInt32.toNat_lt
    show distance (leBytes 4 x.toUInt32.toNat) (leBytes 4 (UInt32.ofNat w).toNat) = 1
    rw [UInt32.toNat_ofNat', Nat.mod_eq_of_lt hw]; exact h1
  · obtain ⟨w, h1, h2⟩ := leBytes_flip 7 x.toUInt64.toNat
    refine ⟨⟨UInt64.ofNat w⟩, ?_⟩
    have hw := h2 7 x.toUInt64.toNat_lt
    show distance (leBytes 8 x.toUInt64.toNat) (leBytes 8 (UInt64.ofNat w).toNat) = 1
    rw [UInt64.toNat_ofNat', Nat.mod_eq_of_lt hw]; exact h1
  · obtain ⟨w, h1, h2⟩ := leBytes_flip 7 x.toNat
    refine ⟨UInt64.ofNat w, ?_⟩
    have hw := h2 7 x.toNat_lt
    show distance (leBytes 8 x.toNat) (leBytes 8 (UInt64.ofNat w).toNat) = 1
    rw [UInt64.toNat_ofNat', Nat.mod_eq_of_lt hw]; exact h1

/-- A nullable column of three blocks of two values; in the other column two values differ, one of them in all bytes. -/
example : ∃ e blocks bs' e' blocks',
    encodeColumn .debug recorder [PrimitiveBuffer.ofRows true [some (1 : Int32), none, some 2],
      PrimitiveBuffer.ofRows true [some 3, some 4, none, some 5]] (Encoder.new 8 true, []) = (.ok (), (e, blocks)) ∧
    buildAll true [[some (1 : Int32), none, some 3], [some 3, some (-5), none, some 5]] = .ok bs' ∧
    encodeColumn .debug recorder bs' (Encoder.new 8 true, []) = (.ok (), (e', blocks')) ∧
    blocks.map Prod.fst = blocks'.map Prod.fst ∧
    distance (blocks.flatMap Prod.snd) (blocks'.flatMap Prod.snd) = 5 := by
  have hb := buildAll_of_accepts (nullable := true) (bufs := [[some (1 : Int32), none, some 2], [some 3, some 4, none, some 5]])
    (fun _ _ => .inl rfl)
  obtain ⟨e, blocks, hrun⟩ := C30_primitive_completes_partial .debug true 8 (by decide) (by decide) (by decide)
    [[some (1 : Int32), none, some 2], [some 3, some 4, none, some 5]] _ hb (by decide) (.inl (by decide)) (fun _ => by decide +kernel)
  obtain ⟨bs', e', blocks', g1, g2, g3, _, g5⟩ := C96_primitive_exact .debug true 8 (by decide) (by decide) (.inr rfl)
    _ [[some (1 : Int32), none, some 3], [some 3, some (-5), none, some 5]] (by decide) _ hb (by decide) e blocks hrun
  exact ⟨e, blocks, bs', e', blocks', hrun, g1, g2, g3, g5.trans (by decide +kernel)⟩

end Meerkat
