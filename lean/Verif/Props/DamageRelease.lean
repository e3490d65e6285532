import Verif.Props.DamagePrimitive
import Verif.Props.PrimitiveWritten

set_option autoImplicit false

/-! # Damaged files of primitive columns in release builds, for all block sizes: C96 -/

namespace Meerkat
open Spec PrimitiveEnc Damage DamagePrimitive

namespace DamageRelease
variable {α : Type}

/-- A piece without its values. -/
def bare (x : Piece α) : Piece Unit := ⟨nulls x.rows, x.counted⟩

theorem nulls_values (a : List (Option α)) : valuesOf (nulls a) = (valuesOf a).map fun _ => () := by
  induction a with
  | nil => rfl
  | cons x a ih => cases x <;> simp_all [nulls, valuesOf]

theorem nulls_rebuild (bits : List Bool) : ∀ vs : List α,
    rebuild bits (vs.map fun _ => ()) = (rebuild bits vs).map nulls := by
  induction bits with
  | nil => intro vs; cases vs <;> rfl
  | cons b bits ih =>
    intro vs
    cases b with
    | false => simp only [rebuild, ih, Option.map_map]; rfl
    | true =>
      cases vs with
      | nil => rfl
      | cons v vs => simp only [List.map_cons, rebuild, ih, Option.map_map]; rfl

theorem shape_full (nullable : Bool) (c k : Nat) : ∀ (seen : Nat) (a : List (Option α)),
    fullPieces nullable c k seen (nulls a) = (fullPieces nullable c k seen a).map bare := by
  induction k with
  | zero => intro _ _; rfl
  | succ k ih =>
    intro seen a
    simp only [fullPieces, nulls_takeVals, nulls_length, count_nulls, nulls_drop, ih, List.map_cons, bare]

theorem shape_whole (nullable : Bool) (st : List Bool) (a : List (Option α)) :
    wholePiece nullable st (nulls a) = bare (wholePiece nullable st a) := by
  have hs : seenBits st (nulls a) = seenBits st a := by simp only [seenBits, validity_nulls, nulls_length]
  cases nullable with
  | false => simp only [wholePiece, Bool.false_eq_true, if_false, bare, count_nulls]
  | true =>
    simp only [wholePiece, if_true, bare, hs, nulls_values, nulls_rebuild, List.length_map]
    congr 1
    cases rebuild (uptoSet (valuesOf a).length (seenBits st a)) (valuesOf a) <;> rfl

theorem shape_call (nullable : Bool) (size m : Nat) (st : List Bool) (R a : List (Option α)) :
    callPieces nullable size m st (nulls R) (nulls a) = (callPieces nullable size m st R a).map bare := by
  simp only [callPieces, count_nulls, shape_full, nulls_dropTrailing, ← nulls_append, shape_whole]
  repeat' split
  all_goals rfl

theorem shape_held (nullable : Bool) (size m : Nat) (R a : List (Option α)) :
    callHeld nullable size m (nulls R) (nulls a) = nulls (callHeld nullable size m R a) := by
  have hl : ∀ ps : List (Piece α), ((ps.map bare).flatMap (·.rows)).length = (ps.flatMap (·.rows)).length := by
    intro ps
    induction ps with
    | nil => rfl
    | cons x ps ih => simp only [List.map_cons, List.flatMap_cons, List.length_append, ih, bare, nulls_length]
  simp only [callHeld, count_nulls, shape_full, hl, nulls_dropTrailing, nulls_drop, nulls_takeVals, ← nulls_append]
  repeat' split
  all_goals rfl

theorem shape_stale (size m : Nat) (st : List Bool) (R a : List (Option α)) :
    callStale size m st (nulls R) (nulls a) = callStale size m st R a := by
  simp only [callStale, count_nulls, nulls_dropTrailing, ← nulls_append, validity_nulls]

theorem shape_column (nullable : Bool) (size m : Nat) (bufs : List (List (Option α))) : ∀ (st : List Bool)
    (R : List (Option α)),
    columnPieces nullable size m st (nulls R) (bufs.map nulls) = (columnPieces nullable size m st R bufs).map bare := by
  induction bufs with
  | nil =>
    intro st R
    simp only [columnPieces, List.map_nil, count_nulls, shape_whole]
    split <;> rfl
  | cons b bufs ih =>
    intro st R
    simp only [columnPieces, List.map_cons, shape_call, shape_stale, shape_held, ih, List.map_append]

theorem counted_shape (ps : List (Piece α)) : countedBy (ps.map bare) = countedBy ps := by
  simp [countedBy, bare, Function.comp_def]

section
variable [Element α]

theorem pieces_shape (nullable : Bool) {ps : List (Piece α)} : ∀ {ps' : List (Piece α)} (n : Nat),
    ps.map bare = ps'.map bare →
    (pieceBlocks nullable n ps).map Prod.fst = (pieceBlocks nullable n ps').map Prod.fst ∧
    (pieceBlocks nullable n ps).map (fun b => b.2.length) = (pieceBlocks nullable n ps').map (fun b => b.2.length) ∧
    distance ((pieceBlocks nullable n ps).flatMap Prod.snd) ((pieceBlocks nullable n ps').flatMap Prod.snd) =
      distance (toByteSlice (ps.flatMap fun x => valuesOf x.rows)) (toByteSlice (ps'.flatMap fun x => valuesOf x.rows)) := by
  induction ps with
  | nil =>
    intro ps' n h
    cases ps' with
    | nil => exact ⟨rfl, rfl, rfl⟩
    | cons => simp at h
  | cons x ps ih =>
    intro ps' n h
    cases ps' with
    | nil => simp at h
    | cons x' ps' =>
      simp only [List.map_cons, List.cons.injEq] at h
      have hn : nulls x.rows = nulls x'.rows := show (bare x).rows = (bare x').rows by rw [h.1]
      have hc : x.counted = x'.counted := show (bare x).counted = (bare x').counted by rw [h.1]
      have hv : (valuesOf x.rows).length = (valuesOf x'.rows).length := by rw [← count_nulls, hn, count_nulls]
      obtain ⟨b1, b2⟩ := block_nulls nullable hn
      obtain ⟨i1, i2, i3⟩ := ih (n + x.counted) h.2
      simp only [pieceBlocks, List.map_cons, List.flatMap_cons, slice_append, ← hc, i1, i2, b1, true_and]
      rw [distance_append b1, distance_append (by rw [slice_length, slice_length, hv]), b2, i3]

end

/-- What is held back is written first. -/
theorem wrapped_held (c m : Nat) (bufs : List (List α)) : ∀ R : List α,
    ∃ t, ∀ x : α, (wrappedGroups c m (x :: R) bufs).flatten = x :: t := by
  induction bufs with
  | nil => intro R; exact ⟨R, fun x => by simp [wrappedGroups]⟩
  | cons b bufs ih =>
    intro R
    by_cases h1 : R.length + 1 < c
    · obtain ⟨t, ht⟩ := ih (R ++ b.take (c - (R.length + 1)))
      exact ⟨t, fun x => by simpa [wrappedGroups, h1] using ht x⟩
    · by_cases h2 : R.length + 1 + b.length < m
      · obtain ⟨t, ht⟩ := ih (R ++ b)
        exact ⟨t, fun x => by simpa [wrappedGroups, h1, h2] using ht x⟩
      · exact ⟨R ++ b ++ (wrappedGroups c m [] bufs).flatten, fun x => by simp [wrappedGroups, h1, h2]⟩

/-- The first value is always written, first. -/
theorem wrapped_first (c m : Nat) (pre : List (List α)) (hpre : ∀ b ∈ pre, b = []) (b : List α) (post : List (List α)) :
    ∃ t, ∀ x : α, (wrappedGroups c m [] (pre ++ (x :: b) :: post)).flatten = x :: t := by
  induction pre with
  | nil =>
    cases hk : (b.length + 1) / c * c with
    | zero =>
      obtain ⟨t, ht⟩ := wrapped_held c m post b
      refine ⟨t, fun x => ?_⟩
      rw [List.nil_append, wrappedGroups, if_pos List.length_nil, List.flatten_append, chunks_length, List.length_cons, hk, List.take_zero,
        List.nil_append, List.drop_zero]
      exact ht x
    | succ j =>
      refine ⟨b.take j ++ (wrappedGroups c m (b.drop j) post).flatten, fun x => ?_⟩
      rw [List.nil_append, wrappedGroups, if_pos List.length_nil, List.flatten_append, chunks_length, List.length_cons, hk,
        List.take_succ_cons, List.drop_succ_cons, List.cons_append]
  | cons a pre ih =>
    obtain rfl := hpre a (by simp)
    obtain ⟨t, ht⟩ := ih fun b hb => hpre b (List.mem_cons_of_mem _ hb)
    refine ⟨t, fun x => ?_⟩
    rw [List.cons_append, wrappedGroups]
    simpa using ht x

end DamageRelease

open DamageRelease
variable {α : Type} [Element α]

/-- C96 for primitive columns in release builds, for every block size: if a column is written, so is every column with nulls
at the same rows, as blocks with the same row ids and lengths, and the blocks differ in exactly as many bytes as the values
in the blocks of `Spec.columnPieces` (not all values of the column when C26 is violated). -/
theorem C96_primitive_release_exact (nullable : Bool) (m : Nat) (hm : 0 < m) (hm64 : m < 2 ^ 64)
    (bufs bufs' : List (List (Option α))) (hs : bufs.map validityOf = bufs'.map validityOf)
    (bs) (hb : buildAll nullable bufs = .ok bs) (hlen : rowCount bufs < 2 ^ 32 - 8) (e blocks)
    (hrun : encodeColumn .release recorder bs (Encoder.new m nullable, []) = (.ok (), (e, blocks))) :
    ∃ bs' e' blocks', buildAll nullable bufs' = .ok bs' ∧
      encodeColumn .release recorder bs' (Encoder.new m nullable, []) = (.ok (), (e', blocks')) ∧
      blocks.map Prod.fst = blocks'.map Prod.fst ∧
      blocks.map (fun b => b.2.length) = blocks'.map (fun b => b.2.length) ∧
      let written := fun bufs => (columnPieces nullable (Element.size α) m [] [] bufs).flatMap fun x => valuesOf x.rows
      distance (blocks.flatMap Prod.snd) (blocks'.flatMap Prod.snd) =
        distance ((written bufs).flatMap Element.bytes) ((written bufs').flatMap Element.bytes) := by
  have hn := nulls_columns hs
  obtain ⟨hA, hbs⟩ := buildAll_ok hb
  have hA' := accepts_columns hs hA
  have hl := rowCount_eq bufs
  have hlens : bufs'.map List.length = bufs.map List.length := by
    have := congrArg (List.map List.length) hn
    simpa only [List.map_map, Function.comp_def, nulls_length] using this.symm
  have hsh : (columnPieces nullable (Element.size α) m [] [] bufs).map bare =
      (columnPieces nullable (Element.size α) m [] [] bufs').map bare := by
    rw [← shape_column, ← shape_column, hn]
  have hcount : countedBy (columnPieces nullable (Element.size α) m [] [] bufs') =
      countedBy (columnPieces nullable (Element.size α) m [] [] bufs) := by
    rw [← counted_shape, ← hsh, counted_shape]
  have hnew : PHolds nullable [] (Encoder.new (α := α) m nullable).remaining [] := by
    have := pholds_ofRows (α := α) nullable []
    rwa [← PrimitiveBuffer.new_eq] at this
  have hz : (Encoder.new (α := α) m nullable).numRows = 0 := rfl
  obtain ⟨c1, c2⟩ := column_release nullable m hm hm64 bufs [] [] (Encoder.new m nullable) [] rfl hnew
    (.inr (by simp)) hA (.inl rfl) (by simp only [List.length_nil]; omega) (by rw [hz]; omega)
  obtain ⟨d1, _⟩ := column_release nullable m hm hm64 bufs' [] [] (Encoder.new m nullable) [] rfl hnew
    (.inr (by simp)) hA' (.inl rfl) (by simp only [List.length_nil, hlens]; omega) (by rw [hz]; omega)
  rw [hz, Nat.zero_add] at c1 c2 d1
  subst hbs
  have hlt : countedBy (columnPieces nullable (Element.size α) m [] [] bufs) < 2 ^ 32 := by
    by_cases h : countedBy (columnPieces nullable (Element.size α) m [] [] bufs) < 2 ^ 32
    · exact h
    · obtain ⟨_, _, h1, _⟩ := c2 h
      rw [h1] at hrun
      cases (Prod.mk.inj hrun).1
  obtain ⟨e1, h1⟩ := c1 hlt
  obtain ⟨e', h2⟩ := d1 (by rw [hcount]; exact hlt)
  rw [hrun] at h1
  have hbl : blocks = pieceBlocks nullable 0 (columnPieces nullable (Element.size α) m [] [] bufs) :=
    (Prod.mk.inj (Prod.mk.inj h1).2).2
  obtain ⟨g1, g2, g3⟩ := pieces_shape nullable 0 hsh
  refine ⟨_, e', _, buildAll_of_accepts hA', h2, ?_, ?_, ?_⟩
  · rw [hbl, g1]; rfl
  · rw [hbl, g2]; rfl
  · rw [hbl]; exact g3

/-- C96 is false of the code for primitive columns too, in all builds and for all block sizes: whatever column is written,
unless all its rows are null, there is another one that is written as blocks with the same row ids and lengths, which differ
in a single byte. -/
theorem C96_primitive_violated (hflip : ∀ x : α, ∃ y : α, distance (Element.bytes x) (Element.bytes y) = 1)
    (p : Profile) (nullable : Bool) (m : Nat) (hm : 0 < m) (hm64 : m < 2 ^ 64)
    (bufs : List (List (Option α))) (hv : valuesOf bufs.flatten ≠ [])
    (bs) (hb : buildAll nullable bufs = .ok bs) (hlen : rowCount bufs < 2 ^ 32 - 8) (e blocks)
    (hrun : encodeColumn p recorder bs (Encoder.new m nullable, []) = (.ok (), (e, blocks))) :
    ∃ bufs' bs' e' blocks', bufs' ≠ bufs ∧ buildAll nullable bufs' = .ok bs' ∧
      encodeColumn p recorder bs' (Encoder.new m nullable, []) = (.ok (), (e', blocks')) ∧
      blocks.map Prod.fst = blocks'.map Prod.fst ∧
      blocks.map (fun b => b.2.length) = blocks'.map (fun b => b.2.length) ∧
      distance (blocks.flatMap Prod.snd) (blocks'.flatMap Prod.snd) = 1 := by
  by_cases hd : Element.size α ∣ m ∨ p = .debug
  · exact violated_even hflip p nullable m hm hm64 hd bufs hv bs hb hlen e blocks hrun
  obtain ⟨hd', hp⟩ : ¬ Element.size α ∣ m ∧ ¬ p = .debug := ⟨fun h => hd (.inl h), fun h => hd (.inr h)⟩
  obtain rfl : p = .release := by cases p; exact absurd rfl hp; rfl
  obtain ⟨pre, r1, v, r2, post, rfl, h1, h2⟩ := first_value bufs hv
  obtain ⟨w, hw⟩ := hflip v
  have hs : (pre ++ (r1 ++ some v :: r2) :: post).map validityOf =
      (pre ++ (r1 ++ some w :: r2) :: post).map validityOf := by simp [validityOf]
  obtain ⟨bs', e', blocks', g1, g2, g3, g4, g5⟩ := C96_primitive_release_exact nullable m hm hm64 _
    (pre ++ (r1 ++ some w :: r2) :: post) hs bs hb hlen e blocks hrun
  have hA := (buildAll_ok hb).1
  have hA' := accepts_columns hs hA
  obtain ⟨t, ht⟩ := wrapped_first (perBlock α m) m (pre.map valuesOf) (by
    intro b hb
    obtain ⟨a, ha, rfl⟩ := List.mem_map.1 hb
    have : valuesOf a ⊆ valuesOf pre.flatten := by
      intro x hx
      simp only [valuesOf, List.mem_filterMap, List.mem_flatten] at hx ⊢
      obtain ⟨y, hy, hyx⟩ := hx
      exact ⟨y, ⟨a, ha, hy⟩, hyx⟩
    rw [h1] at this
    exact List.subset_nil.1 this) (valuesOf r2) (post.map valuesOf)
  have hval : ∀ x : α, (∀ b ∈ pre ++ (r1 ++ some x :: r2) :: post, Accepts nullable b) →
      ((columnPieces nullable (Element.size α) m [] [] (pre ++ (r1 ++ some x :: r2) :: post)).flatMap
        fun x => valuesOf x.rows) = x :: t := by
    intro x hx
    rw [List.flatMap_def, columnPieces_values nullable hm hd' _ [] [] (.inr (by simp)) hx (.inl rfl), ← ht x]
    have : valuesOf (r1 ++ some x :: r2) = x :: valuesOf r2 := by rw [valuesOf_append, h2]; rfl
    rw [List.map_append, List.map_cons, this]
    rfl
  refine ⟨_, bs', e', blocks', ?_, g1, g2, g3, g4, ?_⟩
  · intro h
    have h3 := congrArg (fun l => valuesOf l.flatten) h
    simp [valuesOf] at h3
    rw [h3, distance_self] at hw
    cases hw
  · refine g5.trans ?_
    simp only []
    rw [hval v hA, hval w hA', List.flatMap_cons, List.flatMap_cons,
      distance_append (by rw [Element.bytes_length, Element.bytes_length]), hw, distance_self]

/-- Blocks of at least 5 bytes: the second buffer's rows beyond the first block are dropped, so that a column which differs
there is written as the same bytes, and one which differs in the first value is not. -/
example :
    let run := fun bufs : List (List (Option Int32)) =>
      encodeColumn .release recorder (bufs.map (PrimitiveBuffer.ofRows true)) (Encoder.new 5 true, [])
    let one := run [[none, some 1], [some 2, none, some 3]]
    let other := run [[none, some 1], [some 2, none, some 4]]
    let first := run [[none, some (-1)], [some 2, none, some 3]]
    one.1.toOption.isSome ∧ one.2.2.length = 1 ∧ other.2.2 = one.2.2 ∧ first.2.2.map (·.1) = one.2.2.map (·.1) ∧
      distance (one.2.2.flatMap (·.2)) (first.2.2.flatMap (·.2)) = 4 := by
  decide +kernel

end Meerkat
