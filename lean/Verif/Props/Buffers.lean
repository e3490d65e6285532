import Verif.Proofs.AppendFrom
import Verif.Props.Bitmap

set_option autoImplicit false

/-! # Properties C05-C12: the column buffers -/

namespace Meerkat
open Spec

/-- C05: any accepted call sequence on a new primitive buffer is shown back exactly; the column can
be reconstructed from validity and values (`Spec.rebuild`). -/
theorem C05_primitive_faithful {α : Type} (nullable : Bool) (rows : List (Option α))
    (h : Accepts nullable rows) :
    ∃ b : PrimitiveBuffer α, (PrimitiveBuffer.new nullable).pushAll rows = .ok b ∧
      b.Shows nullable rows ∧ rebuild (validityOf rows) b.values = some rows :=
  ⟨_, PrimitiveBuffer.new_pushAll nullable rows h, PrimitiveBuffer.ofRows_shows nullable rows h,
    rebuild_eq rows⟩

example : Accepts true [some 3, none, some (5 : Nat)] := .inl rfl
example : Accepts false [some 3, some (5 : Nat)] := .inr (by simp)

/-- C06: a call sequence on a new binary buffer returns exactly when no null is put in a
non-nullable buffer and the data fits 32-bit offsets; the buffer then shows the column. -/
theorem C06_binary_faithful (nullable : Bool) (rows : List (Option Bytes)) :
    ((∃ b, (BinaryBuffer.new nullable).pushAll rows = .ok b) ↔
      Accepts nullable rows ∧ (valuesOf rows).flatten.length ≤ 2 ^ 32 - 1) ∧
    ∀ b, (BinaryBuffer.new nullable).pushAll rows = .ok b →
      b.Shows nullable rows ∧ rebuild (validityOf rows) (valuesOf rows) = some rows := by
  refine ⟨⟨fun ⟨b, hb⟩ => ?_, fun ⟨hA, hd⟩ => ⟨_, BinaryBuffer.new_pushAll nullable rows hA hd⟩⟩, ?_⟩
  · obtain ⟨h1, h2, _⟩ := BinaryBuffer.new_pushAll_ok hb
    exact ⟨h1, h2⟩
  · intro b hb
    obtain ⟨h1, _, rfl⟩ := BinaryBuffer.new_pushAll_ok hb
    exact ⟨BinaryBuffer.ofRows_shows _ _ h1, rebuild_eq rows⟩

example : ∃ b, (BinaryBuffer.new true).pushAll [some [1, 2], none, some [], some [7]] = .ok b :=
  (C06_binary_faithful _ _).1.mpr ⟨.inl rfl, by decide⟩

/-- C07: any accepted call sequence on a new boolean buffer is shown back exactly. -/
theorem C07_bool_faithful (nullable : Bool) (rows : List (Option Bool)) (h : Accepts nullable rows) :
    ∃ b, (BoolBuffer.new nullable).pushAll rows = .ok b ∧ b.Shows nullable rows ∧
      rebuild (validityOf rows) (valuesOf rows) = some rows :=
  ⟨_, BoolBuffer.new_pushAll nullable rows h, BoolBuffer.ofRows_shows nullable rows h, rebuild_eq rows⟩

example : Accepts true [some true, none, some false] := .inl rfl

/-- C08: a non-nullable buffer panics on the first null, whatever surrounds it, and whatever
succeeds holds no null; on a nullable buffer of any content `append_null` returns. -/
theorem C08_non_nullable_never_null {α : Type} :
    (∀ rows : List (Option α), none ∈ rows →
      (PrimitiveBuffer.new false : PrimitiveBuffer α).pushAll rows = .error .expect) ∧
    (∀ rows : List (Option Bytes), none ∈ rows →
      (BinaryBuffer.new false).pushAll rows = .error .expect) ∧
    (∀ rows : List (Option Bool), none ∈ rows →
      (BoolBuffer.new false).pushAll rows = .error .expect) ∧
    (∀ (rows : List (Option α)) b, (PrimitiveBuffer.new false).pushAll rows = .ok b →
      (∀ p, b.hasNulls p = .ok false) ∧ b.validity = none ∧ b.numValues = b.len) ∧
    (∀ rows b, (BinaryBuffer.new false).pushAll rows = .ok b →
      (∀ p, b.hasNulls p = .ok false) ∧ b.validity = none ∧ b.numValues = b.len) ∧
    (∀ rows b, (BoolBuffer.new false).pushAll rows = .ok b →
      b.hasNulls = false ∧ b.validity = none ∧ b.len = b.values.len) ∧
    (∀ (rows : List (Option α)) b, (PrimitiveBuffer.new true).pushAll rows = .ok b →
      ∃ b', b.appendNull = .ok b') ∧
    (∀ rows b, (BinaryBuffer.new true).pushAll rows = .ok b → ∃ b', b.appendNull = .ok b') ∧
    (∀ rows b, (BoolBuffer.new true).pushAll rows = .ok b → ∃ b', b.appendNull = .ok b') := by
  refine ⟨PrimitiveBuffer.new_pushAll_err, BinaryBuffer.new_pushAll_err, BoolBuffer.new_pushAll_err,
    ?_, ?_, ?_, ?_, ?_, ?_⟩
  · intro rows b hb
    have hn : none ∉ rows := fun h => by rw [PrimitiveBuffer.new_pushAll_err _ h] at hb; cases hb
    rw [PrimitiveBuffer.new_pushAll _ _ (.inr hn)] at hb; cases hb
    have s := PrimitiveBuffer.ofRows_shows false rows (.inr hn)
    refine ⟨fun p => by rw [s.hasNulls, any_isNone_of_no_none hn], rfl, rfl⟩
  · intro rows b hb
    obtain ⟨hA, _, rfl⟩ := BinaryBuffer.new_pushAll_ok hb
    have hn : none ∉ rows := by rcases hA with h | h; · cases h
                                · exact h
    have s := BinaryBuffer.ofRows_shows false rows hA
    exact ⟨fun p => by rw [s.hasNulls, any_isNone_of_no_none hn], rfl, rfl⟩
  · intro rows b hb
    have hn : none ∉ rows := fun h => by rw [BoolBuffer.new_pushAll_err _ h] at hb; cases hb
    rw [BoolBuffer.new_pushAll _ _ (.inr hn)] at hb; cases hb
    have s := BoolBuffer.ofRows_shows false rows (.inr hn)
    refine ⟨by rw [s.hasNulls, any_isNone_of_no_none hn], rfl, ?_⟩
    rw [s.len, s.values.len, valuesOf_length_of_no_none hn]
  · intro rows b hb
    rw [PrimitiveBuffer.new_pushAll _ _ (.inl rfl)] at hb; cases hb
    exact ⟨_, PrimitiveBuffer.push_none rows⟩
  · intro rows b hb
    obtain ⟨hA, _, rfl⟩ := BinaryBuffer.new_pushAll_ok hb
    exact ⟨_, BinaryBuffer.push_none rows⟩
  · intro rows b hb
    rw [BoolBuffer.new_pushAll _ _ (.inl rfl)] at hb; cases hb
    exact ⟨_, BoolBuffer.push_none rows⟩

/-! ## C09: clear -/

/-- C09 is false of the code for each kind of nullable buffer (and for non-nullable boolean
buffers, whose values are themselves a bitmap): a row that was valid before `clear()` makes a null
appended at the same index read as valid. -/
theorem C09_clear_like_new_violated :
    (¬ ∀ (old rows : List (Option Nat)) b b', (PrimitiveBuffer.new true).pushAll old = .ok b →
        b.clear.pushAll rows = .ok b' → b'.Shows true rows) ∧
    (¬ ∀ old rows b b', (BinaryBuffer.new true).pushAll old = .ok b →
        b.clear.pushAll rows = .ok b' → b'.Shows true rows) ∧
    (¬ ∀ nullable old rows b b', (BoolBuffer.new nullable).pushAll old = .ok b →
        b.clear.pushAll rows = .ok b' → Accepts nullable rows → b'.Shows nullable rows) := by
  have key : ∀ m', (Bitmap.ofBits [true]).clear.appendAll [false] = .ok m' → ¬ m'.Reads [false] := by
    intro m' hm' hr
    obtain ⟨m'', h, _, hx⟩ := C02_exact [true] [false]
    rw [hm'] at h; cases h
    have h1 := hr.get 0 (by simp)
    rw [hx 0 (by simp)] at h1; simp at h1
  refine ⟨fun H => ?_, fun H => ?_, fun H => ?_⟩
  · obtain ⟨bm', hbm', _⟩ := Bitmap.appendAll_spec (Bitmap.clear_inv (Bitmap.ofBits [true])) [false]
    have hr := PrimitiveBuffer.pushAll_raw (α := Nat) [] (Bitmap.ofBits [true]).clear [none]
    simp only [validityOf_none, hbm', ok_bind, pure_eq_ok] at hr
    have s := H [some 7] [none] _ _ (PrimitiveBuffer.new_pushAll true [some 7] (.inl rfl)) hr
    obtain ⟨bm, hb, hR⟩ := s.validity
    cases hb
    exact key _ hbm' hR
  · obtain ⟨bm', hbm', _⟩ := Bitmap.appendAll_spec (Bitmap.clear_inv (Bitmap.ofBits [true])) [false]
    have hr := BinaryBuffer.pushAll_raw [] [0] (Bitmap.ofBits [true]).clear [none] (by decide)
    simp only [validityOf_none, hbm', ok_bind, pure_eq_ok] at hr
    have s := H [some [7]] [none] _ _ (BinaryBuffer.new_pushAll true [some [7]] (.inl rfl) (by decide)) hr
    obtain ⟨bm, hb, hR⟩ := s.validity
    cases hb
    exact key _ hbm' hR
  · obtain ⟨m', hm', hr⟩ := BoolBuffer.pushAll_raw_nonnull (Bitmap.ofBits [true]).clear 0 [some false]
      (Bitmap.clear_inv _) (by simp)
    have hA : Accepts false [some false] := .inr (by simp)
    have e : BoolBuffer.mk (Bitmap.ofBits [true]).clear none 0 =
        (BoolBuffer.ofRows false [some true]).clear := by
      simp only [BoolBuffer.clear, BoolBuffer.ofRows, validityOfBits, valuesOf_some]; rfl
    rw [e] at hr
    have s := H false [some true] [some false] _ _
      (BoolBuffer.new_pushAll false [some true] (.inr (by simp))) hr hA
    exact key _ hm' s.values
where
  C02_exact (old cs : List Bool) :
      ∃ m', (Bitmap.ofBits old).clear.appendAll cs = .ok m' ∧ m'.len = cs.length ∧
        ∀ (i : Nat) (hi : i < cs.length),
          m'.isSet i = .ok (cs[i] || (decide (i < 8192) && old.getD i false)) :=
    C02_clear_exact old cs _ (Bitmap.appendAll_new old)

/-- No set bit of `old` sits where `new` has an unset bit (among the positions `clear()` keeps). -/
def NoStale (old new : List Bool) : Prop :=
  ∀ (i : Nat) (hi : i < new.length), new[i] = false → i < 8192 → old.getD i false = false

/-- C09, what holds for primitive buffers. Non-nullable: `clear()` gives a new buffer. Nullable:
after `clear()`, values, lengths, row count and `has_nulls` are always those of a new buffer, and
the validity bits too when no stale bit interferes. Missing: the interfering case, which fails. -/
theorem C09_clear_primitive_partial {α : Type} (nullable : Bool) (old rows : List (Option α))
    (b : PrimitiveBuffer α) (hb : (PrimitiveBuffer.new nullable).pushAll old = .ok b)
    (hA : Accepts nullable rows) :
    (nullable = false → b.clear = PrimitiveBuffer.new false) ∧
    ∃ b', b.clear.pushAll rows = .ok b' ∧ b'.values = valuesOf rows ∧
      b'.len = (valuesOf rows).length ∧ b'.numValues = rows.length ∧ b'.isNullable = nullable ∧
      (∀ p, b'.hasNulls p = .ok (rows.any Option.isNone)) ∧
      (NoStale (validityOf old) (validityOf rows) → b'.Shows nullable rows) := by
  have hAo : Accepts nullable old := by
    cases nullable
    · right; intro h; rw [PrimitiveBuffer.new_pushAll_err _ h] at hb; cases hb
    · exact .inl rfl
  rw [PrimitiveBuffer.new_pushAll _ _ hAo] at hb; cases hb
  cases nullable with
  | false =>
    have hc : (PrimitiveBuffer.ofRows false old).clear = PrimitiveBuffer.new false := rfl
    have s := PrimitiveBuffer.ofRows_shows false rows hA
    refine ⟨fun _ => hc, _, by rw [hc]; exact PrimitiveBuffer.new_pushAll false rows hA, s.values, s.len,
      s.numValues, s.isNullable, s.hasNulls, fun _ => s⟩
  | true =>
    refine ⟨fun h => (by cases h), ?_⟩
    obtain ⟨bm', hbm', hl, hx⟩ := C02_clear_exact (validityOf old) (validityOf rows) _
      (Bitmap.appendAll_new _)
    have hr := PrimitiveBuffer.pushAll_raw (α := α) [] (Bitmap.ofBits (validityOf old)).clear rows
    simp only [hbm', ok_bind, pure_eq_ok, List.nil_append] at hr
    have hnum : bm'.len = rows.length := by rw [hl]; simp
    have hnulls : ∀ p, ({ values := valuesOf rows, validity := some bm' } : PrimitiveBuffer α).hasNulls p =
        .ok (rows.any Option.isNone) := by
      intro p
      simp only [PrimitiveBuffer.hasNulls, hnum]
      rw [Profile.sub_ok _ (valuesOf_length_le rows), any_isNone_iff]
      simp [bne, BEq.beq]
    refine ⟨_, hr, rfl, rfl, hnum, rfl, hnulls, fun hns => ⟨rfl, rfl, hnum, rfl, hnulls, bm', rfl, ?_⟩⟩
    obtain ⟨m2, h2, r2⟩ := C02_clear_like_new_partial (validityOf old) (validityOf rows) _
      (Bitmap.appendAll_new _) hns
    rw [hbm'] at h2; cases h2; exact r2

/-- C09, what holds for binary buffers, as for primitive ones. -/
theorem C09_clear_binary_partial (nullable : Bool) (old rows : List (Option Bytes))
    (b : BinaryBuffer) (hb : (BinaryBuffer.new nullable).pushAll old = .ok b)
    (hA : Accepts nullable rows) (hfit : (valuesOf rows).flatten.length ≤ 2 ^ 32 - 1) :
    (nullable = false → b.clear = BinaryBuffer.new false) ∧
    ∃ b', b.clear.pushAll rows = .ok b' ∧ b'.data = (valuesOf rows).flatten ∧
      b'.offsets = (BinaryBuffer.ofRows nullable rows).offsets ∧
      b'.numValues = rows.length ∧ b'.isNullable = nullable ∧
      (∀ p, b'.hasNulls p = .ok (rows.any Option.isNone)) ∧
      (NoStale (validityOf old) (validityOf rows) → b'.Shows nullable rows) := by
  obtain ⟨_, _, rfl⟩ := BinaryBuffer.new_pushAll_ok hb
  have s := BinaryBuffer.ofRows_shows nullable rows hA
  cases nullable with
  | false =>
    have hc : (BinaryBuffer.ofRows false old).clear = BinaryBuffer.new false := rfl
    refine ⟨fun _ => hc, _, by rw [hc]; exact BinaryBuffer.new_pushAll false rows hA hfit, rfl, rfl,
      s.numValues, s.isNullable, s.hasNulls, fun _ => s⟩
  | true =>
    refine ⟨fun h => (by cases h), ?_⟩
    obtain ⟨bm', hbm', hl, hx⟩ := C02_clear_exact (validityOf old) (validityOf rows) _
      (Bitmap.appendAll_new _)
    have hr := BinaryBuffer.pushAll_raw [] [0] (Bitmap.ofBits (validityOf old)).clear rows hfit
    simp only [hbm', ok_bind, pure_eq_ok, List.nil_append] at hr
    have hnum : bm'.len = rows.length := by rw [hl]; simp
    have hnulls : ∀ p, (BinaryBuffer.mk (valuesOf rows).flatten (offsetsOf 0 (valuesOf rows))
        (some bm')).hasNulls p = .ok (rows.any Option.isNone) := by
      intro p
      simp only [BinaryBuffer.hasNulls, hnum, BinaryBuffer.len, offsetsOf_length, Nat.add_sub_cancel]
      rw [Profile.sub_ok _ (valuesOf_length_le rows), any_isNone_iff]
      simp [bne, BEq.beq]
    refine ⟨_, hr, rfl, rfl, hnum, rfl, hnulls, fun hns => ⟨s.len, s.offsetsLen, s.first, s.monotone,
      s.items, rfl, fun p i h => s.itemLen p i h, hnum, rfl, hnulls, bm', rfl, ?_⟩⟩
    obtain ⟨m2, h2, r2⟩ := C02_clear_like_new_partial (validityOf old) (validityOf rows) _
      (Bitmap.appendAll_new _) hns
    rw [hbm'] at h2; cases h2; exact r2

/-- C09, what holds for boolean buffers: lengths and `has_nulls` always; the value and validity
bits when no stale bit interferes. -/
theorem C09_clear_bool_partial (nullable : Bool) (old rows : List (Option Bool))
    (b : BoolBuffer) (hb : (BoolBuffer.new nullable).pushAll old = .ok b)
    (hA : Accepts nullable rows) :
    ∃ b', b.clear.pushAll rows = .ok b' ∧ b'.len = rows.length ∧ b'.isNullable = nullable ∧
      b'.hasNulls = rows.any Option.isNone ∧
      (NoStale (valuesOf old) (valuesOf rows) → NoStale (validityOf old) (validityOf rows) →
        b'.Shows nullable rows) := by
  have hAo : Accepts nullable old := by
    cases nullable
    · right; intro h; rw [BoolBuffer.new_pushAll_err _ h] at hb; cases hb
    · exact .inl rfl
  rw [BoolBuffer.new_pushAll _ _ hAo] at hb; cases hb
  have hnulls : ∀ m v n, m.len = (valuesOf rows).length → n = rows.length →
      ({ values := m, validity := v, len := n } : BoolBuffer).hasNulls = rows.any Option.isNone := by
    intro m v n h1 h2
    simp only [BoolBuffer.hasNulls, h1, h2, any_isNone_iff]
    have := valuesOf_length_le rows
    simp [BEq.beq]; grind
  obtain ⟨m2, hm2, hl2, _⟩ := C02_clear_exact (valuesOf old) (valuesOf rows) _ (Bitmap.appendAll_new _)
  cases nullable with
  | false =>
    obtain ⟨m', hm', hr⟩ := BoolBuffer.pushAll_raw_nonnull (Bitmap.ofBits (valuesOf old)).clear 0 rows
      (Bitmap.clear_inv _) (by rcases hA with h | h; · cases h
                               · exact h)
    rw [hm'] at hm2; cases hm2
    refine ⟨_, hr, by simp, rfl, hnulls _ _ _ hl2 (by simp), fun hv _ => ⟨by simp, ?_, rfl,
      hnulls _ _ _ hl2 (by simp), rfl, rfl⟩⟩
    obtain ⟨m3, h3, r3⟩ := C02_clear_like_new_partial (valuesOf old) (valuesOf rows) _
      (Bitmap.appendAll_new _) hv
    rw [hm'] at h3; cases h3; exact r3
  | true =>
    obtain ⟨m', bm', hm', hbm', hr⟩ := BoolBuffer.pushAll_raw (Bitmap.ofBits (valuesOf old)).clear
      (Bitmap.ofBits (validityOf old)).clear 0 rows (Bitmap.clear_inv _) (Bitmap.clear_inv _)
    rw [hm'] at hm2; cases hm2
    refine ⟨_, hr, by simp, rfl, hnulls _ _ _ hl2 (by simp), fun hv hy => ?_⟩
    obtain ⟨m3, h3, r3⟩ := C02_clear_like_new_partial (valuesOf old) (valuesOf rows) _
      (Bitmap.appendAll_new _) hv
    rw [hm'] at h3; cases h3
    obtain ⟨m4, h4, r4⟩ := C02_clear_like_new_partial (validityOf old) (validityOf rows) _
      (Bitmap.appendAll_new _) hy
    rw [hbm'] at h4; cases h4
    exact ⟨by simp, r3, rfl, hnulls _ _ _ hl2 (by simp), ⟨bm', rfl, r4⟩, ⟨bm', rfl, r4⟩⟩

example : NoStale (validityOf [some 1, none, some (2 : Nat)]) (validityOf [some 5, none, some 6, (none : Option Nat)]) := by
  intro i hi hc _
  match i, hi with | 0, _ | 1, _ | 2, _ | 3, _ => simp_all [validityOf]

/-! ## C10, C11: append_from -/

/-- C10: `append_from` adds exactly the rows of the requested range (`mid`) to the destination. -/
theorem C10_primitive_append_from {α : Type} (nullable : Bool) (ds pre mid post : List (Option α))
    (dst src : PrimitiveBuffer α) (pos : Nat)
    (hd : (PrimitiveBuffer.new nullable).pushAll ds = .ok dst)
    (hs : (PrimitiveBuffer.new nullable).pushAll (pre ++ mid ++ post) = .ok src)
    (hend : EndsWithValue mid) (hfit : (valuesOf (ds ++ mid)).length < 2 ^ 32 - 1)
    (hpos : nullable = true → pos = pre.length) :
    ∃ dst' ret, dst.appendFrom src (valuesOf pre).length (valuesOf (pre ++ mid)).length pos =
        .ok (dst', ret) ∧
      dst'.Shows nullable (ds ++ mid) ∧ (PrimitiveBuffer.new nullable).pushAll (ds ++ mid) = .ok dst' ∧
      (nullable = true → ret = pre.length + mid.length) := by
  have hA : ∀ {rows : List (Option α)} {b}, (PrimitiveBuffer.new nullable).pushAll rows = .ok b →
      Accepts nullable rows ∧ b = PrimitiveBuffer.ofRows nullable rows := by
    intro rows b hb
    have hacc : Accepts nullable rows := by
      cases nullable
      · right; intro h; rw [PrimitiveBuffer.new_pushAll_err _ h] at hb; cases hb
      · exact .inl rfl
    rw [PrimitiveBuffer.new_pushAll _ _ hacc] at hb
    cases hb; exact ⟨hacc, rfl⟩
  obtain ⟨a1, rfl⟩ := hA hd
  obtain ⟨a2, rfl⟩ := hA hs
  have a3 : Accepts nullable (ds ++ mid) := by
    rcases a1 with h | h
    · exact .inl h
    · rcases a2 with h2 | h2
      · exact .inl h2
      · right; simp_all
  refine ⟨_, _, PrimitiveBuffer.ofRows_appendFrom nullable ds pre mid post pos hend hfit hpos,
    PrimitiveBuffer.ofRows_shows _ _ a3, PrimitiveBuffer.new_pushAll _ _ a3, ?_⟩
  intro h; simp [h]

/-- Every value range of the source is of that shape, whatever position the previous copy left. -/
theorem C10_every_range {α : Type} (pre rest : List (Option α)) (e : Nat)
    (h1 : (valuesOf pre).length ≤ e) (h2 : e ≤ (valuesOf (pre ++ rest)).length) :
    ∃ mid post, rest = mid ++ post ∧ (valuesOf (pre ++ mid)).length = e ∧ EndsWithValue mid := by
  obtain ⟨p, q, hp, hv, he⟩ := exists_prefix_values rest (e - (valuesOf pre).length)
    (by simp at h2; omega)
  exact ⟨p, q, hp, by simp [hv]; omega, he⟩

/-- Successive `append_from` calls with the given range ends, each starting where the previous one
ended. -/
def PrimitiveBuffer.copyRanges {α : Type} (src : PrimitiveBuffer α) :
    List Nat → PrimitiveBuffer α → Nat → Nat → Res (PrimitiveBuffer α)
  | [], dst, _, _ => .ok dst
  | e :: es, dst, start, pos => do
    let (dst, pos) ← dst.appendFrom src start e pos
    copyRanges src es dst e pos

/-- C10: covering the source by successive calls, in any number of ranges, copies all rows up to the
last non-null one, in order. -/
theorem C10_successive_copies {α : Type} (nullable : Bool) (ds ss : List (Option α))
    (dst src : PrimitiveBuffer α) (ends : List Nat)
    (hd : (PrimitiveBuffer.new nullable).pushAll ds = .ok dst)
    (hs : (PrimitiveBuffer.new nullable).pushAll ss = .ok src)
    (hmono : (0 :: ends).Pairwise (· ≤ ·)) (hlast : (0 :: ends).getLast? = some src.len)
    (hfit : (valuesOf (ds ++ ss)).length < 2 ^ 32 - 1) :
    ∃ dst', src.copyRanges ends dst 0 0 = .ok dst' ∧
      (PrimitiveBuffer.new nullable).pushAll (ds ++ dropTrailingNulls ss) = .ok dst' := by
  have key : ∀ (ends : List Nat) (pre rest : List (Option α)) (dst : PrimitiveBuffer α) (pos : Nat),
      ss = pre ++ rest → EndsWithValue pre →
      (PrimitiveBuffer.new nullable).pushAll (ds ++ pre) = .ok dst →
      (nullable = true → pos = pre.length) →
      ((valuesOf pre).length :: ends).Pairwise (· ≤ ·) →
      ((valuesOf pre).length :: ends).getLast? = some src.len →
      ∃ dst', src.copyRanges ends dst (valuesOf pre).length pos = .ok dst' ∧
        (PrimitiveBuffer.new nullable).pushAll (ds ++ dropTrailingNulls ss) = .ok dst' := by
    intro ends
    induction ends with
    | nil =>
      intro pre rest dst pos he hpre hdst _ _ hl
      refine ⟨dst, rfl, ?_⟩
      have hlen : src.len = (valuesOf ss).length := by
        have hacc : Accepts nullable ss := by
          cases nullable
          · right; intro h; rw [PrimitiveBuffer.new_pushAll_err _ h] at hs; cases hs
          · exact .inl rfl
        rw [PrimitiveBuffer.new_pushAll _ _ hacc] at hs; cases hs; rfl
      simp at hl
      have : valuesOf rest = [] := by
        rw [hlen, he, valuesOf_append, List.length_append] at hl
        exact List.length_eq_zero_iff.mp (by omega)
      rw [he, dropTrailingNulls_eq hpre this]; exact hdst
    | cons e es ih =>
      intro pre rest dst pos he hpre hdst hpos hp hl
      have hlen : src.len = (valuesOf ss).length := by
        have hacc : Accepts nullable ss := by
          cases nullable
          · right; intro h; rw [PrimitiveBuffer.new_pushAll_err _ h] at hs; cases hs
          · exact .inl rfl
        rw [PrimitiveBuffer.new_pushAll _ _ hacc] at hs; cases hs; rfl
      have h1 : (valuesOf pre).length ≤ e := by simp at hp; omega
      have h2 : e ≤ (valuesOf (pre ++ rest)).length := by
        rw [← he, ← hlen]
        have hp2 := (List.pairwise_cons.mp hp).2
        rw [List.getLast?_cons_cons] at hl
        have hm := List.mem_of_getLast? hl
        rcases List.mem_cons.mp hm with h | h
        · omega
        · exact (List.pairwise_cons.mp hp2).1 _ h
      obtain ⟨mid, post, hr, hv, hew⟩ := C10_every_range pre rest e h1 h2
      have he' : ss = pre ++ mid ++ post := by rw [he, hr]; simp
      obtain ⟨dst', ret, ha, _, hn, hret⟩ := C10_primitive_append_from nullable (ds ++ pre) pre mid post dst src pos
        hdst (by rw [← he']; exact hs) hew
        (by rw [he'] at hfit; simp at hfit ⊢; omega) hpos
      obtain ⟨d2, hd2, hn2⟩ := ih (pre ++ mid) post dst' ret he' (hew.append_left hpre)
        (by rw [← List.append_assoc]; exact hn) (fun h => by rw [hret h]; simp)
        (by rw [hv]; exact (List.pairwise_cons.mp hp).2) (by rw [hv]; rw [List.getLast?_cons_cons] at hl; exact hl)
      refine ⟨d2, ?_, hn2⟩
      rw [hv] at ha hd2
      simp only [PrimitiveBuffer.copyRanges, ha, ok_bind, hd2]
  exact key ends [] ss dst 0 rfl (.inl rfl) (by simpa using hd) (fun _ => rfl) hmono hlast

/-- Two ranges covering a nullable source with a trailing null. -/
example : ∃ dst src dst', (PrimitiveBuffer.new true).pushAll [none, some 9] = .ok dst ∧
    (PrimitiveBuffer.new true).pushAll [some 1, none, some 2, some (3 : Nat), none] = .ok src ∧
    src.copyRanges [2, 3] dst 0 0 = .ok dst' ∧
    dst'.Shows true [none, some 9, some 1, none, some 2, some 3] := by
  have h1 := PrimitiveBuffer.new_pushAll true [none, some 9] (.inl rfl)
  have h2 := PrimitiveBuffer.new_pushAll true [some 1, none, some 2, some (3 : Nat), none] (.inl rfl)
  obtain ⟨dst', h, hn⟩ := C10_successive_copies true _ _ _ _ [2, 3] h1 h2 (by decide) rfl (by decide)
  obtain ⟨b, hb, hsh, _⟩ := C05_primitive_faithful true [none, some 9, some 1, none, some 2, some 3] (.inl rfl)
  refine ⟨_, _, dst', h1, h2, h, ?_⟩
  have : dst' = b := by
    have e : [none, some 9] ++ dropTrailingNulls [some 1, none, some 2, some 3, none] =
      [none, some 9, some 1, none, some 2, some 3] := rfl
    rw [e, hb] at hn; cases hn; rfl
  rw [this]; exact hsh

/-- C11: `append_from` on binary buffers adds exactly the rows of the requested range; the offsets
are rebased (the result is the buffer that direct appends give), in both build profiles. -/
theorem C11_binary_append_from (p : Profile) (nullable : Bool) (ds pre mid post : List (Option Bytes))
    (dst src : BinaryBuffer) (pos : Nat)
    (hd : (BinaryBuffer.new nullable).pushAll ds = .ok dst)
    (hs : (BinaryBuffer.new nullable).pushAll (pre ++ mid ++ post) = .ok src)
    (hend : EndsWithValue mid) (hfit : (valuesOf (ds ++ mid)).flatten.length < 2 ^ 32 - 1)
    (hpos : nullable = true → pos = pre.length) :
    ∃ dst' ret, dst.appendFrom p src (valuesOf pre).length (valuesOf (pre ++ mid)).length pos =
        .ok (dst', ret) ∧
      dst'.Shows nullable (ds ++ mid) ∧ (BinaryBuffer.new nullable).pushAll (ds ++ mid) = .ok dst' ∧
      (nullable = true → ret = pre.length + mid.length) := by
  obtain ⟨a1, _, rfl⟩ := BinaryBuffer.new_pushAll_ok hd
  obtain ⟨a2, _, rfl⟩ := BinaryBuffer.new_pushAll_ok hs
  have a3 : Accepts nullable (ds ++ mid) := by
    rcases a1 with h | h
    · exact .inl h
    · rcases a2 with h2 | h2
      · exact .inl h2
      · right; simp_all
  refine ⟨_, _, BinaryBuffer.ofRows_appendFrom p nullable ds pre mid post pos hend hfit hpos,
    BinaryBuffer.ofRows_shows _ _ a3, BinaryBuffer.new_pushAll _ _ a3 ?_, ?_⟩
  · exact Nat.le_of_lt hfit
  · intro h; simp [h]

example : EndsWithValue [none, some [1, 2], some ([] : Bytes)] := .inr ⟨[], rfl⟩

/-! ## C12: offsets never wrap -/

/-- `Hist p b items`: `b` is the result of some sequence of successful calls, in build profile `p`,
after which the non-null items should be `items`. `append_from` takes any arguments. -/
inductive BinaryBuffer.Hist (p : Profile) : BinaryBuffer → List Bytes → Prop where
  | new (nullable : Bool) : Hist p (.new nullable) []
  | append {b b' items v} : Hist p b items → b.append v = .ok b' → Hist p b' (items ++ [v])
  | appendNull {b b' items} : Hist p b items → b.appendNull = .ok b' → Hist p b' items
  | clear {b items} : Hist p b items → Hist p b.clear []
  | appendFrom {b b' src items sitems start e pos ret} : Hist p b items → Hist p src sitems →
      b.appendFrom p src start e pos = .ok (b', ret) →
      Hist p b' (items ++ (sitems.drop start).take (e - start))

theorem BinaryBuffer.appendFrom_data {p : Profile} {b src b' : BinaryBuffer} {start e pos ret : Nat}
    {items sitems : List Bytes} (hbd : b.data = items.flatten) (hbo : b.offsets = offsetsOf 0 items)
    (hsd : src.data = sitems.flatten) (hso : src.offsets = offsetsOf 0 sitems)
    (h : b.appendFrom p src start e pos = .ok (b', ret)) :
    b'.data = (items ++ (sitems.drop start).take (e - start)).flatten ∧
    b'.offsets = offsetsOf 0 (items ++ (sitems.drop start).take (e - start)) ∧
    b'.data.length < U32_MAX := by
  have hlast : b.offsets.getLast? = some items.flatten.length := by
    rw [hbo, offsetsOf_getLast]; simp
  by_cases hst : start ≤ sitems.length
  case neg =>
    simp [appendFrom, index, hso] at h
    rw [List.getElem?_eq_none (by simp; omega)] at h; simp at h
  by_cases hen : e ≤ sitems.length
  case neg =>
    have hx := offsetsOf_get 0 sitems start hst
    simp only [appendFrom, index, hso, hx, ok_bind] at h
    rw [List.getElem?_eq_none (by simp; omega)] at h; simp at h
  have hx := offsetsOf_get 0 sitems start hst
  have hy := offsetsOf_get 0 sitems e hen
  simp only [appendFrom, index, hso, hx, hy, ok_bind, hlast, Option.getD_some, Nat.zero_add] at h
  by_cases hse : start ≤ e
  · have hsplit : sitems = sitems.take start ++ (sitems.drop start).take (e - start) ++ sitems.drop e := by
      have : sitems.take e = sitems.take start ++ (sitems.drop start).take (e - start) := by
        rw [← List.take_append_drop start (sitems.take e), List.take_take, List.drop_take]
        congr 1; rw [Nat.min_eq_left hse]
      rw [← this, List.take_append_drop]
    have htk : sitems.take e = sitems.take start ++ (sitems.drop start).take (e - start) := by
      rw [← List.take_append_drop start (sitems.take e), List.take_take, List.drop_take]
      congr 1; rw [Nat.min_eq_left hse]
    have hmlen : ((sitems.drop start).take (e - start)).length = e - start := by
      simp; omega
    have hplen : (sitems.take start).length = start := by simp; omega
    have hsl := slice_flatten_mid (sitems.take start) ((sitems.drop start).take (e - start)) (sitems.drop e)
    rw [← hsplit, ← htk] at hsl
    rw [Profile.sub_ok _ hse] at h
    simp only [ok_bind, hsd, hsl] at h
    generalize hm : (sitems.drop start).take (e - start) = mid at *
    have hany := appendFromOffsets_any p src sitems hso mid (sitems.take start) (sitems.drop e)
      items.flatten.length hsplit
    rw [hmlen, hplen] at hany
    rcases hany with ⟨l, hl⟩ | ⟨_, hl⟩
    case inr => rw [hl] at h; simp at h
    rw [hl] at h; simp only [ok_bind] at h
    split at h
    case isFalse => simp at h
    rename_i hfit
    have hok := appendFromOffsets_ok p src sitems hso mid (sitems.take start) (sitems.drop e)
      items.flatten.length hsplit (by rw [hbd] at hfit; simp only [List.length_append] at hfit; omega)
    rw [hmlen, hplen, hl] at hok
    cases hok
    cases hv : validityAppendFrom b.validity src.validity pos (e - start) with
    | error _ => rw [hv] at h; simp at h
    | ok r =>
      rw [hv] at h; simp at h
      obtain ⟨rfl, _⟩ := h
      refine ⟨by simp [hbd], ?_, hfit⟩
      simp only [hbo, offsetsOf_append, Nat.zero_add, List.length_flatten]
  · have hm : e - start = 0 := by omega
    have htk : (sitems.drop start).take (e - start) = [] := by rw [hm]; rfl
    rw [htk]
    rw [hm] at h
    simp only [appendFromOffsets, ok_bind, List.append_nil] at h ⊢
    cases hsub : p.sub 64 e start with
    | error _ => rw [hsub] at h; simp at h
    | ok c =>
      rw [hsub] at h; simp only [ok_bind] at h
      cases hsl : slice src.data (sitems.take start).flatten.length (sitems.take e).flatten.length with
      | error _ => rw [hsl] at h; simp at h
      | ok chunk =>
        rw [hsl] at h; simp only [ok_bind] at h
        have hchunk : chunk = [] := by
          simp only [slice] at hsl
          split at hsl
          case isFalse => cases hsl
          rename_i hc
          have hle : (sitems.take e).flatten.length ≤ (sitems.take start).flatten.length := by
            have : sitems.take start = sitems.take e ++ (sitems.drop e).take (start - e) := by
              rw [← List.take_append_drop e (sitems.take start), List.take_take, List.drop_take]
              congr 1; rw [Nat.min_eq_left (by omega)]
            rw [this, List.flatten_append, List.length_append]; omega
          cases hsl
          rw [show (sitems.take e).flatten.length - (sitems.take start).flatten.length = 0 by omega]
          rfl
        subst hchunk
        split at h
        case isFalse => simp at h
        rename_i hfit
        cases hv : validityAppendFrom b.validity src.validity pos c with
        | error _ => rw [hv] at h; simp at h
        | ok r =>
          rw [hv] at h; simp at h
          obtain ⟨rfl, _⟩ := h
          refine ⟨by simp [hbd], by simp [hbo], ?_⟩
          simpa using hfit

/-- The representation behind any history. -/
theorem BinaryBuffer.Hist.rep {p : Profile} {b : BinaryBuffer} {items : List Bytes} (h : Hist p b items) :
    b.data = items.flatten ∧ b.offsets = offsetsOf 0 items ∧ b.data.length ≤ U32_MAX := by
  induction h with
  | new nullable => exact ⟨rfl, rfl, Nat.zero_le _⟩
  | @append b b' items v _ h ih =>
    obtain ⟨h1, h2, h3⟩ := ih
    simp only [BinaryBuffer.append] at h
    split at h
    case isFalse => cases h
    rename_i hfit
    cases hv : validityAppendTrue b.validity with
    | error e => rw [hv] at h; simp at h
    | ok bm =>
      rw [hv] at h; simp at h; subst h
      refine ⟨by simp [h1], ?_, hfit⟩
      simp only [h1, h2, offsetsOf_append, endOffsets, Nat.zero_add, ← List.length_append]
  | @appendNull b b' items _ h ih =>
    obtain ⟨h1, h2, h3⟩ := ih
    simp only [BinaryBuffer.appendNull] at h
    cases hv : validityAppendFalse b.validity with
    | error e => rw [hv] at h; simp at h
    | ok bm => rw [hv] at h; simp at h; subst h; exact ⟨h1, h2, h3⟩
  | @clear b items _ ih =>
    obtain ⟨h1, h2, h3⟩ := ih
    refine ⟨rfl, ?_, Nat.zero_le _⟩
    simp [BinaryBuffer.clear, h2, offsetsOf, endOffsets]
  | appendFrom _ _ h ih1 ih2 =>
    obtain ⟨h1, h2, h3⟩ := appendFrom_data ih1.1 ih1.2.1 ih2.1 ih2.2.1 h
    exact ⟨h1, h2, Nat.le_of_lt h3⟩

/-- C12: after any successful history of calls (including `clear` and `append_from` with arbitrary
arguments from any other such buffer), in either build profile, the offsets are exact and fit 32
bits; and a call that would push the data past the limit panics. -/
theorem C12_no_wrapped_offset (p : Profile) (b : BinaryBuffer) (items : List Bytes)
    (h : b.Hist p items) :
    (b.offsets.length = items.length + 1 ∧ b.offsets[0]? = some 0 ∧ b.data = items.flatten ∧
      (∀ (i : Nat) (hi : i < items.length), ∃ lo hi', b.offsets[i]? = some lo ∧
        b.offsets[i + 1]? = some hi' ∧ hi' = lo + (items[i]).length ∧
        slice b.data lo hi' = .ok items[i]) ∧
      (∀ o ∈ b.offsets, o < 2 ^ 32)) ∧
    (∀ v, 2 ^ 32 - 1 < items.flatten.length + v.length → ∃ e, b.append v = .error e) ∧
    (∀ src sitems, src.Hist p sitems → ∀ start e pos,
      2 ^ 32 - 1 ≤ items.flatten.length + ((sitems.drop start).take (e - start)).flatten.length →
      ∃ err, b.appendFrom p src start e pos = .error err) := by
  obtain ⟨h1, h2, h3⟩ := h.rep
  refine ⟨⟨by simp [h2], by simp [h2, offsetsOf], h1, ?_, ?_⟩, ?_, ?_⟩
  · intro i hi
    refine ⟨_, _, by rw [h2]; exact offsetsOf_get 0 _ i (by omega),
      by rw [h2]; exact offsetsOf_get 0 _ (i + 1) (by omega), ?_, ?_⟩
    · rw [List.take_succ_eq_append_getElem hi, List.flatten_append, List.length_append]
      simp only [List.flatten_cons, List.flatten_nil, List.append_nil]; omega
    · have e : items = items.take i ++ [items[i]] ++ items.drop (i + 1) := by
        conv => lhs; rw [← List.take_append_drop i items, List.drop_eq_getElem_cons hi]
        simp
      have := slice_flatten_mid (items.take i) [items[i]] (items.drop (i + 1))
      rw [← e, ← List.take_succ_eq_append_getElem hi] at this
      rw [h1, Nat.zero_add, Nat.zero_add, this]; simp
  · intro o ho
    rw [h2] at ho
    obtain ⟨i, hi, rfl⟩ := List.mem_iff_getElem.mp ho
    have := offsetsOf_get 0 items i (by simp at hi; omega)
    rw [List.getElem?_eq_getElem hi] at this
    injection this with this
    rw [this]
    have hle : (items.take i).flatten.length ≤ items.flatten.length := by
      conv => rhs; rw [← List.take_append_drop i items, List.flatten_append, List.length_append]
      omega
    rw [h1] at h3; unfold U32_MAX at h3; omega
  · intro v hv
    refine ⟨.expect, ?_⟩
    simp only [BinaryBuffer.append]
    rw [if_neg]
    rw [List.length_append, h1]; unfold U32_MAX; omega
  · intro src sitems hs start e pos hbig
    cases hr : b.appendFrom p src start e pos with
    | error err => exact ⟨err, rfl⟩
    | ok r =>
      obtain ⟨q1, _, q3⟩ := BinaryBuffer.appendFrom_data h1 h2 hs.rep.1 hs.rep.2.1 hr
      rw [q1, List.flatten_append, List.length_append] at q3
      unfold U32_MAX at q3; omega

/-- A history with an `append_from` exists. -/
example : ∃ b : BinaryBuffer, b.Hist .release [[1, 2], [3]] := by
  have h1 := BinaryBuffer.new_pushAll false [some [1, 2]] (.inr (by simp)) (by decide)
  have h2 := BinaryBuffer.new_pushAll false [some [3]] (.inr (by simp)) (by decide)
  have hb : (BinaryBuffer.ofRows false [some [1, 2]]).Hist .release [[1, 2]] :=
    .append (.new false) (v := [1, 2]) rfl
  have hs : (BinaryBuffer.ofRows false [some [3]]).Hist .release [[3]] :=
    .append (.new false) (v := [3]) rfl
  obtain ⟨d, r, ha, _⟩ := C11_binary_append_from .release false [some [1, 2]] [] [some [3]] [] _ _ 0
    h1 h2 (.inr ⟨_, rfl⟩) (by decide) (by simp)
  exact ⟨d, .appendFrom hb hs ha⟩

end Meerkat
