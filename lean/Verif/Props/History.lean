import Verif.Props.Buffers

set_option autoImplicit false

/-! # C02, C09 over whole histories: any number of generations, each ended by `clear()` -/

namespace Meerkat
open Spec

/-- Fill the bitmap with each generation in turn, and clear it after each. -/
def Bitmap.generations (m : Bitmap) (gens : List (List Bool)) : Res Bitmap :=
  gens.foldlM (fun m g => do return (← m.appendAll g).clear) m

/-- The bit an earlier generation leaves behind at position `i`. -/
def staleBit (gens : List (List Bool)) (i : Nat) : Bool :=
  decide (i < 8192) && gens.any (fun g => g.getD i false)

theorem Bitmap.generations_spec {m : Bitmap} (hI : Inv m) (h0 : m.len = 0) (gens : List (List Bool)) :
    ∃ m', m.generations gens = .ok m' ∧ Inv m' ∧ m'.len = 0 ∧
      ∀ i, i < 8192 → m'.bitAt i = (m.bitAt i || gens.any (fun g => g.getD i false)) := by
  induction gens generalizing m with
  | nil => exact ⟨m, rfl, hI, h0, fun i _ => by simp⟩
  | cons g gens ih =>
    obtain ⟨m1, h1, hl1, hI1, hb1⟩ := appendAll_spec hI g
    obtain ⟨m2, h2, hI2, hl2, hb2⟩ := ih (clear_inv m1) rfl
    refine ⟨m2, ?_, hI2, hl2, fun i hi => ?_⟩
    · simp only [generations, List.foldlM_cons, h1, ok_bind, pure_eq_ok]; exact h2
    · have hc : 8 * INITIAL_BITMAP_CAP = 8192 := rfl
      rw [hb2 i hi, clear_bitAt, hc, hb1, h0]
      simp only [hi, decide_true, Bool.true_and, Nat.sub_zero, Nat.zero_le, true_and, Nat.zero_add,
        List.any_cons]
      by_cases hg : i < g.length
      · simp only [hg, if_true]
        generalize g.getD i false = x
        cases x <;> cases m.bitAt i <;> rfl
      · have : g.getD i false = false := by simp [List.getD_eq_getElem?_getD, Nat.not_lt.mp hg]
        simp only [hg, if_false, this, Bool.false_or]

/-- Beyond the initial capacity nothing is left behind. -/
theorem Bitmap.generations_high {gens : List (List Bool)} {m m' : Bitmap} (hI : Inv m) (h0 : m.len = 0)
    (hm : ∀ i, 8192 ≤ i → m.bitAt i = false)
    (h : m.generations gens = .ok m') (i : Nat) (hi : 8192 ≤ i) : m'.bitAt i = false := by
  induction gens generalizing m with
  | nil => cases h; exact hm i hi
  | cons g gens ih =>
    obtain ⟨m1, h1, hl1, hI1, hb1⟩ := appendAll_spec hI g
    simp only [generations, List.foldlM_cons, h1, ok_bind, pure_eq_ok] at h
    refine ih (clear_inv m1) rfl (fun j hj => ?_) h
    have hc : 8 * INITIAL_BITMAP_CAP = 8192 := rfl
    rw [clear_bitAt, hc]
    simp [Nat.not_lt.mpr hj]

/-- The state of a cleared bitmap after any history. -/
structure Bitmap.Cleared (m : Bitmap) (gens : List (List Bool)) : Prop where
  inv : m.Inv
  len : m.len = 0
  bits : ∀ i, m.bitAt i = staleBit gens i

theorem Bitmap.generations_new (gens : List (List Bool)) :
    ∃ m, Bitmap.new.generations gens = .ok m ∧ m.Cleared gens := by
  obtain ⟨m, h, hI, hl, hb⟩ := generations_spec new_inv rfl gens
  refine ⟨m, h, hI, hl, fun i => ?_⟩
  by_cases hi : i < 8192
  · rw [hb i hi, new_bitAt]; simp [staleBit, hi]
  · rw [generations_high new_inv rfl (fun i _ => new_bitAt i) h i (by omega)]
    simp [staleBit, hi]

theorem Bitmap.Cleared.append {m : Bitmap} {gens : List (List Bool)} (hm : m.Cleared gens)
    (cs : List Bool) : ∃ m', m.appendAll cs = .ok m' ∧ m'.len = cs.length ∧ m'.Inv ∧
      (∀ (i : Nat) (hi : i < cs.length), m'.isSet i = .ok (cs[i] || staleBit gens i)) ∧
      m'.clear.Cleared (gens ++ [cs]) := by
  obtain ⟨m', h', hl', hI', hb'⟩ := appendAll_spec hm.inv cs
  rw [hm.len] at hl' hb'
  refine ⟨m', h', by omega, hI', fun i hi => ?_, clear_inv m', rfl, fun i => ?_⟩
  · rw [Bitmap.isSet_of_lt hI' (by omega), hb', if_pos (by omega), hm.bits]
    simp [hi]
  · have hc : 8 * INITIAL_BITMAP_CAP = 8192 := rfl
    rw [clear_bitAt, hc, hb', hm.bits]
    simp only [staleBit, List.any_append, List.any_cons, List.any_nil, Bool.or_false, Nat.zero_le,
      true_and, Nat.zero_add, Nat.sub_zero]
    by_cases hi : i < cs.length
    · simp only [hi, if_true]
      generalize cs.getD i false = x
      generalize List.any gens _ = y
      cases x <;> cases y <;> cases decide (i < 8192) <;> rfl
    · have : cs.getD i false = false := by simp [List.getD_eq_getElem?_getD, Nat.not_lt.mp hi]
      simp only [hi, if_false, this, Bool.or_false]
      cases decide (i < 8192) <;> rfl

/-- No bit left behind by an earlier generation sits where `new` has an unset bit. -/
def NoStaleGens (gens : List (List Bool)) (new : List Bool) : Prop :=
  ∀ (i : Nat) (hi : i < new.length), new[i] = false → i < 8192 → ∀ g ∈ gens, g.getD i false = false

theorem staleBit_eq_false (gens : List (List Bool)) (i : Nat) :
    staleBit gens i = false ↔ (i < 8192 → ∀ g ∈ gens, g.getD i false = false) := by
  simp [staleBit]

theorem Bitmap.Cleared.reads_iff {m : Bitmap} {gens : List (List Bool)} (hm : m.Cleared gens)
    (cs : List Bool) : ∃ m', m.appendAll cs = .ok m' ∧ m'.len = cs.length ∧
      (m'.Reads cs ↔ NoStaleGens gens cs) := by
  obtain ⟨m', h, hl, _, hx, _⟩ := hm.append cs
  refine ⟨m', h, hl, fun r i hi hc => ?_, fun hn => ⟨hl, fun i hi => ?_,
    fun i hi => isSet_of_ge (by omega)⟩⟩
  · have h1 := r.get i hi
    rw [hx i hi, hc] at h1
    exact (staleBit_eq_false _ _).mp (by simpa using h1)
  · rw [hx i hi]
    cases hc : cs[i] with
    | true => simp
    | false => rw [(staleBit_eq_false _ _).mpr (hn i hi hc)]; rfl

/-- C02, exactly what happens over any history: any number of generations of appended bits, each
ended by `clear()`, then the bits `cs`. Nothing ever fails; bit `i` reads as the bit appended or-ed
with the bits every earlier generation had at `i` (for the first 8192 positions). -/
theorem C02_history_exact (gens : List (List Bool)) (cs : List Bool) :
    ∃ m m', Bitmap.new.generations gens = .ok m ∧ m.appendAll cs = .ok m' ∧ m'.len = cs.length ∧
      (∀ i : Nat, cs.length ≤ i → m'.isSet i = .error .assertion) ∧
      ∀ (i : Nat) (hi : i < cs.length), m'.isSet i =
        .ok (cs[i] || (decide (i < 8192) && gens.any (fun g => g.getD i false))) := by
  obtain ⟨m, hm, hc⟩ := Bitmap.generations_new gens
  obtain ⟨m', h', hl, _, hx, _⟩ := hc.append cs
  exact ⟨m, m', hm, h', hl, fun i hi => Bitmap.isSet_of_ge (by omega), hx⟩

/-- C02, when a reused bitmap reads like a new one: exactly when no earlier generation had a bit set
where the current one has it unset, among the first 8192 positions. -/
theorem C02_like_new_iff (gens : List (List Bool)) (cs : List Bool) :
    ∃ m m', Bitmap.new.generations gens = .ok m ∧ m.appendAll cs = .ok m' ∧
      (m'.Reads cs ↔ ∀ (i : Nat) (hi : i < cs.length), cs[i] = false → i < 8192 →
        ∀ g ∈ gens, g.getD i false = false) := by
  obtain ⟨m, hm, hc⟩ := Bitmap.generations_new gens
  obtain ⟨m', h', _, hr⟩ := hc.reads_iff cs
  exact ⟨m, m', hm, h', hr⟩

/-- A bit of the first of two earlier generations survives both clears. -/
example : ∃ m m', Bitmap.new.generations [[false, true], [true]] = .ok m ∧
    m.appendAll [false, false, false] = .ok m' ∧ m'.isSet 0 = .ok true ∧ m'.isSet 1 = .ok true ∧
    m'.isSet 2 = .ok false := by
  obtain ⟨m, m', h, h', _, _, hx⟩ := C02_history_exact [[false, true], [true]] [false, false, false]
  exact ⟨m, m', h, h', hx 0 (by decide), hx 1 (by decide), hx 2 (by decide)⟩

/-! ## Buffers -/

/-- Fill the buffer with each generation of rows in turn, and clear it after each. -/
def PrimitiveBuffer.generations {α : Type} (b : PrimitiveBuffer α) (gens : List (List (Option α))) :
    Res (PrimitiveBuffer α) :=
  gens.foldlM (fun b g => do return (← b.pushAll g).clear) b

def BinaryBuffer.generations (b : BinaryBuffer) (gens : List (List (Option Bytes))) : Res BinaryBuffer :=
  gens.foldlM (fun b g => do return (← b.pushAll g).clear) b

def BoolBuffer.generations (b : BoolBuffer) (gens : List (List (Option Bool))) : Res BoolBuffer :=
  gens.foldlM (fun b g => do return (← b.pushAll g).clear) b

/-- The validity bitmap of a cleared buffer after the given history. -/
def ClearedValidity (nullable : Bool) (v : Option Bitmap) (gens : List (List Bool)) : Prop :=
  if nullable then ∃ bm, v = some bm ∧ bm.Cleared gens else v = none

theorem cleared_nil {nullable : Bool} :
    ClearedValidity nullable (if nullable then some Bitmap.new else none) [] := by
  unfold ClearedValidity
  cases nullable
  · rfl
  · exact ⟨_, rfl, Bitmap.new_inv, rfl, fun i => by rw [Bitmap.new_bitAt]; simp [staleBit]⟩

theorem PrimitiveBuffer.cleared_push {α : Type} {nullable : Bool} {gens : List (List Bool)}
    {b : PrimitiveBuffer α} (hv : b.values = []) (hb : ClearedValidity nullable b.validity gens)
    (rows : List (Option α)) (hA : Accepts nullable rows) :
    ∃ b', b.pushAll rows = .ok b' ∧ b'.values = valuesOf rows ∧
      b'.len = (valuesOf rows).length ∧ b'.numValues = rows.length ∧ b'.isNullable = nullable ∧
      (∀ p, b'.hasNulls p = .ok (rows.any Option.isNone)) ∧
      (b'.Shows nullable rows ↔ (nullable = true → NoStaleGens gens (validityOf rows))) ∧
      b'.clear.values = [] ∧
      ClearedValidity nullable b'.clear.validity (gens ++ [validityOf rows]) := by
  obtain ⟨values, validity⟩ := b
  simp only at hv; subst hv
  cases nullable with
  | false =>
    simp only [ClearedValidity, Bool.false_eq_true, if_false] at hb
    subst hb
    have s := PrimitiveBuffer.ofRows_shows false rows hA
    exact ⟨_, PrimitiveBuffer.new_pushAll false rows hA, s.values, s.len, s.numValues, s.isNullable,
      s.hasNulls, ⟨fun _ h => (by cases h), fun _ => s⟩, rfl, rfl⟩
  | true =>
    simp only [ClearedValidity, if_true] at hb
    obtain ⟨bm, hbm, hc⟩ := hb
    subst hbm
    obtain ⟨bm', hbm', hl, _, _, hcl⟩ := hc.append (validityOf rows)
    obtain ⟨bm2, hbm2, _, hiff⟩ := hc.reads_iff (validityOf rows)
    rw [hbm'] at hbm2; cases hbm2
    have hr := PrimitiveBuffer.pushAll_raw (α := α) [] bm rows
    simp only [hbm', ok_bind, pure_eq_ok, List.nil_append] at hr
    have hnum : bm'.len = rows.length := by rw [hl]; simp
    have hnulls : ∀ p, ({ values := valuesOf rows, validity := some bm' } : PrimitiveBuffer α).hasNulls p =
        .ok (rows.any Option.isNone) := by
      intro p
      simp only [PrimitiveBuffer.hasNulls, hnum]
      rw [Profile.sub_ok _ (valuesOf_length_le rows), any_isNone_iff]
      simp [bne, BEq.beq]
    refine ⟨_, hr, rfl, rfl, hnum, rfl, hnulls, ⟨fun s _ => ?_, fun h => ⟨rfl, rfl, hnum, rfl, hnulls,
      bm', rfl, hiff.mpr (h rfl)⟩⟩, rfl, ⟨_, rfl, hcl⟩⟩
    obtain ⟨x, hx, hR⟩ := s.validity
    cases hx
    exact hiff.mp hR

/-- C09 for primitive buffers over any history: any number of generations of acceptable rows, each
ended by `clear()`. Nothing fails; values, lengths, row count and `has_nulls` are those of a new
buffer filled with the last rows; and the whole buffer shows these rows exactly when no validity bit
left behind interferes. -/
theorem C09_primitive_history {α : Type} (nullable : Bool) (gens : List (List (Option α)))
    (rows : List (Option α)) (hg : ∀ g ∈ gens, Accepts nullable g) (hA : Accepts nullable rows) :
    ∃ b b', (PrimitiveBuffer.new nullable).generations gens = .ok b ∧ b.pushAll rows = .ok b' ∧
      b'.values = valuesOf rows ∧
      b'.len = (valuesOf rows).length ∧ b'.numValues = rows.length ∧ b'.isNullable = nullable ∧
      (∀ p, b'.hasNulls p = .ok (rows.any Option.isNone)) ∧
      (b'.Shows nullable rows ↔
        (nullable = true → NoStaleGens (gens.map validityOf) (validityOf rows))) := by
  have key : ∀ (gens : List (List (Option α))) (done : List (List Bool)) (b : PrimitiveBuffer α),
      (∀ g ∈ gens, Accepts nullable g) →
      b.values = [] → ClearedValidity nullable b.validity done →
      ∃ b', b.generations gens = .ok b' ∧ b'.values = [] ∧
        ClearedValidity nullable b'.validity (done ++ gens.map validityOf) := by
    intro gens
    induction gens with
    | nil => intro done b _ hv hb; exact ⟨b, rfl, hv, by simpa using hb⟩
    | cons g gens ih =>
      intro done b hg hv hb
      obtain ⟨b1, h1, _, _, _, _, _, _, hv1, hb1⟩ := PrimitiveBuffer.cleared_push hv hb g (hg g (by simp))
      obtain ⟨b2, h2, hv2, hb2⟩ := ih _ b1.clear (fun g' h => hg g' (by simp [h])) hv1 hb1
      refine ⟨b2, ?_, hv2, by simpa using hb2⟩
      simp only [PrimitiveBuffer.generations, List.foldlM_cons, h1, ok_bind, pure_eq_ok]; exact h2
  obtain ⟨b, hb, hv, hc⟩ := key gens [] (PrimitiveBuffer.new nullable) hg rfl cleared_nil
  obtain ⟨b', h', h1, h2, h3, h4, h5, h6, _⟩ := PrimitiveBuffer.cleared_push hv hc rows hA
  exact ⟨b, b', hb, h', h1, h2, h3, h4, h5, h6⟩

theorem BinaryBuffer.cleared_push {nullable : Bool} {gens : List (List Bool)}
    {b : BinaryBuffer} (hd : b.data = []) (ho : b.offsets = [0])
    (hb : ClearedValidity nullable b.validity gens)
    (rows : List (Option Bytes)) (hA : Accepts nullable rows)
    (hfit : (valuesOf rows).flatten.length ≤ 2 ^ 32 - 1) :
    ∃ b', b.pushAll rows = .ok b' ∧ b'.data = (valuesOf rows).flatten ∧
      b'.offsets = (BinaryBuffer.ofRows nullable rows).offsets ∧
      b'.numValues = rows.length ∧ b'.isNullable = nullable ∧
      (∀ p, b'.hasNulls p = .ok (rows.any Option.isNone)) ∧
      (b'.Shows nullable rows ↔ (nullable = true → NoStaleGens gens (validityOf rows))) ∧
      b'.clear.data = [] ∧ b'.clear.offsets = [0] ∧
      ClearedValidity nullable b'.clear.validity (gens ++ [validityOf rows]) := by
  obtain ⟨data, offsets, validity⟩ := b
  simp only at hd ho; subst hd; subst ho
  have s := BinaryBuffer.ofRows_shows nullable rows hA
  cases nullable with
  | false =>
    simp only [ClearedValidity, Bool.false_eq_true, if_false] at hb
    subst hb
    exact ⟨_, BinaryBuffer.new_pushAll false rows hA hfit, rfl, rfl, s.numValues, s.isNullable,
      s.hasNulls, ⟨fun _ h => (by cases h), fun _ => s⟩, rfl, rfl, rfl⟩
  | true =>
    simp only [ClearedValidity, if_true] at hb
    obtain ⟨bm, hbm, hc⟩ := hb
    subst hbm
    obtain ⟨bm', hbm', hl, _, _, hcl⟩ := hc.append (validityOf rows)
    obtain ⟨bm2, hbm2, _, hiff⟩ := hc.reads_iff (validityOf rows)
    rw [hbm'] at hbm2; cases hbm2
    have hr := BinaryBuffer.pushAll_raw [] [0] bm rows hfit
    simp only [hbm', ok_bind, pure_eq_ok, List.nil_append] at hr
    have hnum : bm'.len = rows.length := by rw [hl]; simp
    have hnulls : ∀ p, (BinaryBuffer.mk (valuesOf rows).flatten (offsetsOf 0 (valuesOf rows))
        (some bm')).hasNulls p = .ok (rows.any Option.isNone) := by
      intro p
      simp only [BinaryBuffer.hasNulls, hnum, BinaryBuffer.len, offsetsOf_length, Nat.add_sub_cancel]
      rw [Profile.sub_ok _ (valuesOf_length_le rows), any_isNone_iff]
      simp [bne, BEq.beq]
    refine ⟨_, hr, rfl, rfl, hnum, rfl, hnulls, ⟨fun s' _ => ?_, fun h => ⟨s.len, s.offsetsLen, s.first,
      s.monotone, s.items, rfl, fun p i h => s.itemLen p i h, hnum, rfl, hnulls, bm', rfl,
      hiff.mpr (h rfl)⟩⟩, rfl, rfl, ⟨_, rfl, hcl⟩⟩
    obtain ⟨x, hx, hR⟩ := s'.validity
    cases hx
    exact hiff.mp hR

/-- C09 for binary buffers over any history (each generation fitting u32 offsets). -/
theorem C09_binary_history (nullable : Bool) (gens : List (List (Option Bytes)))
    (rows : List (Option Bytes)) (hg : ∀ g ∈ gens, Accepts nullable g ∧ (valuesOf g).flatten.length ≤ 2 ^ 32 - 1)
    (hA : Accepts nullable rows) (hfit : (valuesOf rows).flatten.length ≤ 2 ^ 32 - 1) :
    ∃ b b', (BinaryBuffer.new nullable).generations gens = .ok b ∧ b.pushAll rows = .ok b' ∧
      b'.data = (valuesOf rows).flatten ∧
      b'.offsets = (BinaryBuffer.ofRows nullable rows).offsets ∧
      b'.numValues = rows.length ∧ b'.isNullable = nullable ∧
      (∀ p, b'.hasNulls p = .ok (rows.any Option.isNone)) ∧
      (b'.Shows nullable rows ↔
        (nullable = true → NoStaleGens (gens.map validityOf) (validityOf rows))) := by
  have key : ∀ (gens : List (List (Option Bytes))) (done : List (List Bool)) (b : BinaryBuffer),
      (∀ g ∈ gens, Accepts nullable g ∧ (valuesOf g).flatten.length ≤ 2 ^ 32 - 1) →
      b.data = [] → b.offsets = [0] → ClearedValidity nullable b.validity done →
      ∃ b', b.generations gens = .ok b' ∧ b'.data = [] ∧ b'.offsets = [0] ∧
        ClearedValidity nullable b'.validity (done ++ gens.map validityOf) := by
    intro gens
    induction gens with
    | nil => intro done b _ hd ho hb; exact ⟨b, rfl, hd, ho, by simpa using hb⟩
    | cons g gens ih =>
      intro done b hg hd ho hb
      obtain ⟨b1, h1, _, _, _, _, _, _, hd1, ho1, hb1⟩ :=
        BinaryBuffer.cleared_push hd ho hb g (hg g (by simp)).1 (hg g (by simp)).2
      obtain ⟨b2, h2, hd2, ho2, hb2⟩ := ih _ b1.clear (fun g' h => hg g' (by simp [h])) hd1 ho1 hb1
      refine ⟨b2, ?_, hd2, ho2, by simpa using hb2⟩
      simp only [BinaryBuffer.generations, List.foldlM_cons, h1, ok_bind, pure_eq_ok]; exact h2
  obtain ⟨b, hb, hd, ho, hc⟩ := key gens [] (BinaryBuffer.new nullable) hg rfl rfl cleared_nil
  obtain ⟨b', h', h1, h2, h3, h4, h5, h6, _⟩ := BinaryBuffer.cleared_push hd ho hc rows hA hfit
  exact ⟨b, b', hb, h', h1, h2, h3, h4, h5, h6⟩

theorem BoolBuffer.cleared_push {nullable : Bool} {vals gens : List (List Bool)}
    {b : BoolBuffer} (hv : b.values.Cleared vals) (hn : b.len = 0)
    (hb : ClearedValidity nullable b.validity gens)
    (rows : List (Option Bool)) (hA : Accepts nullable rows) :
    ∃ b', b.pushAll rows = .ok b' ∧ b'.len = rows.length ∧ b'.isNullable = nullable ∧
      b'.hasNulls = rows.any Option.isNone ∧
      (b'.Shows nullable rows ↔ NoStaleGens vals (valuesOf rows) ∧
        (nullable = true → NoStaleGens gens (validityOf rows))) ∧
      b'.clear.values.Cleared (vals ++ [valuesOf rows]) ∧ b'.clear.len = 0 ∧
      ClearedValidity nullable b'.clear.validity (gens ++ [validityOf rows]) := by
  obtain ⟨values, validity, len⟩ := b
  simp only at hv hn; subst hn
  obtain ⟨m', hm', hl, _, _, hcl⟩ := hv.append (valuesOf rows)
  obtain ⟨m2, hm2, _, hiff⟩ := hv.reads_iff (valuesOf rows)
  rw [hm'] at hm2; cases hm2
  have hnulls : ∀ v n, n = rows.length →
      ({ values := m', validity := v, len := n } : BoolBuffer).hasNulls = rows.any Option.isNone := by
    intro v n h2
    simp only [BoolBuffer.hasNulls, hl, h2, any_isNone_iff]
    have := valuesOf_length_le rows
    simp [BEq.beq]; grind
  cases nullable with
  | false =>
    simp only [ClearedValidity, Bool.false_eq_true, if_false] at hb
    subst hb
    obtain ⟨x, hx, hr⟩ := BoolBuffer.pushAll_raw_nonnull values 0 rows hv.inv
      (by rcases hA with h | h; · cases h
          · exact h)
    rw [hm'] at hx; cases hx
    refine ⟨_, hr, by simp, rfl, hnulls _ _ (by simp), ⟨fun s => ⟨hiff.mp s.values, fun h => (by cases h)⟩,
      fun h => ⟨by simp, hiff.mpr h.1, rfl, hnulls _ _ (by simp), rfl, rfl⟩⟩, hcl, rfl, rfl⟩
  | true =>
    simp only [ClearedValidity, if_true] at hb
    obtain ⟨bm, hbm, hc⟩ := hb
    subst hbm
    obtain ⟨bm', hbm', _, _, _, hcl2⟩ := hc.append (validityOf rows)
    obtain ⟨bm2, hbm2, _, hiff2⟩ := hc.reads_iff (validityOf rows)
    rw [hbm'] at hbm2; cases hbm2
    obtain ⟨x, y, hx, hy, hr⟩ := BoolBuffer.pushAll_raw values bm 0 rows hv.inv hc.inv
    rw [hm'] at hx; cases hx
    rw [hbm'] at hy; cases hy
    refine ⟨_, hr, by simp, rfl, hnulls _ _ (by simp), ⟨fun s => ⟨hiff.mp s.values, fun _ => ?_⟩,
      fun h => ⟨by simp, hiff.mpr h.1, rfl, hnulls _ _ (by simp), ⟨bm', rfl, hiff2.mpr (h.2 rfl)⟩,
        ⟨bm', rfl, hiff2.mpr (h.2 rfl)⟩⟩⟩, hcl, rfl, ⟨_, rfl, hcl2⟩⟩
    obtain ⟨z, hz, hR⟩ := s.validity
    cases hz
    exact hiff2.mp hR

/-- C09 for boolean buffers over any history: the values are a bitmap too, so both the values and
the validity bits of every earlier generation matter. -/
theorem C09_bool_history (nullable : Bool) (gens : List (List (Option Bool)))
    (rows : List (Option Bool)) (hg : ∀ g ∈ gens, Accepts nullable g) (hA : Accepts nullable rows) :
    ∃ b b', (BoolBuffer.new nullable).generations gens = .ok b ∧ b.pushAll rows = .ok b' ∧
      b'.len = rows.length ∧ b'.isNullable = nullable ∧ b'.hasNulls = rows.any Option.isNone ∧
      (b'.Shows nullable rows ↔ NoStaleGens (gens.map valuesOf) (valuesOf rows) ∧
        (nullable = true → NoStaleGens (gens.map validityOf) (validityOf rows))) := by
  have key : ∀ (gens : List (List (Option Bool))) (vals done : List (List Bool)) (b : BoolBuffer),
      (∀ g ∈ gens, Accepts nullable g) →
      b.values.Cleared vals → b.len = 0 → ClearedValidity nullable b.validity done →
      ∃ b', b.generations gens = .ok b' ∧ b'.values.Cleared (vals ++ gens.map valuesOf) ∧ b'.len = 0 ∧
        ClearedValidity nullable b'.validity (done ++ gens.map validityOf) := by
    intro gens
    induction gens with
    | nil => intro vals done b _ hv hn hb; exact ⟨b, rfl, by simpa using hv, hn, by simpa using hb⟩
    | cons g gens ih =>
      intro vals done b hg hv hn hb
      obtain ⟨b1, h1, _, _, _, _, hv1, hn1, hb1⟩ := BoolBuffer.cleared_push hv hn hb g (hg g (by simp))
      obtain ⟨b2, h2, hv2, hn2, hb2⟩ := ih _ _ b1.clear (fun g' h => hg g' (by simp [h])) hv1 hn1 hb1
      refine ⟨b2, ?_, by simpa using hv2, hn2, by simpa using hb2⟩
      simp only [BoolBuffer.generations, List.foldlM_cons, h1, ok_bind, pure_eq_ok]; exact h2
  obtain ⟨b, hb, hv, hn, hc⟩ := key gens [] [] (BoolBuffer.new nullable) hg
    ⟨Bitmap.new_inv, rfl, fun i => by
      have : (BoolBuffer.new nullable).values = Bitmap.new := rfl
      rw [this, Bitmap.new_bitAt]; simp [staleBit]⟩ rfl cleared_nil
  obtain ⟨b', h', h1, h2, h3, h4, _⟩ := BoolBuffer.cleared_push hv hn hc rows hA
  exact ⟨b, b', hb, h', h1, h2, h3, h4⟩

/-- Two clears: the row that was valid in the first generation makes the null of the third valid. -/
example : ∃ b b', (PrimitiveBuffer.new true).generations [[some 1, some 2], [none, (none : Option Nat)]]
    = .ok b ∧ b.pushAll [some 5, none] = .ok b' ∧ b'.numValues = 2 ∧ ¬ b'.Shows true [some 5, none] := by
  obtain ⟨b, b', h, h', _, _, hn, _, _, hs⟩ := C09_primitive_history true
    [[some 1, some 2], [none, none]] [some 5, none] (fun _ _ => .inl rfl) (.inl rfl)
  refine ⟨b, b', h, h', hn, fun s => ?_⟩
  have := hs.mp s rfl 1 (by simp) rfl (by omega) [true, true] (by simp [validityOf])
  simp at this

end Meerkat
