import Verif.Spec.Protobuf

set_option autoImplicit false

/-! # The wire format read back -/

namespace Meerkat.Protobuf

open Prost

theorem readVarintUpTo_length {k : Nat} {b rest : Bytes} {n : Nat} (h : readVarintUpTo k b = some (n, rest)) :
    rest.length < b.length := by
  induction k generalizing b n with
  | zero => simp [readVarintUpTo] at h
  | succ k ih =>
    cases b with
    | nil => simp [readVarintUpTo] at h
    | cons c cs =>
      simp only [readVarintUpTo] at h
      split at h
      · cases h; simp
      · rw [Option.map_eq_some_iff] at h
        obtain ⟨⟨m, r⟩, h1, h2⟩ := h
        cases h2
        have := ih h1
        dsimp only at this ⊢; simp only [List.length_cons]; omega

theorem readVarint_length {b rest : Bytes} {n : Nat} (h : readVarint b = some (n, rest)) :
    rest.length < b.length := readVarintUpTo_length h

theorem readBytes_length {n : Nat} {b v rest : Bytes} (h : readBytes n b = some (v, rest)) :
    rest.length ≤ b.length := by
  simp only [readBytes] at h
  split at h
  · cases h; simp
  · cases h

theorem readField_length {b rest : Bytes} {f : Nat × Wire} (h : readField b = some (f, rest)) :
    rest.length < b.length := by
  simp only [readField, Option.bind_eq_bind, Option.bind_eq_some_iff] at h
  obtain ⟨⟨k, b1⟩, h1, h⟩ := h
  have l1 := readVarint_length h1
  dsimp only at h
  split at h
  · obtain ⟨⟨n, b2⟩, h2, h⟩ := Option.bind_eq_some_iff.1 h
    cases h
    have := readVarint_length h2
    dsimp only at *; omega
  · obtain ⟨⟨n, b2⟩, h2, h⟩ := Option.bind_eq_some_iff.1 h
    cases h
    have := readBytes_length h2
    dsimp only at *; omega
  · obtain ⟨⟨n, b2⟩, h2, h⟩ := Option.bind_eq_some_iff.1 h
    obtain ⟨⟨n, b2⟩, h3, h⟩ := Option.bind_eq_some_iff.1 h
    cases h
    have := readVarint_length h2
    have := readBytes_length h3
    dsimp only at *; omega
  · obtain ⟨⟨n, b2⟩, h2, h⟩ := Option.bind_eq_some_iff.1 h
    cases h
    have := readBytes_length h2
    dsimp only at *; omega
  · cases h

/-- Enough rounds are enough. -/
theorem readFieldsUpTo_fuel (k k' : Nat) (b : Bytes) (h : b.length ≤ k) (h' : b.length ≤ k') :
    readFieldsUpTo k b = readFieldsUpTo k' b := by
  induction k generalizing k' b with
  | zero =>
    obtain rfl : b = [] := List.length_eq_zero_iff.1 (by omega)
    cases k' <;> rfl
  | succ k ih =>
    cases b with
    | nil => cases k' <;> rfl
    | cons c cs =>
      cases k' with
      | zero => simp at h'
      | succ k' =>
        simp only [readFieldsUpTo]
        rcases hf : readField (c :: cs) with _ | ⟨f, rest⟩
        · rfl
        · have := readField_length hf
          simp only [List.length_cons] at this h h'
          simp only [Option.bind_eq_bind, Option.bind_some]
          rw [ih k' rest (by omega) (by omega)]

/-- A field that is read takes part in the fields that are read. -/
theorem readFields_of_field {b rest : Bytes} {f : Nat × Wire} (h : readField b = some (f, rest)) :
    readFields b = (readFields rest).map (f :: ·) := by
  have hl := readField_length h
  cases b with
  | nil => simp at hl
  | cons c cs =>
    simp only [List.length_cons] at hl
    simp only [readFields, List.length_cons, readFieldsUpTo, h, Option.bind_eq_bind, Option.bind_some]
    rw [readFieldsUpTo_fuel cs.length rest.length rest (by omega) (by omega)]
    rcases readFieldsUpTo rest.length rest with _ | x <;> rfl

/-! ## Numbers -/

theorem varint_lt {n : Nat} (h : n < 128) : varint n = [UInt8.ofNat n] := by rw [varint, if_pos h]

theorem varint_ge {n : Nat} (h : ¬ n < 128) : varint n = UInt8.ofNat (n % 128 + 128) :: varint (n / 128) := by
  rw [varint, if_neg h]

theorem readVarintUpTo_varint (k n : Nat) (rest : Bytes) (h : n < 128 ^ (k + 1)) :
    readVarintUpTo (k + 1) (varint n ++ rest) = some (n, rest) := by
  induction k generalizing n with
  | zero =>
    have h : n < 128 := by simpa using h
    have hn : (UInt8.ofNat n).toNat = n := by rw [UInt8.toNat_ofNat']; omega
    simp [varint_lt h, readVarintUpTo, hn, h]
  | succ k ih =>
    by_cases hn : n < 128
    · have h1 : (UInt8.ofNat n).toNat = n := by rw [UInt8.toNat_ofNat']; omega
      simp [varint_lt hn, readVarintUpTo, h1, hn]
    · have h1 : (UInt8.ofNat (n % 128 + 128)).toNat = n % 128 + 128 := by rw [UInt8.toNat_ofNat']; omega
      rw [varint_ge hn, List.cons_append, readVarintUpTo, h1, if_neg (by omega),
        ih _ (by rw [Nat.pow_succ] at h; omega)]
      simp; omega

theorem readVarint_varint (n : Nat) (rest : Bytes) (h : n < 2 ^ 64) : readVarint (varint n ++ rest) = some (n, rest) :=
  readVarintUpTo_varint 9 n rest (Nat.lt_trans h (by decide))

/-! ## Fields -/

/-- The bytes `b`, whatever follows them, are read as the fields `fs`. -/
def Parses (b : Bytes) (fs : List (Nat × Wire)) : Prop :=
  ∀ rest, readFields (b ++ rest) = (readFields rest).map (fs ++ ·)

theorem Parses.nil : Parses [] [] := by
  intro rest; simp

theorem Parses.append {b b' : Bytes} {fs fs' : List (Nat × Wire)} (h : Parses b fs) (h' : Parses b' fs') :
    Parses (b ++ b') (fs ++ fs') := by
  intro rest
  rw [List.append_assoc, h, h', Option.map_map]
  congr 1
  funext x
  simp

theorem Parses.readFields {b : Bytes} {fs : List (Nat × Wire)} (h : Parses b fs) : readFields b = some fs := by
  have := h []
  rw [List.append_nil] at this
  rw [this]
  simp [Protobuf.readFields, readFieldsUpTo]

theorem readInto_of_parses {M : Type} {field : M → Nat × Wire → Option M} {m : M} {b : Bytes}
    {fs : List (Nat × Wire)} (h : Parses b fs) : readInto field m b = fs.foldlM field m := by
  simp [readInto, h.readFields]

theorem readField_key {t w : Nat} (ht : t < 2 ^ 32) (hw : w < 8) (b : Bytes) :
    readVarint (key t w ++ b) = some (t * 8 + w, b) := by
  rw [key, readVarint_varint _ _ (by omega)]

theorem readField_varint {t n : Nat} (ht : t < 2 ^ 32) (hn : n < 2 ^ 64) (rest : Bytes) :
    readField (key t 0 ++ varint n ++ rest) = some ((t, .varint n), rest) := by
  have h1 : (t * 8 + 0) % 8 = 0 := by omega
  have h2 : (t * 8 + 0) / 8 = t := by omega
  simp only [readField, List.append_assoc, readField_key ht (show 0 < 8 by decide), Option.bind_eq_bind,
    Option.bind_some, h1, h2, readVarint_varint n rest hn]

theorem readField_len {t : Nat} {p : Bytes} (ht : t < 2 ^ 32) (hn : p.length < 2 ^ 64) (rest : Bytes) :
    readField (lenField t p ++ rest) = some ((t, .len p), rest) := by
  have h1 : (t * 8 + 2) % 8 = 2 := by omega
  have h2 : (t * 8 + 2) / 8 = t := by omega
  simp only [readField, lenField, List.append_assoc, readField_key ht (show 2 < 8 by decide), Option.bind_eq_bind,
    Option.bind_some, h1, h2, readVarint_varint p.length _ hn, readBytes, List.length_append, Nat.le_add_right,
    if_true, List.take_left, List.drop_left]

/-- The fields of an optional number. -/
def varintFields (t n : Nat) : List (Nat × Wire) := if n = 0 then [] else [(t, .varint n)]

/-- The fields of optional bytes. -/
def bytesFields (t : Nat) (b : Bytes) : List (Nat × Wire) := if b = [] then [] else [(t, .len b)]

theorem Parses.varintField {t n : Nat} (ht : t < 2 ^ 32) (hn : n < 2 ^ 64) :
    Parses (varintField t n) (varintFields t n) := by
  by_cases h : n = 0
  · simp only [Prost.varintField, varintFields, if_pos h]; exact .nil
  · intro rest
    simp only [Prost.varintField, varintFields, if_neg h]
    rw [readFields_of_field (readField_varint ht hn rest)]; rfl

theorem Parses.lenField {t : Nat} {p : Bytes} (ht : t < 2 ^ 32) (hn : p.length < 2 ^ 64) :
    Parses (lenField t p) [(t, .len p)] := by
  intro rest
  rw [readFields_of_field (readField_len ht hn rest)]; rfl

theorem Parses.bytesField {t : Nat} {b : Bytes} (ht : t < 2 ^ 32) (hn : b.length < 2 ^ 64) :
    Parses (bytesField t b) (bytesFields t b) := by
  by_cases h : b = []
  · simp only [Prost.bytesField, bytesFields, if_pos h]; exact .nil
  · simp only [Prost.bytesField, bytesFields, if_neg h]; exact .lenField ht hn

theorem lenField_length (t : Nat) (p : Bytes) : p.length ≤ (lenField t p).length := by
  simp [Prost.lenField]; omega

theorem bytesField_length (t : Nat) (p : Bytes) : p.length ≤ (bytesField t p).length := by
  simp only [Prost.bytesField]
  split
  · simp [*]
  · exact lenField_length _ _

/-! ## Values -/

theorem asInt32_field (x : Int32) (h : (x.toInt % 2 ^ 64).toNat = 0) : x = 0 := by
  apply Int32.toInt_inj.1
  have h1 := Int32.toInt_lt x
  have h2 := Int32.le_toInt x
  simp; omega

theorem ofInt_field (x : Int32) : Int32.ofInt ((x.toInt % 2 ^ 64).toNat : Nat) = x := by
  have h2 : (((x.toInt % 2 ^ 64).toNat : Nat) : Int) = x.toInt % 2 ^ 64 := Int.toNat_of_nonneg (by omega)
  rw [h2]
  apply Int32.toInt_inj.1
  have h1 := Int32.toInt_lt x
  have h2 := Int32.le_toInt x
  rw [Int32.toInt_ofInt]
  have hs : (Int32.size : Int) = 2 ^ 32 := rfl
  simp only [Int.bmod, hs]
  omega

theorem asString_utf8 (s : String) : asString (.len (utf8 s)) = some s := by
  have h : (⟨(utf8 s).toArray⟩ : ByteArray) = s.toByteArray := by simp [utf8]
  simp only [asString, String.fromUTF8?, h, s.isValidUTF8, dif_pos]
  rfl

theorem utf8_nil {s : String} (h : utf8 s = []) : s = "" := by
  have h1 := asString_utf8 s
  have h2 := asString_utf8 ""
  rw [show utf8 "" = [] from rfl] at h2
  rw [h, h2] at h1
  exact (Option.some.inj h1).symm

/-! ## Messages -/

section Fold

variable {M : Type} {step : M → Nat × Wire → Option M} {s s1 s' : M}

theorem fold_append {l l' : List (Nat × Wire)} (h : l.foldlM step s = some s1) (h' : l'.foldlM step s1 = some s') :
    (l ++ l').foldlM step s = some s' := by
  rw [List.foldlM_append, h]; exact h'

theorem fold_one {f : Nat × Wire} (h : step s f = some s') : [f].foldlM step s = some s' := by
  simp [h]

theorem fold_string {t : Nat} {x : String} {g : String → M}
    (hstep : ∀ w, step s (t, w) = (asString w).bind fun x => some (g x)) (h0 : g "" = s) :
    (bytesFields t (utf8 x)).foldlM step s = some (g x) := by
  by_cases h : utf8 x = []
  · rw [bytesFields, if_pos h, utf8_nil h, h0]; rfl
  · rw [bytesFields, if_neg h]
    exact fold_one (by rw [hstep, asString_utf8]; rfl)

theorem fold_bytes {t : Nat} {x : Bytes} {g : Bytes → M}
    (hstep : ∀ w, step s (t, w) = (asBytes w).bind fun x => some (g x)) (h0 : g [] = s) :
    (bytesFields t x).foldlM step s = some (g x) := by
  by_cases h : x = []
  · rw [bytesFields, if_pos h, h, h0]; rfl
  · rw [bytesFields, if_neg h]
    exact fold_one (by rw [hstep]; rfl)

theorem fold_uint32 {t : Nat} {x : UInt32} {g : UInt32 → M}
    (hstep : ∀ w, step s (t, w) = (asUInt32 w).bind fun x => some (g x)) (h0 : g 0 = s) :
    (varintFields t x.toNat).foldlM step s = some (g x) := by
  by_cases h : x.toNat = 0
  · rw [varintFields, if_pos h, show x = 0 from UInt32.toNat_inj.1 h, h0]; rfl
  · rw [varintFields, if_neg h]
    exact fold_one (by rw [hstep]; simp [asUInt32])

theorem fold_uint64 {t : Nat} {x : UInt64} {g : UInt64 → M}
    (hstep : ∀ w, step s (t, w) = (asUInt64 w).bind fun x => some (g x)) (h0 : g 0 = s) :
    (varintFields t x.toNat).foldlM step s = some (g x) := by
  by_cases h : x.toNat = 0
  · rw [varintFields, if_pos h, show x = 0 from UInt64.toNat_inj.1 h, h0]; rfl
  · rw [varintFields, if_neg h]
    exact fold_one (by rw [hstep]; simp [asUInt64])

theorem fold_int32 {t : Nat} {x : Int32} {g : Int32 → M}
    (hstep : ∀ w, step s (t, w) = (asInt32 w).bind fun x => some (g x)) (h0 : g 0 = s) :
    (varintFields t (x.toInt % 2 ^ 64).toNat).foldlM step s = some (g x) := by
  by_cases h : (x.toInt % 2 ^ 64).toNat = 0
  · rw [varintFields, if_pos h, asInt32_field x h, h0]; rfl
  · rw [varintFields, if_neg h]
    exact fold_one (by rw [hstep, asInt32, ofInt_field]; rfl)

theorem fold_bool {t : Nat} {x : Bool} {g : Bool → M}
    (hstep : ∀ w, step s (t, w) = (asBool w).bind fun x => some (g x)) (h0 : g false = s) :
    (varintFields t x.toNat).foldlM step s = some (g x) := by
  cases x
  · rw [h0]; rfl
  · exact fold_one (by rw [hstep]; rfl)

end Fold

theorem Parses.int32Field {t : Nat} {x : Int32} (ht : t < 2 ^ 32) :
    Parses (int32Field t x) (varintFields t (x.toInt % 2 ^ 64).toNat) := .varintField ht (by omega)

theorem Parses.boolField {t : Nat} {x : Bool} (ht : t < 2 ^ 32) :
    Parses (boolField t x) (varintFields t x.toNat) := .varintField ht (by cases x <;> decide)

theorem Parses.uint32 {t : Nat} {x : UInt32} (ht : t < 2 ^ 32) :
    Parses (Prost.varintField t x.toNat) (varintFields t x.toNat) := .varintField ht (by have := x.toNat_lt; omega)

theorem Parses.uint64 {t : Nat} {x : UInt64} (ht : t < 2 ^ 32) :
    Parses (Prost.varintField t x.toNat) (varintFields t x.toNat) := .varintField ht x.toNat_lt

theorem Parses.stringField {t : Nat} {x : String} (ht : t < 2 ^ 32) (hn : (stringField t x).length < 2 ^ 64) :
    Parses (stringField t x) (bytesFields t (utf8 x)) :=
  .bytesField ht (Nat.lt_of_le_of_lt (bytesField_length _ _) hn)

/-- The fields of the statistics. -/
def statsFields : Option Stats → List (Nat × Wire)
  | none => []
  | some .int32Stats => [(11, .len [])]
  | some .int64Stats => [(12, .len [])]
  | some .float64Stats => [(13, .len [])]
  | some .stringStats => [(14, .len [])]

theorem Parses.stats (s : Option Stats) :
    Parses (match s with | none => [] | some s => encodeStats s) (statsFields s) := by
  rcases s with _ | (_ | _ | _ | _)
  · exact .nil
  all_goals exact .lenField (by decide) (by decide)

theorem read_columnMeta (m : ColumnMeta) (h : (encodeColumnMeta m).length < 2 ^ 64) :
    readInto columnMetaField {} (encodeColumnMeta m) = some m := by
  have h1 : (stringField 1 m.name).length < 2 ^ 64 := by
    simp only [encodeColumnMeta, List.length_append] at h; omega
  have hp : Parses (encodeColumnMeta m) _ :=
    ((((((((((Parses.stringField (by decide) h1).append (.int32Field (by decide))).append
      (.boolField (by decide))).append (.int32Field (by decide))).append (.int32Field (by decide))).append
      (.uint32 (by decide))).append (.uint32 (by decide))).append (.uint32 (by decide))).append
      (.uint64 (by decide))).append (.uint64 (by decide))).append (.stats m.stats)
  rw [readInto_of_parses hp]
  refine fold_append (fold_append (fold_append (fold_append (fold_append (fold_append (fold_append (fold_append
    (fold_append (fold_append (fold_string (fun _ => rfl) rfl) (fold_int32 (fun _ => rfl) rfl))
    (fold_bool (fun _ => rfl) rfl)) (fold_int32 (fun _ => rfl) rfl)) (fold_int32 (fun _ => rfl) rfl))
    (fold_uint32 (fun _ => rfl) rfl)) (fold_uint32 (fun _ => rfl) rfl)) (fold_uint32 (fun _ => rfl) rfl))
    (fold_uint64 (fun _ => rfl) rfl)) (fold_uint64 (fun _ => rfl) rfl)) ?_
  obtain ⟨_, _, _, _, _, _, _, _, _, _, stats⟩ := m
  rcases stats with _ | (_ | _ | _ | _) <;> rfl

theorem read_range (m : Range) : readInto rangeField {} (encodeRange m) = some m := by
  have hp : Parses (encodeRange m) _ := (Parses.uint64 (by decide)).append (.uint64 (by decide))
  rw [readInto_of_parses hp]
  exact fold_append (fold_uint64 (fun _ => rfl) rfl) (fold_uint64 (fun _ => rfl) rfl)

theorem read_rangeMessage (m : RangeMessage) (h : (encodeRangeMessage m).length < 2 ^ 64) :
    readInto rangeMessageField {} (encodeRangeMessage m) = some m := by
  obtain ⟨_ | r⟩ := m
  · rfl
  · have hp : Parses (encodeRangeMessage ⟨some r⟩) _ :=
      .lenField (by decide) (Nat.lt_of_le_of_lt (lenField_length _ _) h)
    rw [readInto_of_parses hp]
    refine fold_one ?_
    simp [rangeMessageField, asBytes, read_range]

/-- The fields of an optional message. -/
def optFields {A : Type} (t : Nat) (enc : A → Bytes) : Option A → List (Nat × Wire)
  | none => []
  | some m => [(t, .len (enc m))]

theorem Parses.optField {A : Type} {t : Nat} {enc : A → Bytes} {m : Option A} (ht : t < 2 ^ 32)
    (h : (optField t enc m).length < 2 ^ 64) : Parses (Prost.optField t enc m) (optFields t enc m) := by
  cases m with
  | none => exact .nil
  | some m => exact .lenField ht (Nat.lt_of_le_of_lt (lenField_length _ _) h)

theorem read_empty : readInto emptyField () [] = some () := rfl

/-- The fields of the index layout. -/
def indexFields : Option ColumnIndexLayout → List (Nat × Wire)
  | none => []
  | some .noIndex => [(1, .len [])]
  | some (.stringIndexV1 m) => [(2, .len (encodeRangeMessage m))]

/-- The bytes of the index layout. -/
def indexBytes (l : Option ColumnIndexLayout) : Bytes :=
  match l with | none => [] | some l => encodeColumnIndexLayout l

theorem Parses.index (l : Option ColumnIndexLayout) (h : (indexBytes l).length < 2 ^ 64) :
    Parses (indexBytes l) (indexFields l) := by
  rcases l with _ | (_ | m)
  · exact .nil
  · exact .lenField (by decide) (by decide)
  · exact .lenField (by decide) (Nat.lt_of_le_of_lt (lenField_length _ _) h)

/-- The fields of the encoder layout. -/
def encoderFields : Option EncoderLayout → List (Nat × Wire)
  | none => []
  | some .plain => [(4, .len [])]
  | some (.binaryDict m) => [(5, .len (encodeRangeMessage m))]
  | some .snappy => [(6, .len [])]

/-- The bytes of the encoder layout. -/
def encoderBytes (l : Option EncoderLayout) : Bytes :=
  match l with | none => [] | some l => encodeEncoderLayout l

theorem Parses.encoder (l : Option EncoderLayout) (h : (encoderBytes l).length < 2 ^ 64) :
    Parses (encoderBytes l) (encoderFields l) := by
  rcases l with _ | (_ | m | _)
  · exact .nil
  · exact .lenField (by decide) (by decide)
  · exact .lenField (by decide) (Nat.lt_of_le_of_lt (lenField_length _ _) h)
  · exact .lenField (by decide) (by decide)

theorem read_columnLayout (m : ColumnLayout) (h : (encodeColumnLayout m).length < 2 ^ 64) :
    readInto columnLayoutField {} (encodeColumnLayout m) = some m := by
  have he : encodeColumnLayout m = indexBytes m.columnIndexLayout ++
      Prost.optField 3 encodeRangeMessage m.blockIndexLayout ++ encoderBytes m.encoderLayout := rfl
  rw [he] at h ⊢
  simp only [List.length_append] at h
  rw [readInto_of_parses (((Parses.index _ (by omega)).append (.optField (by decide) (by omega))).append
    (.encoder _ (by omega)))]
  obtain ⟨block, index, enc⟩ := m
  have h1 : (indexFields index).foldlM columnLayoutField {} = some { columnIndexLayout := index } := by
    rcases index with _ | (_ | m)
    · rfl
    · rfl
    · refine fold_one ?_
      have := read_rangeMessage m (by
        simp only [indexBytes, encodeColumnIndexLayout] at h
        have := lenField_length 2 (encodeRangeMessage m)
        omega)
      simp [columnLayoutField, asBytes, oldStringIndex, this]
  have h2 : (optFields 3 encodeRangeMessage block).foldlM columnLayoutField { columnIndexLayout := index } =
      some { columnIndexLayout := index, blockIndexLayout := block } := by
    rcases block with _ | m
    · rfl
    · refine fold_one ?_
      have := read_rangeMessage m (by
        simp only [Prost.optField] at h
        have := lenField_length 3 (encodeRangeMessage m)
        omega)
      simp [columnLayoutField, asBytes, this]
  refine fold_append (fold_append h1 h2) ?_
  rcases enc with _ | (_ | m | _)
  · rfl
  · rfl
  · refine fold_one ?_
    have := read_rangeMessage m (by
      simp only [encoderBytes, encodeEncoderLayout] at h
      have := lenField_length 5 (encodeRangeMessage m)
      omega)
    simp [columnLayoutField, asBytes, oldBinaryDict, this]
  · rfl

/-! ## Maps -/

section Map

variable {V : Type} [DecidableEq V] {field : V → Nat × Wire → Option V} {dflt : V} {enc : V → Bytes}

/-- The bytes of an entry of a map. -/
def entryBytes (dflt : V) (enc : V → Bytes) (e : String × V) : Bytes :=
  stringField 1 e.1 ++ if e.2 = dflt then [] else lenField 2 (enc e.2)

theorem read_entry (e : String × V) (h : (entryBytes dflt enc e).length < 2 ^ 64)
    (hv : (enc e.2).length < 2 ^ 64 → readInto field dflt (enc e.2) = some e.2) :
    readInto (entryField field) ("", dflt) (entryBytes dflt enc e) = some e := by
  have h1 : (stringField 1 e.1).length < 2 ^ 64 := by
    simp only [entryBytes, List.length_append] at h; omega
  have hs := Parses.stringField (t := 1) (by decide) h1
  by_cases hd : e.2 = dflt
  · simp only [entryBytes, if_pos hd, List.append_nil]
    rw [readInto_of_parses hs]
    refine (fold_string (g := fun k => (k, dflt)) (fun _ => rfl) rfl).trans ?_
    rw [← hd]
  · simp only [entryBytes, if_neg hd, List.length_append] at h ⊢
    have h2 : (enc e.2).length < 2 ^ 64 := by
      have := lenField_length 2 (enc e.2); omega
    rw [readInto_of_parses (hs.append (.lenField (by decide) h2))]
    refine fold_append (fold_string (g := fun k => (k, dflt)) (fun _ => rfl) rfl) (fold_one ?_)
    simp [entryField, asBytes, hv h2]

theorem Parses.map {t : Nat} (ht : t < 2 ^ 32) (m : StringMap V) (h : (mapField t dflt enc m).length < 2 ^ 64) :
    Parses (mapField t dflt enc m) (m.map fun e => (t, .len (entryBytes dflt enc e))) := by
  induction m with
  | nil => exact .nil
  | cons e m ih =>
    have he : mapField t dflt enc (e :: m) = Prost.lenField t (entryBytes dflt enc e) ++ mapField t dflt enc m := rfl
    rw [he] at h ⊢
    simp only [List.length_append] at h
    exact (Parses.lenField ht (by have := lenField_length t (entryBytes dflt enc e); omega)).append (ih (by omega))

omit [DecidableEq V] in
theorem insert_new {m : StringMap V} {k : String} {v : V} (h : k ∉ m.map Prod.fst) :
    m.insert k v = m ++ [(k, v)] := by
  rw [StringMap.insert, List.filter_eq_self.2]
  intro e he
  simp only [ne_eq, decide_eq_true_eq]
  rintro rfl
  exact h (List.mem_map_of_mem he)

theorem fold_map {M : Type} {step : M → Nat × Wire → Option M} {t : Nat} {g : StringMap V → M} (m acc : StringMap V)
    (hstep : ∀ m w, step (g m) (t, w) = (readEntry field dflt m w).bind fun x => some (g x))
    (hn : ((acc ++ m).map Prod.fst).Nodup) (h : (mapField t dflt enc m).length < 2 ^ 64)
    (hv : ∀ e ∈ m, (enc e.2).length < 2 ^ 64 → readInto field dflt (enc e.2) = some e.2) :
    (m.map fun e => (t, Wire.len (entryBytes dflt enc e))).foldlM step (g acc) = some (g (acc ++ m)) := by
  induction m generalizing acc with
  | nil => simp
  | cons e m ih =>
    have he : mapField t dflt enc (e :: m) = lenField t (entryBytes dflt enc e) ++ mapField t dflt enc m := rfl
    rw [he, List.length_append] at h
    have h1 := read_entry (field := field) e (dflt := dflt) (enc := enc)
      (by have := lenField_length t (entryBytes dflt enc e); omega) (hv e (by simp))
    have hnew : e.1 ∉ acc.map Prod.fst := by
      intro hm
      rw [List.map_append, List.nodup_append] at hn
      exact hn.2.2 _ hm _ (by simp) rfl
    rw [List.map_cons, List.foldlM_cons, hstep]
    simp only [readEntry, asBytes, Option.bind_eq_bind, Option.bind_some, h1, insert_new hnew]
    have := ih (acc ++ [e]) (by simpa using hn) (by omega) (fun e he => hv e (by simp [he]))
    simpa using this

end Map

/-! ## The metadata -/

theorem read_segmentMeta (m : SegmentMeta) (h : (encodeSegmentMeta m).length < 2 ^ 64)
    (hn : (m.columnsMeta.map Prod.fst).Nodup) :
    readInto segmentMetaField {} (encodeSegmentMeta m) = some m := by
  have h' := h
  simp only [encodeSegmentMeta, List.length_append] at h
  have h0 := bytesField_length 1 m.segmentId
  have hp : Parses (encodeSegmentMeta m) _ :=
    (((((((Parses.bytesField (by decide) (by omega)).append (.stringField (by decide) (by omega))).append
      (.stringField (by decide) (by omega))).append (.uint32 (by decide))).append (.uint64 (by decide))).append
      (.uint64 (by decide))).append (.uint32 (by decide))).append (.map (by decide) m.columnsMeta (by omega))
  rw [readInto_of_parses hp]
  refine fold_append (fold_append (fold_append (fold_append (fold_append (fold_append (fold_append
    (fold_bytes (fun _ => rfl) rfl) (fold_string (fun _ => rfl) rfl)) (fold_string (fun _ => rfl) rfl))
    (fold_uint32 (fun _ => rfl) rfl)) (fold_uint64 (fun _ => rfl) rfl)) (fold_uint64 (fun _ => rfl) rfl))
    (fold_uint32 (fun _ => rfl) rfl)) ?_
  exact fold_map (step := segmentMetaField) (t := 8) (enc := encodeColumnMeta) (g := fun x => { m with columnsMeta := x }) m.columnsMeta [] (fun _ _ => rfl) (by simpa using hn)
    (by omega) (fun e _ he => read_columnMeta e.2 he)

theorem read_metadata (m : Metadata) (h : (encodeMetadata m).length < 2 ^ 64)
    (hm : ∀ s, m.segmentMeta = some s → (s.columnsMeta.map Prod.fst).Nodup)
    (hl : (m.columnsLayout.map Prod.fst).Nodup) : readMetadata (encodeMetadata m) = some m := by
  have h' := h
  simp only [encodeMetadata, List.length_append] at h
  have hp : Parses (encodeMetadata m) _ :=
    (Parses.optField (by decide) (by omega)).append (.map (by decide) m.columnsLayout (by omega))
  rw [readMetadata, readInto_of_parses hp]
  have h1 : (optFields 1 encodeSegmentMeta m.segmentMeta).foldlM metadataField {} =
      some { segmentMeta := m.segmentMeta } := by
    obtain ⟨s, l⟩ := m
    rcases s with _ | s
    · rfl
    · refine fold_one ?_
      have := read_segmentMeta s (by
        simp only [Prost.optField] at h
        have := lenField_length 1 (encodeSegmentMeta s)
        omega) (hm s rfl)
      simp [metadataField, asBytes, this]
  refine fold_append h1 ?_
  exact fold_map (step := metadataField) (t := 2) (enc := encodeColumnLayout) (g := fun x => { m with columnsLayout := x }) m.columnsLayout [] (fun _ _ => rfl) (by simpa using hl)
    (by omega) (fun e _ he => read_columnLayout e.2 he)

end Meerkat.Protobuf
