import Verif.Model.Metadata

set_option autoImplicit false

/-!
# Reading the protocol buffer wire format

A reader written from the protocol buffers documentation and from
/repo/src/store/segment_metadata.proto: unknown fields are skipped, the last value of a scalar counts, the parts of a
message field are merged, the last member of a oneof counts, the last entry of a map with some key counts.
-/

namespace Meerkat.Protobuf

/-- The value of a field on the wire. -/
inductive Wire where
  | varint (n : Nat)
  | fixed64 (b : Bytes)
  | len (b : Bytes)
  | fixed32 (b : Bytes)
  deriving DecidableEq, Repr

/-- A base-128 number of at most `fuel` bytes, and what follows it. -/
def readVarintUpTo : Nat → Bytes → Option (Nat × Bytes)
  | 0, _ => none
  | _ + 1, [] => none
  | fuel + 1, b :: bs =>
    if b.toNat < 128 then some (b.toNat, bs)
    else (readVarintUpTo fuel bs).map fun (n, rest) => (b.toNat - 128 + 128 * n, rest)

/-- A number has at most ten bytes. -/
def readVarint (b : Bytes) : Option (Nat × Bytes) := readVarintUpTo 10 b

/-- The first `n` bytes, if there are as many, and the others. -/
def readBytes (n : Nat) (b : Bytes) : Option (Bytes × Bytes) :=
  if n ≤ b.length then some (b.take n, b.drop n) else none

/-- One field with its tag, and what follows it. -/
def readField (b : Bytes) : Option ((Nat × Wire) × Bytes) := do
  let (key, b) ← readVarint b
  let tag := key / 8
  match key % 8 with
  | 0 => let (n, b) ← readVarint b; some ((tag, .varint n), b)
  | 1 => let (v, b) ← readBytes 8 b; some ((tag, .fixed64 v), b)
  | 2 => let (n, b) ← readVarint b; let (v, b) ← readBytes n b; some ((tag, .len v), b)
  | 5 => let (v, b) ← readBytes 4 b; some ((tag, .fixed32 v), b)
  | _ => none

/-- All fields of a message; every field has a byte, so as many rounds as there are bytes are enough. -/
def readFieldsUpTo : Nat → Bytes → Option (List (Nat × Wire))
  | _, [] => some []
  | 0, _ :: _ => none
  | fuel + 1, b@(_ :: _) => do
    let (f, rest) ← readField b
    let fs ← readFieldsUpTo fuel rest
    some (f :: fs)

def readFields (b : Bytes) : Option (List (Nat × Wire)) := readFieldsUpTo b.length b

/-- A message, read into the value `m`. -/
def readInto {M : Type} (field : M → Nat × Wire → Option M) (m : M) (b : Bytes) : Option M := do
  let fs ← readFields b
  fs.foldlM field m

def asUInt32 : Wire → Option UInt32
  | .varint n => some (UInt32.ofNat n)
  | _ => none

def asUInt64 : Wire → Option UInt64
  | .varint n => some (UInt64.ofNat n)
  | _ => none

def asInt32 : Wire → Option Int32
  | .varint n => some (Int32.ofInt n)
  | _ => none

def asBool : Wire → Option Bool
  | .varint n => some (n ≠ 0)
  | _ => none

def asBytes : Wire → Option Bytes
  | .len b => some b
  | _ => none

/-- Strings must be valid UTF-8. -/
def asString : Wire → Option String
  | .len b => String.fromUTF8? ⟨b.toArray⟩
  | _ => none

/-- An entry of a map from strings to messages: the key has tag 1 and the value tag 2. -/
def entryField {V : Type} (field : V → Nat × Wire → Option V) (e : String × V) : Nat × Wire → Option (String × V)
  | (1, w) => do some (← asString w, e.2)
  | (2, w) => do some (e.1, ← readInto field e.2 (← asBytes w))
  | _ => some e

/-- The map with one more entry read. -/
def readEntry {V : Type} (field : V → Nat × Wire → Option V) (dflt : V) (m : StringMap V) (w : Wire) :
    Option (StringMap V) := do
  let (k, v) ← readInto (entryField field) ("", dflt) (← asBytes w)
  some (m.insert k v)

/-- A message without fields: every field is unknown. -/
def emptyField (_ : Unit) : Nat × Wire → Option Unit := fun _ => some ()

def columnMetaField (m : ColumnMeta) : Nat × Wire → Option ColumnMeta
  | (1, w) => do some { m with name := ← asString w }
  | (2, w) => do some { m with columnType := ← asInt32 w }
  | (3, w) => do some { m with nullable := ← asBool w }
  | (4, w) => do some { m with encoding := ← asInt32 w }
  | (5, w) => do some { m with indexType := ← asInt32 w }
  | (6, w) => do some { m with numValues := ← asUInt32 w }
  | (7, w) => do some { m with numNulls := ← asUInt32 w }
  | (8, w) => do some { m with cardinality := ← asUInt32 w }
  | (9, w) => do some { m with compressedSize := ← asUInt64 w }
  | (10, w) => do some { m with uncompressedSize := ← asUInt64 w }
  | (11, w) => do let _ ← readInto emptyField () (← asBytes w); some { m with stats := some .int32Stats }
  | (12, w) => do let _ ← readInto emptyField () (← asBytes w); some { m with stats := some .int64Stats }
  | (13, w) => do let _ ← readInto emptyField () (← asBytes w); some { m with stats := some .float64Stats }
  | (14, w) => do let _ ← readInto emptyField () (← asBytes w); some { m with stats := some .stringStats }
  | _ => some m

def segmentMetaField (m : SegmentMeta) : Nat × Wire → Option SegmentMeta
  | (1, w) => do some { m with segmentId := ← asBytes w }
  | (2, w) => do some { m with databaseName := ← asString w }
  | (3, w) => do some { m with tableName := ← asString w }
  | (4, w) => do some { m with shardId := ← asUInt32 w }
  | (5, w) => do some { m with compressedSize := ← asUInt64 w }
  | (6, w) => do some { m with uncompressedSize := ← asUInt64 w }
  | (7, w) => do some { m with numRows := ← asUInt32 w }
  | (8, w) => do some { m with columnsMeta := ← readEntry columnMetaField {} m.columnsMeta w }
  | _ => some m

def rangeField (m : Range) : Nat × Wire → Option Range
  | (1, w) => do some { m with start := ← asUInt64 w }
  | (2, w) => do some { m with «end» := ← asUInt64 w }
  | _ => some m

def rangeMessageField (m : RangeMessage) : Nat × Wire → Option RangeMessage
  | (1, w) => do some { m with range := some (← readInto rangeField (m.range.getD {}) (← asBytes w)) }
  | _ => some m

/-- The index layout read so far, if it is a string index. -/
def oldStringIndex : Option ColumnIndexLayout → RangeMessage
  | some (.stringIndexV1 m) => m
  | _ => {}

/-- The dictionary read so far, if there is one. -/
def oldBinaryDict : Option EncoderLayout → RangeMessage
  | some (.binaryDict m) => m
  | _ => {}

def columnLayoutField (m : ColumnLayout) : Nat × Wire → Option ColumnLayout
  | (1, w) => do
    let _ ← readInto emptyField () (← asBytes w)
    some { m with columnIndexLayout := some .noIndex }
  | (2, w) => do
    let i ← readInto rangeMessageField (oldStringIndex m.columnIndexLayout) (← asBytes w)
    some { m with columnIndexLayout := some (.stringIndexV1 i) }
  | (3, w) => do
    let l ← readInto rangeMessageField (m.blockIndexLayout.getD {}) (← asBytes w)
    some { m with blockIndexLayout := some l }
  | (4, w) => do
    let _ ← readInto emptyField () (← asBytes w)
    some { m with encoderLayout := some .plain }
  | (5, w) => do
    let d ← readInto rangeMessageField (oldBinaryDict m.encoderLayout) (← asBytes w)
    some { m with encoderLayout := some (.binaryDict d) }
  | (6, w) => do
    let _ ← readInto emptyField () (← asBytes w)
    some { m with encoderLayout := some .snappy }
  | _ => some m

def metadataField (m : Metadata) : Nat × Wire → Option Metadata
  | (1, w) => do some { m with segmentMeta := some (← readInto segmentMetaField (m.segmentMeta.getD {}) (← asBytes w)) }
  | (2, w) => do some { m with columnsLayout := ← readEntry columnLayoutField {} m.columnsLayout w }
  | _ => some m

/-- The metadata that the bytes stand for. -/
def readMetadata (b : Bytes) : Option Metadata := readInto metadataField {} b

/-- Two maps with the same entries. -/
def SameMap {V : Type} (m m' : StringMap V) : Prop :=
  (m.map Prod.fst).Nodup ∧ (m'.map Prod.fst).Nodup ∧ ∀ k v, (k, v) ∈ m ↔ (k, v) ∈ m'

/-- Two segment descriptions that differ at most in the order of their maps. -/
structure SameSegmentMeta (m m' : SegmentMeta) : Prop where
  others : { m with columnsMeta := [] } = { m' with columnsMeta := [] }
  columnsMeta : SameMap m.columnsMeta m'.columnsMeta

/-- Two values of the metadata that differ at most in the order of their maps. -/
structure SameMetadata (m m' : Metadata) : Prop where
  segmentMeta : match m.segmentMeta, m'.segmentMeta with
    | none, none => True
    | some s, some s' => SameSegmentMeta s s'
    | _, _ => False
  columnsLayout : SameMap m.columnsLayout m'.columnsLayout

end Meerkat.Protobuf
