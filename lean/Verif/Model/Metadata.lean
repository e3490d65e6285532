import Verif.Model.Prelude

set_option autoImplicit false

/-!
# Model of src/store/segment_metadata.rs and of its encoding by the crate `prost` 0.8

The types are generated from segment_metadata.proto. A `HashMap` is a list of entries with different
keys, in the order in which the map is iterated; that order is arbitrary, so a map stands for any
reordering of its list. `prost` is not part of /repo; the encoding below is the one its derive macro
generates: fields in the order of their tags, default scalars left out, absent messages left out, a map
as one entry message per pair with default keys and default values left out.
-/

namespace Meerkat

/-- segment_metadata.rs:128-142 `enum ColumnType`. -/
inductive ColumnType where
  | bool | datetime | decimal | dynamic | float64 | guid | int32 | int64 | string | timespan
  deriving DecidableEq, Repr

/-- segment_metadata.rs:143-151 `enum Encoding`. -/
inductive Encoding where
  | raw | bitPacked | deltaBinaryPacked | rleDictionary | snappy
  deriving DecidableEq, Repr

/-- segment_metadata.rs:152-159 `enum IndexType`. -/
inductive IndexType where
  | noIndex | fullText | brin | kdtree
  deriving DecidableEq, Repr

/-- segment_metadata.rs:131-142, `as i32`. -/
def ColumnType.toInt32 : ColumnType → Int32
  | .bool => 0 | .datetime => 1 | .decimal => 2 | .dynamic => 3 | .float64 => 4 | .guid => 5 | .int32 => 6
  | .int64 => 7 | .string => 8 | .timespan => 9

/-- segment_metadata.rs:145-151, `as i32`. -/
def Encoding.toInt32 : Encoding → Int32
  | .raw => 0 | .bitPacked => 1 | .deltaBinaryPacked => 2 | .rleDictionary => 3 | .snappy => 4

/-- segment_metadata.rs:154-159, `as i32`. -/
def IndexType.toInt32 : IndexType → Int32
  | .noIndex => 0 | .fullText => 1 | .brin => 2 | .kdtree => 3

/-- segment_metadata.rs:1-8 and 35-47 `enum Stats`; the four messages have no fields. -/
inductive Stats where
  | int32Stats | int64Stats | float64Stats | stringStats
  deriving DecidableEq, Repr

/-- segment_metadata.rs:9-33 `struct ColumnMeta`. -/
structure ColumnMeta where
  name : String := ""
  columnType : Int32 := 0
  nullable : Bool := false
  encoding : Int32 := 0
  cardinality : UInt32 := 0
  indexType : Int32 := 0
  numValues : UInt32 := 0
  numNulls : UInt32 := 0
  compressedSize : UInt64 := 0
  uncompressedSize : UInt64 := 0
  stats : Option Stats := none
  deriving DecidableEq

/-- A `HashMap<String, V>`. -/
abbrev StringMap (V : Type) := List (String × V)

/-- `HashMap::insert`: the new entry replaces one with the same key. -/
def StringMap.insert {V : Type} (m : StringMap V) (k : String) (v : V) : StringMap V :=
  m.filter (fun e => e.1 ≠ k) ++ [(k, v)]

/-- `HashMap::get`. -/
def StringMap.get {V : Type} (m : StringMap V) (k : String) : Option V :=
  (m.find? (fun e => e.1 = k)).map Prod.snd

/-- segment_metadata.rs:48-66 `struct SegmentMeta`. -/
structure SegmentMeta where
  segmentId : Bytes := []
  databaseName : String := ""
  tableName : String := ""
  shardId : UInt32 := 0
  compressedSize : UInt64 := 0
  uncompressedSize : UInt64 := 0
  numRows : UInt32 := 0
  columnsMeta : StringMap ColumnMeta := []
  deriving DecidableEq

/-- segment_metadata.rs:67-73 `struct Range`. -/
structure Range where
  start : UInt64 := 0
  «end» : UInt64 := 0
  deriving DecidableEq

/-- segment_metadata.rs:81-95: the structs `StringIndexV1`, `BlockIndexLayout` and `BinaryRleDict` have the
same single field. -/
structure RangeMessage where
  range : Option Range := none
  deriving DecidableEq

/-- segment_metadata.rs:111-117 `enum ColumnIndexLayout`. -/
inductive ColumnIndexLayout where
  | noIndex
  | stringIndexV1 (m : RangeMessage)
  deriving DecidableEq

/-- segment_metadata.rs:118-126 `enum EncoderLayout`. -/
inductive EncoderLayout where
  | plain
  | binaryDict (m : RangeMessage)
  | snappy
  deriving DecidableEq

/-- segment_metadata.rs:100-108 `struct ColumnLayout`. -/
structure ColumnLayout where
  blockIndexLayout : Option RangeMessage := none
  columnIndexLayout : Option ColumnIndexLayout := none
  encoderLayout : Option EncoderLayout := none
  deriving DecidableEq

/-- segment_metadata.rs:74-80 `struct Metadata`. -/
structure Metadata where
  segmentMeta : Option SegmentMeta := none
  columnsLayout : StringMap ColumnLayout := []
  deriving DecidableEq

namespace Prost

/-- `prost::encoding::encode_varint`. -/
def varint (n : Nat) : Bytes :=
  if n < 128 then [UInt8.ofNat n] else UInt8.ofNat (n % 128 + 128) :: varint (n / 128)
termination_by n
decreasing_by omega

/-- `prost::encoding::encode_key`; wire type 0 is a varint, 2 is length-delimited. -/
def key (tag wireType : Nat) : Bytes := varint (tag * 8 + wireType)

/-- A length-delimited field. -/
def lenField (tag : Nat) (payload : Bytes) : Bytes := key tag 2 ++ varint payload.length ++ payload

/-- A varint field, left out when 0. -/
def varintField (tag n : Nat) : Bytes := if n = 0 then [] else key tag 0 ++ varint n

/-- `int32` fields and enumerations: `value as u64`, which extends the sign. -/
def int32Field (tag : Nat) (x : Int32) : Bytes := varintField tag (x.toInt % 2 ^ 64).toNat

/-- `bool` fields. -/
def boolField (tag : Nat) (b : Bool) : Bytes := varintField tag b.toNat

/-- `bytes` fields, left out when empty. -/
def bytesField (tag : Nat) (b : Bytes) : Bytes := if b = [] then [] else lenField tag b

/-- The bytes of a string. -/
def utf8 (s : String) : Bytes := s.toUTF8.data.toList

/-- `string` fields, left out when empty. -/
def stringField (tag : Nat) (s : String) : Bytes := bytesField tag (utf8 s)

/-- Optional message fields. -/
def optField {M : Type} (tag : Nat) (enc : M → Bytes) (m : Option M) : Bytes :=
  match m with
  | none => []
  | some m => lenField tag (enc m)

/-- `prost::encoding::hash_map::encode` for maps from strings to messages. -/
def mapField {V : Type} [DecidableEq V] (tag : Nat) (dflt : V) (enc : V → Bytes) (m : StringMap V) : Bytes :=
  m.flatMap fun e =>
    lenField tag (stringField 1 e.1 ++ if e.2 = dflt then [] else lenField 2 (enc e.2))

/-- segment_metadata.rs:35-47. -/
def encodeStats : Stats → Bytes
  | .int32Stats => lenField 11 []
  | .int64Stats => lenField 12 []
  | .float64Stats => lenField 13 []
  | .stringStats => lenField 14 []

/-- segment_metadata.rs:9-33. -/
def encodeColumnMeta (m : ColumnMeta) : Bytes :=
  stringField 1 m.name ++ int32Field 2 m.columnType ++ boolField 3 m.nullable ++ int32Field 4 m.encoding ++
  int32Field 5 m.indexType ++ varintField 6 m.numValues.toNat ++ varintField 7 m.numNulls.toNat ++
  varintField 8 m.cardinality.toNat ++ varintField 9 m.compressedSize.toNat ++
  varintField 10 m.uncompressedSize.toNat ++ (match m.stats with | none => [] | some s => encodeStats s)

/-- segment_metadata.rs:48-66. -/
def encodeSegmentMeta (m : SegmentMeta) : Bytes :=
  bytesField 1 m.segmentId ++ stringField 2 m.databaseName ++ stringField 3 m.tableName ++
  varintField 4 m.shardId.toNat ++ varintField 5 m.compressedSize.toNat ++
  varintField 6 m.uncompressedSize.toNat ++ varintField 7 m.numRows.toNat ++
  mapField 8 {} encodeColumnMeta m.columnsMeta

/-- segment_metadata.rs:67-73. -/
def encodeRange (r : Range) : Bytes := varintField 1 r.start.toNat ++ varintField 2 r.end.toNat

/-- segment_metadata.rs:81-95. -/
def encodeRangeMessage (m : RangeMessage) : Bytes := optField 1 encodeRange m.range

/-- segment_metadata.rs:111-117. -/
def encodeColumnIndexLayout : ColumnIndexLayout → Bytes
  | .noIndex => lenField 1 []
  | .stringIndexV1 m => lenField 2 (encodeRangeMessage m)

/-- segment_metadata.rs:118-126. -/
def encodeEncoderLayout : EncoderLayout → Bytes
  | .plain => lenField 4 []
  | .binaryDict m => lenField 5 (encodeRangeMessage m)
  | .snappy => lenField 6 []

/-- segment_metadata.rs:100-108. -/
def encodeColumnLayout (m : ColumnLayout) : Bytes :=
  (match m.columnIndexLayout with | none => [] | some l => encodeColumnIndexLayout l) ++
  optField 3 encodeRangeMessage m.blockIndexLayout ++
  (match m.encoderLayout with | none => [] | some l => encodeEncoderLayout l)

/-- segment_metadata.rs:74-80: `encode_to_vec`, for the iteration order given by the lists. -/
def encodeMetadata (m : Metadata) : Bytes :=
  optField 1 encodeSegmentMeta m.segmentMeta ++ mapField 2 {} encodeColumnLayout m.columnsLayout

end Prost
end Meerkat
