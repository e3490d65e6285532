
def DT.primColumn (p : Profile) (nullable : Bool) (m : Nat) (bufs : List (Bool × List (Option Int32)))
    (flushes : Nat) : String := Id.run do
  let mut s := (PrimitiveEnc.Encoder.new (α := Int32) m nullable, ([] : List (Nat × Bytes)))
  let mut out := []
  for (bn, rows) in bufs do
    match (PrimitiveBuffer.new bn).pushAll rows with
    | .error e => out := ("push:" ++ DT.panic e) :: out
    | .ok b => (out, s) := DT.res s out (PrimitiveEnc.encode p recorder b)
  for _ in List.range flushes do
    (out, s) := DT.res s out (PrimitiveEnc.flush p recorder)
  return s!"{",".intercalate out.reverse} {s.1.numRows} {DT.prim s.1.remaining} {DT.blocks s.2}"

def DT.binColumn (p : Profile) (nullable : Bool) (m : Nat) (bufs : List (Bool × List (Option Bytes)))
    (flushes : Nat) : String := Id.run do
  let mut s := (BinaryEnc.Encoder.new m nullable, ([] : List (Nat × Bytes)))
  let mut out := []
  for (bn, rows) in bufs do
    match (BinaryBuffer.new bn).pushAll rows with
    | .error e => out := ("push:" ++ DT.panic e) :: out
    | .ok b => (out, s) := DT.res s out (BinaryEnc.encode p recorder b)
  for _ in List.range flushes do
    (out, s) := DT.res s out (BinaryEnc.flush p recorder)
  return s!"{",".intercalate out.reverse} {s.1.numRows} {DT.bin s.1.remaining} {DT.blocks s.2}"

def DT.rle (p : Profile) (calls : List (List Bool × Bool)) : String := Id.run do
  let mut e := Rle.Encoder.new
  let mut out := []
  for (bits, clear) in calls do
    match (do let e ← e.putAll p bits; e.flush p) with
    | .error x => out := DT.panic x :: out
    | .ok e' =>
      out := DT.bytes e'.encodedValues :: out
      e := if clear then e'.clear else e'
  return " ".intercalate out.reverse

def DT.decode (p : Profile) (enc : Bytes) (n : Nat) : String :=
  match (Rle.Decoder.new enc (List.replicate n 7)).decode p with
  | .error x => DT.panic x
  | .ok (d, n) => s!"{n} {DT.nats d.decodedData}"

def DT.varint (p : Profile) (buf : Bytes) : String :=
  match Varint.decodeVarint p buf with
  | .error x => DT.panic x
  | .ok none => "none"
  | .ok (some (v, n)) => s!"{v} {n}"

inductive DT.Op where
  | clear | bit (b : Bool) | copy (start n : Nat)

def DT.bits (cap : Option Nat) (ops : List DT.Op) : String := Id.run do
  let mut m := match cap with | none => Bitmap.new | some c => Bitmap.withCapacity c
  let mut out := []
  for op in ops do
    match op with
    | .clear => out := "c" :: out; m := m.clear
    | .bit b => (out, m) := DT.res m out (Bitmap.appendRun b)
    | .copy s n => (out, m) := DT.res m out (do let _ ← Bitmap.appendFromRun m s n; pure ())
  return s!"{",".intercalate out.reverse} {DT.bitmap m}"

def DT.order : HashOrder := ⟨id, id, fun _ => List.Perm.refl _, fun _ => List.Perm.refl _⟩

def DT.os (maxBuf : Nat) (failures : List (Nat × Nat)) (syncs : List Nat) : Os :=
  { writes := fun n => match failures.lookup n with | some k => .failed k | none => .done,
    syncs := fun n => !syncs.contains n, creates := true, maxBuf := maxBuf }

def DT.buf (nullable : Bool) (rows : List (Option Bytes)) : BinaryBuffer :=
  match (BinaryBuffer.new nullable).pushAll rows with
  | .ok b => b
  | .error _ => BinaryBuffer.new nullable

def DT.ex : Except Fault Unit → String
  | .ok _ => "ok" | .error e => DT.fault e

def DT.segResult : SegResult → String
  | .rejected _ => "rejected"
  | .column _ rs => "/".intercalate (rs.map fun x => DT.ex x.2)
  | .closed r => DT.ex r

def DT.writer (w : Writer) : String :=
  let f := w.file
  let i := match f.inflight with | none => "-" | some b => DT.bytes b
  s!"{w.pos} {DT.bytes f.content} {i} {f.lastErr.toNat} {DT.bytes f.synced}"

def DT.segment (p : Profile) (info : SegmentInfo) (ios dos : Os) (ops : List (SegOp ⊕ Unit)) : String := Id.run do
  let os : SegmentOs := { data := dos, index := ios }
  match SegmentWriter.new p os info with
  | .error e => return DT.fault e
  | .ok s0 =>
    let mut s := s0
    let mut out := []
    for op in ops do
      match op with
      | .inl o =>
        let (r, s') := o.run p os s
        out := DT.segResult r :: out
        s := s'
      | .inr _ => (out, s) := DT.res s out (SegmentWriter.sync os)
    let names := s!"{String.ofList (dataFileName info.segmentId)} {String.ofList (indexFileName info.segmentId)}"
    let ix := ";".intercalate ((s.blockIndex.blockOffset.zip s.blockIndex.blockRowId).map fun x => s!"{x.1}:{x.2}")
    return s!"{",".intercalate out.reverse} {names} {ix} {DT.writer s.dataWriter} {DT.writer s.indexWriter}"
