#!/usr/bin/env python3
"""Differential test of the Lean model (a test, not a proof).

An independent transcription of the Rust encoders to Python, written from the sources in /repo and
not from the model, is run on random scenarios; the Lean model is evaluated on the same ones with
`#eval`, and the two transcripts are compared line by line.

    difftest.py SEED COUNT        (needs the built model in ../lean)
"""
import os, random, subprocess, sys, tempfile

HERE = os.path.dirname(os.path.abspath(__file__))
LEAN = os.path.join(HERE, "..", "lean")


class Panic(Exception):
    pass


DEBUG = True


def sub(bits, a, b):
    if a < b:
        if DEBUG:
            raise Panic("overflow")
        return (a - b) % (1 << bits)
    return a - b


def add(bits, a, b):
    if a + b >= 1 << bits:
        if DEBUG:
            raise Panic("overflow")
        return (a + b) % (1 << bits)
    return a + b


def at(v, i):
    if i >= len(v):
        raise Panic("index")
    return v[i]


def rng(v, a, b):
    if a > b or b > len(v):
        raise Panic("index")
    return v[a:b]


# ---- indexing_buffer.rs


class Bitmap:
    def __init__(self, values=None):
        self.values = [0] * 1024 if values is None else values
        self.len = 0

    @staticmethod
    def with_capacity(cap):
        return Bitmap([0] * (cap >> 3))

    def append(self, bit):
        idx = self.len >> 3
        if idx == len(self.values):
            self.values += [0] * len(self.values)
        if bit:
            if idx >= len(self.values):
                raise Panic("index")
            self.values[idx] |= 1 << (self.len & 7)
        self.len += 1

    def is_set(self, idx):
        if not idx < self.len:
            raise Panic("assertion")
        return at(self.values, idx >> 3) >> (idx & 7) & 1 == 1

    def append_from(self, src, start, n):
        items, pos = 0, start
        while items < n:
            bit = src.is_set(pos)
            self.append(bit)
            items += bit
            pos += 1
        return pos

    def clear(self):
        self.len = 0
        self.values = (self.values + [0] * 1024)[:1024]

    def show(self):
        v = list(self.values)
        while v and v[-1] == 0:
            v.pop()
        return f"{self.len}/{len(self.values)}/{v}".replace(" ", "")


class Buffer:
    """What PrimitiveBuffer and BinaryBuffer share."""

    def __init__(self, nullable):
        self.validity = Bitmap() if nullable else None

    def append_null(self):
        if self.validity is None:
            raise Panic("expect")
        self.validity.append(False)

    def push(self, row):
        if row is None:
            self.append_null()
        else:
            self.append(row)

    def finish_append_from(self, buf, pos, n):
        if buf.validity is not None:
            if self.validity is None:
                raise Panic("expect")
            return self.validity.append_from(buf.validity, pos, n)
        if self.validity is not None:
            raise Panic("assertion")
        return n

    def show_validity(self):
        return "-" if self.validity is None else self.validity.show()


class PrimitiveBuffer(Buffer):
    def __init__(self, nullable):
        super().__init__(nullable)
        self.values = []

    def append(self, v):
        self.values.append(v)
        if self.validity is not None:
            self.validity.append(True)

    def append_from(self, buf, start, end, pos):
        self.values += rng(buf.values, start, end)
        if not (2**32 - 1 > len(self.values)):
            raise Panic("assertion")
        n = sub(64, end, start)
        return self.finish_append_from(buf, pos, n)

    def __len__(self):
        return len(self.values)

    def clear(self):
        self.values = []
        if self.validity is not None:
            self.validity.clear()

    def show(self):
        return f"{self.values}|{self.show_validity()}".replace(" ", "")


class BinaryBuffer(Buffer):
    def __init__(self, nullable):
        super().__init__(nullable)
        self.data = []
        self.offsets = [0]

    def append(self, v):
        self.data += v
        if len(self.data) >= 2**32:
            raise Panic("expect")
        self.offsets.append(len(self.data))
        if self.validity is not None:
            self.validity.append(True)

    def item_len(self, i):
        a = at(self.offsets, i + 1)
        return sub(32, a, at(self.offsets, i))

    def append_from(self, buf, start, end, pos):
        so = at(buf.offsets, start)
        eo = at(buf.offsets, end)
        n = sub(64, end, start)
        last = self.offsets[-1] if self.offsets else 0
        for i in range(start, end):
            last = add(32, last, buf.item_len(i))
            self.offsets.append(last)
        self.data += rng(buf.data, so, eo)
        if not (2**32 - 1 > len(self.data)):
            raise Panic("assertion")
        return self.finish_append_from(buf, pos, n)

    def __len__(self):
        return len(self.offsets) - 1

    def clear(self):
        self.data = []
        self.offsets = self.offsets[:1]
        if self.validity is not None:
            self.validity.clear()

    def show(self):
        return f"{self.data}|{self.offsets}|{self.show_validity()}".replace(" ", "")


# ---- varint.rs


def put_varint(v):
    out = []
    while v >= 0x80:
        out.append((v & 0x7F) | 0x80)
        v >>= 7
    out.append(v)
    return out


def decode_varint(buf):
    parts = [0, 0, 0]
    count = 0
    for part, n in ((0, 4), (1, 4), (2, 2)):
        acc = 0
        for j in range(n):
            b = at(buf, count)
            count += 1
            acc = add(32, acc, b << (7 * j)) if j else b
            parts[part] = acc
            if b < 0x80:
                # u64 arithmetic of the return expression
                v = parts[0]
                if part >= 1:
                    v = add(64, v, parts[1] << 28)
                if part >= 2:
                    v = add(64, v, (parts[2] << 56) % 2**64)
                return v, count
            # the tenth byte is not followed by a subtraction
            if not (part == 2 and j == 1):
                acc = sub(32, acc, 0x80 << (7 * j))
                parts[part] = acc
    return None


# ---- bitmap_rle.rs


class RleEncoder:
    def __init__(self):
        self.last = 0
        self.clear()

    def clear(self):
        self.state = "Init"
        self.buf = []
        self.out = []
        self.start = 0
        self.byte = 0
        self.rep = 0
        self.pos = 0

    def put(self, bit):
        if bit:
            if self.pos > 7:
                raise Panic("index")
            self.byte |= 1 << self.pos
        self.pos += 1
        if self.pos == 8:
            self.pos = 0
            self.append(self.byte)
            self.byte = 0

    def put_from(self, bm, start, n):
        items, pos = 0, start
        while items < n:
            bit = bm.is_set(pos)
            self.put(bit)
            items += bit
            pos += 1
        return pos

    def flush(self):
        if self.pos > 0:
            self.append(self.byte)
        if self.state in ("Literal", "StartOfRun"):
            self.literal(len(self.buf))
        elif self.state == "Run":
            self.run(self.rep, self.last)

    def literal(self, n):
        if not self.buf:
            return
        self.out += put_varint((n << 1) | 1) + rng(self.buf, 0, n)

    def run(self, n, v):
        self.out += put_varint(n << 1) + [v]

    def to_literal(self):
        self.rep = 0
        self.start = 0
        self.state = "Literal"

    def append(self, cur):
        if self.state == "Init":
            self.state = "Literal"
            self.buf.append(cur)
        elif self.state == "Literal":
            if self.last == cur:
                self.rep = 2
                self.start = sub(64, len(self.buf), 1)
                self.state = "StartOfRun"
            self.buf.append(cur)
        elif self.state == "StartOfRun":
            self.buf.append(cur)
            if self.last != cur:
                self.to_literal()
            else:
                self.rep += 1
                if self.rep == 3:
                    if self.start > 0:
                        self.literal(self.start)
                    self.buf = []
                    self.state = "Run"
        else:
            if self.last != cur:
                self.run(self.rep, self.last)
                self.buf.append(cur)
                self.to_literal()
            else:
                self.rep += 1
        self.last = cur


def rle_decode(enc, dec):
    """`Decoder::decode`: the number of values and the destination."""
    dec = list(dec)
    epos, dpos, bpos = 0, 0, 0

    def store():
        if dpos >= len(dec):
            raise Panic("index")
        dec[dpos] = bpos

    def one_byte(b):
        nonlocal dpos, bpos
        for j in range(8):
            if b >> j & 1:
                store()
                dpos += 1
            bpos = add(32, bpos, 1)

    while epos < len(enc):
        r = decode_varint(enc[epos:])
        if r is None:
            raise Panic("expect")
        header, n = r
        epos += n
        if header >> 1 >= 2**32:
            raise Panic("expect")
        ln = header >> 1
        if header & 1:
            a, epos = epos, epos + ln
            for b in rng(enc, a, epos):
                one_byte(b)
        else:
            v = at(enc, epos)
            epos += 1
            bits = (ln << 3) % 2**32
            if v == 0:
                bpos = add(32, bpos, bits)
            elif v == 0xFF:
                for _ in range(bits):
                    store()
                    bpos = add(32, bpos, 1)
                    dpos += 1
            else:
                for _ in range(ln):
                    one_byte(v)
    return dpos, dec


# ---- offsets.rs and the BitPacker4x of bitpacking 0.8


def bitpack(block, b):
    """Four lanes; lane l holds block[l], block[l+4], ... packed in 32-bit words from the low bits;
    the words of the four lanes are interleaved and stored little endian."""
    lanes = []
    for lane in range(4):
        acc = 0
        for j, v in enumerate(block[lane::4]):
            acc |= v << (b * j)
        lanes.append([(acc >> (32 * w)) & 0xFFFFFFFF for w in range(b)])
    out = []
    for w in range(b):
        for lane in range(4):
            out += list(lanes[lane][w].to_bytes(4, "little"))
    return out


def encode_offsets(src, dst):
    n = len(src)
    padded = add(64, n, 127) & ~127
    src += [0] * (padded - n)
    if len(src) != 128:
        raise Panic("assertion")
    b = max(v.bit_length() for v in src)
    dst.append(b)
    start = len(dst)
    at_ = start
    dst += [0] * -(-b * padded // 8)
    for c in range(0, len(src), 128):
        packed = bitpack(src[c : c + 128], b)
        if len(dst) - at_ < len(packed):
            raise Panic("assertion")
        dst[at_ : at_ + len(packed)] = packed
        at_ += len(packed)
    del dst[start + -(-b * n // 8) :]


# ---- raw/primitive_enc.rs and raw/binary_enc.rs


class Encoder:
    def __init__(self, rem, m):
        self.rem, self.m, self.rows = rem, m, 0
        self.rle = RleEncoder()
        self.blocks = []

    def validity(self, buf, pos, n):
        if buf.validity is None:
            return [], n, 0
        self.rle.clear()
        last = self.rle.put_from(buf.validity, pos, n)
        self.rle.flush()
        return self.rle.out[:], last, last

    def emit(self, rows, data):
        if rows >= 2**32 or self.rows + rows >= 2**32:
            raise Panic("expect")
        self.rows += rows
        self.blocks.append((sub(32, self.rows, 1), data))

    def flush(self):
        if len(self.rem) > 0:
            self.write_remaining()


class PrimitiveEncoder(Encoder):
    SIZE = 4

    def __init__(self, m, nullable):
        super().__init__(PrimitiveBuffer(nullable), m)

    def write(self, buf, start, end, pos):
        n = sub(64, end, start)
        data = put_varint(self.SIZE * n)
        for v in rng(buf.values, start, end):
            data += list(v.to_bytes(4, "little", signed=True))
        valid, rows, last = self.validity(buf, pos, n)
        self.emit(rows, data + valid)
        return last

    def write_remaining(self):
        self.write(self.rem, 0, len(self.rem), 0)

    def chunk(self, buf, start, size):
        n = size // self.SIZE + (size % self.SIZE != 0)
        return min(add(64, start, n), len(buf))

    def encode(self, buf):
        pos, vpos = 0, 0
        if len(self.rem) > 0:
            room = sub(64, self.m, len(self.rem) * self.SIZE)
            end = self.chunk(buf, 0, room)
            vpos = self.rem.append_from(buf, 0, end, 0)
            pos = end
            if len(self.rem) < self.m:
                return
            self.write_remaining()
            self.rem.clear()
        while pos < len(buf):
            end = self.chunk(buf, pos, self.m)
            n = sub(64, end, pos)
            if n * self.SIZE < self.m:
                self.rem.append_from(buf, pos, end, vpos)
                return
            vpos = self.write(buf, pos, end, vpos)
            pos = end


class BinaryEncoder(Encoder):
    def __init__(self, m, nullable):
        super().__init__(BinaryBuffer(nullable), m)

    def write(self, buf, c, pos):
        sp, ep, so, eo, size, n = c
        data = put_varint(size) + rng(buf.data, so, eo)
        deltas = [buf.item_len(i) for i in range(sp, ep)]
        encode_offsets(deltas, data)
        valid, rows, last = self.validity(buf, pos, n)
        self.emit(rows, data + valid)
        return last

    def write_remaining(self):
        last = self.rem.offsets[-1]
        self.write(self.rem, (0, len(self.rem.offsets) - 1, 0, last, last, len(self.rem)), 0)

    def chunk(self, buf, sp, size):
        so = at(buf.offsets, sp)
        found = None
        for i, o in enumerate(buf.offsets[sp:]):
            if sub(32, o, so) >= size:
                found = (i, o)
                break
        ep, eo = found if found else (len(buf.offsets) - 1, buf.offsets[-1])
        return sp, ep, so, eo, sub(32, eo, so), sub(64, ep, sp)

    def encode(self, buf):
        pos, vpos = 0, 0
        if len(self.rem) > 0:
            room = sub(64, self.m, len(self.rem.data))
            c = self.chunk(buf, 0, room)
            vpos = self.rem.append_from(buf, c[0], c[1], 0)
            pos = c[1]
            if len(self.rem.data) < self.m:
                return
            self.write_remaining()
            self.rem.clear()
        steps = 0
        while pos < len(buf.offsets):
            steps += 1
            if steps > len(buf.offsets) + 1:
                raise Panic("diverge")
            c = self.chunk(buf, pos, self.m)
            if c[4] < self.m:
                self.rem.append_from(buf, c[0], c[1], vpos)
                return
            vpos = self.write(buf, c, vpos)
            pos = c[1]


# ---- tokio::fs::File, default_block_writer.rs, segment_writer.rs, segment_metadata.rs


class IoError(Exception):
    pass


class Writer:
    """The block writer with its file; `writes[i]` is None or the number of bytes after which the i-th
    background write fails, `syncs[i]` says whether the i-th fsync works."""

    def __init__(self, maxbuf, writes, syncs):
        self.maxbuf, self.writes, self.syncs = maxbuf, writes, syncs
        self.content, self.synced, self.inflight = [], [], None
        self.kept = False
        self.nw = self.ns = 0
        self.pos = 0

    def wait(self):
        if self.inflight is None:
            return
        chunk, self.inflight = self.inflight, None
        fail = self.writes.get(self.nw)
        self.nw += 1
        if fail is None:
            self.content += chunk
        else:
            self.content += chunk[: min(fail, len(chunk) - 1)]
            raise IoError()

    def check_kept(self):
        if self.kept:
            self.kept = False
            raise IoError()

    def write_block(self, block):
        self.pos = add(64, self.pos, len(block))
        while block:
            self.check_kept()
            self.wait()
            self.inflight, block = block[: self.maxbuf], block[self.maxbuf :]

    def flush(self):
        self.check_kept()
        self.wait()

    def sync(self):
        try:
            self.flush()
        except IoError:
            self.kept = True
        ok = self.syncs.get(self.ns, True)
        self.ns += 1
        if not ok:
            raise IoError()
        self.synced = list(self.content)

    def show(self):
        f = "-" if self.inflight is None else str(self.inflight)
        return f"{self.pos} {self.content} {f} {int(self.kept)} {self.synced}".replace(", ", ",")


def pb(tag, wire):
    return put_varint(tag << 3 | wire)


def pb_len(tag, payload):
    return pb(tag, 2) + put_varint(len(payload)) + payload


def pb_num(tag, n):
    return pb(tag, 0) + put_varint(n) if n else []


def pb_str(tag, s):
    b = list(s.encode())
    return pb_len(tag, b) if b else []


TYPES = ["bool", "datetime", "decimal", "dynamic", "float64", "guid", "int32", "int64", "string", "timespan"]
ENCODINGS = ["raw", "bitPacked", "deltaBinaryPacked", "rleDictionary", "snappy"]
INDEXES = ["noIndex", "fullText", "brin", "kdtree"]


class Segment:
    def __init__(self, info, iw, dw):
        self.info, self.index, self.data = info, iw, dw
        self.block_index = []
        self.meta, self.layout = {}, {}

    def headers(self):
        self.index.write_block(list(b"MEERKAT_IDX1"))
        self.data.write_block(list(b"MEERKAT_DATA1"))

    def encoded(self):
        sid, db, table, shard, rows = self.info
        seg = (pb_len(1, sid) if sid else []) + pb_str(2, db) + pb_str(3, table) + pb_num(4, shard) + pb_num(7, rows)
        for k, (ty, nullable, enc, ix) in self.meta.items():
            m = pb_str(1, k) + pb_num(2, TYPES.index(ty)) + pb_num(3, int(nullable)) + pb_num(4, ENCODINGS.index(enc)) + pb_num(5, INDEXES.index(ix))
            seg += pb_len(8, pb_str(1, k) + (pb_len(2, m) if m else []))
        out = pb_len(1, seg)
        for k, enc in self.layout.items():
            l = pb_len(3, pb_len(1, [])) + pb_len({"raw": 4, "snappy": 6}[enc], [])
            out += pb_len(2, pb_str(1, k) + pb_len(2, l))
        return out

    def close(self):
        m, pos = self.encoded(), self.index.pos
        self.index.write_block(m)
        self.index.write_block(list(pos.to_bytes(8, "little")))
        self.index.flush()
        self.data.flush()

    def sync(self):
        self.index.sync()
        self.data.sync()

    def column(self, info, ops):
        self.block_index.clear()
        name, ty, enc, ix, nullable = info
        if enc not in ("raw", "snappy"):
            return "rejected"
        seg = self

        class Sinked(BinaryEncoder):
            def emit(self, rows, data):
                if rows >= 2**32 or self.rows + rows >= 2**32:
                    raise Panic("expect")
                self.rows += rows
                seg.sink(sub(32, self.rows, 1), data)

        e = Sinked(128, nullable) if enc == "raw" else None
        out = []
        for op in ops:
            def run():
                if op == "close":
                    if e is not None:
                        e.flush()
                    seg.meta.pop(name, None); seg.layout.pop(name, None)
                    seg.meta[name] = (ty, nullable, enc, ix)
                    seg.layout[name] = enc
                elif e is None:
                    seg.sink(43243, list(b"snappy"))
                else:
                    e.encode(op)
            out.append(attempt(run))
        return "/".join(out)

    def sink(self, row, data):
        self.data.write_block(data)
        self.block_index.append((self.data.pos, row))


def b64(bs):
    import base64
    return base64.urlsafe_b64encode(bytes(bs)).decode().rstrip("=")


def segment(debug, info, oss, ops):
    global DEBUG
    DEBUG = debug
    s = Segment(info, Writer(*oss[0]), Writer(*oss[1]))
    r = attempt(s.headers)
    if r != "ok":
        return r
    out = []
    for op in ops:
        if op == "close":
            out.append(attempt(s.close))
        elif op == "sync":
            out.append(attempt(s.sync))
        else:
            bufs = []
            for o in op[1]:
                if o == "close":
                    bufs.append(o)
                else:
                    b = BinaryBuffer(o[0])
                    for row in o[1]:
                        b.push(row)
                    bufs.append(b)
            out.append(s.column(op[0], bufs))
    ix = ";".join(f"{a}:{b}" for a, b in s.block_index)
    return f"{','.join(out)} {b64(info[0])}.dat {b64(info[0])}.idx {ix} {s.data.show()} {s.index.show()}"


# ---- scenarios


def attempt(f):
    try:
        f()
        return "ok"
    except Panic as p:
        return str(p)
    except IoError:
        return "io"


def column(kind, debug, nullable, m, bufs, flushes):
    global DEBUG
    DEBUG = debug
    E, B = (PrimitiveEncoder, PrimitiveBuffer) if kind == "prim" else (BinaryEncoder, BinaryBuffer)
    e = E(m, nullable)
    out = []
    for bn, rows in bufs:
        b = B(bn)
        r = "ok"
        for row in rows:
            r = attempt(lambda: b.push(row))
            if r != "ok":
                break
        if r != "ok":
            out.append("push:" + r)
            continue
        out.append(attempt(lambda: e.encode(b)))
    for _ in range(flushes):
        out.append(attempt(e.flush))
    blocks = ";".join(f"{i}:{d}" for i, d in e.blocks)
    return f"{','.join(out)} {e.rows} {e.rem.show()} {blocks}".replace(", ", ",")


def rle(debug, calls):
    """Each call is a list of bits; between calls `flush`, and `clear` if the flag says so."""
    global DEBUG
    DEBUG = debug
    e = RleEncoder()
    out = []
    for bits, clear in calls:
        for b in bits:
            e.put(b)
        e.flush()
        out.append(str(e.out).replace(" ", ""))
        if clear:
            e.clear()
    return " ".join(out)


def decode(debug, enc, dst):
    global DEBUG
    DEBUG = debug
    try:
        n, d = rle_decode(enc, [7] * dst)
        return f"{n} {d}".replace(", ", ",")
    except Panic as p:
        return str(p)


def varint(debug, buf):
    global DEBUG
    DEBUG = debug
    try:
        r = decode_varint(buf)
        return "none" if r is None else f"{r[0]} {r[1]}"
    except Panic as p:
        return str(p)


def bitmap(cap, ops):
    """`None` clears, a bit appends, (start, n) appends from the bitmap itself as it was."""
    m = Bitmap() if cap is None else Bitmap.with_capacity(cap)
    out = []
    for op in ops:
        if op is None:
            m.clear()
            out.append("c")
        elif isinstance(op, tuple):
            src = Bitmap(list(m.values))
            src.len = m.len
            out.append(attempt(lambda: m.append_from(src, *op)))
        else:
            out.append(attempt(lambda: m.append(op)))
    return ",".join(out) + " " + m.show()


LEAN_HEAD = """import Verif
open Meerkat
set_option autoImplicit false
set_option maxRecDepth 100000

def DT.panic : Panic → String
  | .overflow => "overflow" | .index => "index" | .assertion => "assertion" | .expect => "expect"
  | .diverge => "diverge"
def DT.fault : Fault → String
  | .panic p => DT.panic p | .io => "io"
def DT.nats (l : List Nat) : String := "[" ++ ",".intercalate (l.map toString) ++ "]"
def DT.bytes (l : Bytes) : String := DT.nats (l.map UInt8.toNat)
def DT.ints (l : List Int32) : String := "[" ++ ",".intercalate (l.map toString) ++ "]"
def DT.bitmap (m : Bitmap) : String :=
  s!"{m.len}/{m.values.length}/{DT.bytes (m.values.reverse.dropWhile (· == 0)).reverse}"
def DT.validity : Option Bitmap → String
  | none => "-" | some m => DT.bitmap m
def DT.prim (b : PrimitiveBuffer Int32) : String := DT.ints b.values ++ "|" ++ DT.validity b.validity
def DT.bin (b : BinaryBuffer) : String := DT.bytes b.data ++ "|" ++ DT.nats b.offsets ++ "|" ++ DT.validity b.validity
def DT.blocks (l : List (Nat × Bytes)) : String := ";".intercalate (l.map fun x => s!"{x.1}:{DT.bytes x.2}")
def DT.res {σ : Type} (s : σ) (out : List String) (r : Run σ Unit) : List String × σ :=
  match r s with
  | (.ok _, s) => ("ok" :: out, s)
  | (.error e, s) => (DT.fault e :: out, s)
"""


def lean_rows(kind, rows):
    def one(r):
        if r is None:
            return "none"
        return f"some ({r})" if kind == "prim" else f"some {r}"

    return "[" + ", ".join(map(one, rows)) + "]"


def lean_bool(b):
    return "true" if b else "false"


def lean_prof(d):
    return ".debug" if d else ".release"


def main():
    seed, count = int(sys.argv[1]), int(sys.argv[2])
    r = random.Random(seed)
    lines, expected = [LEAN_HEAD + open(os.path.join(HERE, "difftest_head.txt")).read()], []

    def case(lean, py):
        lines.append(f"#eval IO.println ({lean})")
        expected.append(py)

    for i in range(count):
        d = r.random() < 0.5
        kind = r.choice(["prim", "bin"])
        nullable = r.random() < 0.6
        m = r.choice([0, 1, 3, 4, 5, 8, 13, 16, 32, 64, 100, 200, 600]) if kind == "bin" else r.choice(
            [1, 2, 3, 4, 5, 7, 8, 9, 12, 16, 20, 33, 64, 100])
        bufs = []
        for _ in range(r.randrange(0, 5)):
            bn = nullable if r.random() < 0.93 else not nullable
            nullp = r.choice([0, 0.1, 0.5, 0.9]) if bn or r.random() < 0.05 else 0
            rows = []
            size = r.choice([0, 1, 2, 5, 20, 40, 150])
            item = r.choice([0, 1, 3, 10, 40])
            for _ in range(r.randrange(0, size + 1)):
                if r.random() < nullp:
                    rows.append(None)
                elif kind == "prim":
                    rows.append(r.randrange(-(2**31), 2**31) if r.random() < 0.5 else r.randrange(-3, 4))
                else:
                    rows.append([r.randrange(256) for _ in range(r.randrange(0, item + 1))])
            bufs.append((bn, rows))
        fl = r.choice([0, 1, 1, 1, 2])
        lb = "[" + ", ".join(f"({lean_bool(b)}, {lean_rows(kind, rows)})" for b, rows in bufs) + "]"
        case(f"DT.{kind}Column {lean_prof(d)} {lean_bool(nullable)} {m} {lb} {fl}",
             column(kind, d, nullable, m, bufs, fl))

        # run-length encoding: bits in byte-sized patterns so that runs occur
        calls = []
        for _ in range(r.randrange(1, 4)):
            bits = []
            for _ in range(r.randrange(0, 8)):
                pat = r.choice([0, 255, 255, r.randrange(256)])
                bits += [bool(pat >> j & 1) for j in range(8)] * r.choice([1, 1, 2, 3, 4, 9])
            bits += [r.random() < 0.5 for _ in range(r.randrange(0, 8))]
            calls.append((bits, r.random() < 0.8))
        # without `clear` the bit position is left as it is; the same in the model
        lc = "[" + ", ".join("([" + ", ".join(map(lean_bool, b)) + "], " + lean_bool(c) + ")" for b, c in calls) + "]"
        case(f"DT.rle {lean_prof(d)} {lc}", rle(d, calls))

        # decoding: what an encoder wrote, cut, changed, or random bytes
        e = RleEncoder()
        for b in calls[0][0]:
            e.put(b)
        e.flush()
        enc = list(e.out)
        how = r.randrange(4)
        if how == 1 and enc:
            enc = enc[: r.randrange(len(enc))]
        elif how == 2 and enc:
            enc[r.randrange(len(enc))] = r.randrange(256)
        elif how == 3:
            enc = [r.choice([0, 1, 2, 3, 4, 5, 255, r.randrange(128)]) for _ in range(r.randrange(0, 8))]
            if r.random() < 0.3:
                enc = [x | 128 if r.random() < 0.8 else x for x in [r.randrange(128) for _ in range(r.randrange(1, 12))]] + enc
        ones = sum(calls[0][0]) + r.choice([0, 0, 0, -1, 5, 40])
        # runs of billions of ones only stop at the end of the destination: fine; of bytes: not
        big = False
        p = 0
        try:
            DEBUG_ = d
            rr = decode_varint(enc) if enc else None
            big = rr is not None and rr[0] >> 1 > 100000
        except Panic:
            pass
        if not big:
            case(f"DT.decode {lean_prof(d)} {enc} {max(ones, 0)}", decode(d, enc, max(ones, 0)))

        buf = [r.randrange(128, 256) if r.random() < 0.85 else r.randrange(128) for _ in range(r.randrange(0, 12))]
        case(f"DT.varint {lean_prof(d)} {buf}", varint(d, buf))

        cap = r.choice([None, 0, 7, 8, 16, 40])
        ops, lops = [], []
        for _ in range(r.randrange(0, 40)):
            x = r.random()
            if x < 0.04:
                ops.append(None); lops.append(".clear")
            elif x < 0.2:
                t = (r.randrange(0, 10), r.randrange(0, 6)); ops.append(t); lops.append(f".copy {t[0]} {t[1]}")
            else:
                b = r.random() < 0.6; ops.append(b); lops.append(f".bit {lean_bool(b)}")
        lcap = "none" if cap is None else f"(some {cap})"
        case(f"DT.bits {lcap} [{', '.join(lops)}]", bitmap(cap, ops))

        # segments, on files whose writes and fsyncs may fail
        def some_os():
            if r.random() < 0.5:
                return r.choice([1, 7, 64, 2**21]), {}, {}
            return (r.choice([1, 7, 64, 2**21]), {r.randrange(12): r.randrange(9) for _ in range(r.randrange(3))},
                    {r.randrange(3): False for _ in range(r.randrange(2))})

        info = ([r.randrange(256) for _ in range(16)], r.choice(["", "db", "données"]), r.choice(["", "t", "表"]),
                r.choice([0, 1, 127, 128, 300, 2**32 - 1]), r.choice([0, 5, 100000]))
        oss = some_os(), some_os()
        ops, lops = [], []
        for _ in range(r.randrange(0, 5)):
            x = r.random()
            if x < 0.25:
                ops.append("close"); lops.append(".inl (.close DT.order)")
            elif x < 0.4:
                ops.append("sync"); lops.append(".inr ()")
            else:
                ci = (r.choice(["", "a", "b", "ñ"]), r.choice(TYPES), r.choice(["raw", "raw", "raw", "snappy", "snappy"] + ENCODINGS),
                      r.choice(INDEXES), r.random() < 0.5)
                cops, lcops = [], []
                for _ in range(r.randrange(0, 4)):
                    if r.random() < 0.4:
                        cops.append("close"); lcops.append(".close")
                    else:
                        rows = [None if ci[4] and r.random() < 0.3 else [r.randrange(256) for _ in range(r.randrange(12))]
                                for _ in range(r.choice([0, 2, 9, 30]))]
                        cops.append((ci[4], rows))
                        lcops.append(f".write (DT.buf {lean_bool(ci[4])} {lean_rows('bin', rows)})")
                ops.append((ci, cops))
                lops.append(f'.inl (.column ⟨"{ci[0]}", .{ci[1]}, .{ci[2]}, .{ci[3]}, {lean_bool(ci[4])}⟩ [{", ".join(lcops)}])')
        los = " ".join(f"(DT.os {o[0]} {list(o[1].items())} {list(o[2])})" for o in oss)
        case(f'DT.segment {lean_prof(d)} ⟨{info[0]}, "{info[1]}", "{info[2]}", {info[3]}, {info[4]}⟩ {los} [{", ".join(lops)}]',
             segment(d, info, oss, ops))

    with tempfile.TemporaryDirectory() as t:
        f = os.path.join(t, "T.lean")
        open(f, "w").write("\n".join(lines) + "\n")
        out = subprocess.run(["lake", "env", "lean", "-M", "6000", f], cwd=LEAN, capture_output=True, text=True)
    got = out.stdout.split("\n")[:-1]
    bad = 0
    for i, (l, e) in enumerate(zip(lines[1:], expected)):
        g = got[i] if i < len(got) else "<missing>"
        if g != e:
            bad += 1
            if bad <= 3:
                print("DIFFERENT", l[:1500], "\n  rust ", e[:1500], "\n  model", g[:1500])
    faults = sum(any(w in e.split(" ")[0] for w in ("overflow", "index", "assertion", "expect", "diverge")) for e in expected)
    print(f"{len(expected)} cases, {faults} with a panic, {bad} different" + (out.stderr[:300]))
    return bad != 0 or len(got) != len(expected)


if __name__ == "__main__":
    sys.exit(main())
