#!/usr/bin/env python3
"""Writes /verif/properties.jsonl. Kept as a script only so the text is easy to edit."""
import json, os
P = []
def p(title, statement, quantifier, why, anchors):
    P.append(dict(id="C%02d" % (len(P)+1), title=title, statement=statement,
                  quantifier=quantifier, why_tests_cant=why, anchors=anchors))
IB="src/store/indexing_buffer.rs"; RLE="src/store/encoding/bitmap_rle.rs"; VI="src/store/encoding/varint.rs"
OFF="src/store/encoding/offsets.rs"; UT="src/store/encoding/util.rs"; PE="src/store/encoding/raw/primitive_enc.rs"
BE="src/store/encoding/raw/binary_enc.rs"; EM="src/store/encoding/mod.rs"; BS="src/store/block_sink.rs"
BI="src/store/block_index.rs"; SW="src/store/segment_writer.rs"; IO="src/store/io/mod.rs"
BW="src/store/io/default_block_writer.rs"; BR="src/store/io/unix_disk_block_reader.rs"; SM="src/store/segment_metadata.rs"
SN="src/store/encoding/snappy/snappy_enc.rs"; MA="src/main.rs"

p("Bitmap stores exactly the appended bits",
  "After appending any sequence of booleans to a new Bitmap, no append panics, len() is the number of appends, is_set(i) returns the i-th appended boolean for every i below len(), and is_set(i) panics for every i at or above len(). Growth of the backing store never changes a bit.",
  "every finite sequence of booleans, every index",
  "Tests use one random sequence of at most 2047 bits, which never reaches the 8192-bit boundary where the backing store is doubled.",
  [IB+": Bitmap::new, append, is_set, len"])
p("A cleared Bitmap behaves like a new one",
  "After clear(), any sequence of appends to a Bitmap is read back exactly as it would be from a new Bitmap, whatever the bitmap held before.",
  "every sequence of bits before clear(), every sequence after",
  "Existing tests clear a buffer but never read a null back afterwards; the failing histories depend on overlap of old set bits with new unset bits.",
  [IB+": Bitmap::clear, append, is_set"])
p("Bitmap::append_from copies a bit range ending at the n-th set bit",
  "append_from(src, start, n) appends to the destination exactly the source bits from start up to and including the n-th set bit at or after start (none if n is 0), returns the position just after it, leaves earlier destination bits unchanged, and panics exactly when the source has fewer than n set bits from start on.",
  "every destination and source, whatever was done with them before (set bits left behind by clear() are those of C02), every start position and count",
  "One test copies two set bits out of five.",
  [IB+": Bitmap::append_from"])
p("Any capacity hint gives a usable Bitmap",
  "A Bitmap made by with_capacity(cap) accepts and returns any sequence of booleans, for every cap.",
  "every capacity, every sequence of booleans",
  "with_capacity has no test; the failing capacities are below 8.",
  [IB+": Bitmap::with_capacity, append"])
p("PrimitiveBuffer is a faithful sparse column",
  "After any sequence of append(v)/append_null() calls on a new buffer that accepts them, values() is the list of non-null values in order, len() their number, num_values() the number of calls, is_nullable() the flag it was created with, has_nulls() says whether any call was append_null, and the validity bitmap marks exactly the non-null rows, so the whole column can be reconstructed.",
  "every element type, every call sequence, both nullability settings",
  "Tests use a five-row column.",
  [IB+": PrimitiveBuffer::{new,append,append_null,values,len,num_values,is_nullable,has_nulls,validity}"])
p("BinaryBuffer is a faithful sparse column of byte strings",
  "After any sequence of append(bytes)/append_null() calls that does not panic, offsets() starts at 0, is non-decreasing and has len()+1 entries, the bytes of data() between consecutive offsets are exactly the appended strings in order, item_len(i) is the length of the i-th, and num_values, has_nulls and validity are as for primitives.",
  "every sequence of byte strings and nulls, both nullability settings",
  "Tests use three short names.",
  [IB+": BinaryBuffer::{new,append,append_null,item_len,data,offsets,len,num_values,has_nulls}"])
p("BoolBuffer is a faithful sparse column of booleans",
  "After any sequence of append(b)/append_null() calls, len() counts all rows, values() holds exactly the non-null booleans in order, the validity bitmap marks the non-null rows, and has_nulls() says whether any row is null.",
  "every sequence of booleans and nulls, both nullability settings",
  "Tests use seven rows.",
  [IB+": BoolBuffer::{new,append,append_null,values,validity,len,has_nulls}"])
p("A non-nullable buffer never holds a null",
  "On a buffer created non-nullable, append_null() always panics, and whatever calls succeed has_nulls() is false, there is no validity bitmap and the number of rows is the number of values; on a nullable buffer append_null() never panics.",
  "all three buffer kinds, every call history",
  "Tests never call append_null on a non-nullable buffer.",
  [IB+": PrimitiveBuffer::append_null, BinaryBuffer::append_null, BoolBuffer::append_null"])
p("A cleared buffer behaves like a new buffer",
  "After clear(), a buffer holds no rows and any later sequence of appends produces the same column, as read through its API, as the same sequence on a new buffer.",
  "all three buffer kinds, every history before and after clear",
  "Tests append only non-null values after clear.",
  [IB+": PrimitiveBuffer::clear, BinaryBuffer::clear, BoolBuffer::clear"])
p("PrimitiveBuffer::append_from concatenates columns",
  "Appending values [start,end) of one buffer to another with matching nullability adds exactly those values, and for nullable buffers exactly the rows from the given row position up to the last copied value; the returned position is where the next copy must start, so successive calls that cover the source copy all rows up to the last non-null one, in order. The call returns exactly when the range lies inside the source, the result has fewer than 2^32 - 1 values, both buffers are nullable or neither is, and a nullable source has enough values from the given row on; otherwise it panics.",
  "every pair of buffers, every split of the source into ranges",
  "append_from on primitives has no direct test.",
  [IB+": PrimitiveBuffer::append_from"])
p("BinaryBuffer::append_from concatenates columns",
  "Appending items [start,end) of one BinaryBuffer to another adds exactly those byte strings (offsets are rebased), and the validity rows as for primitives. The call returns under the same conditions, with the limit of 2^32 - 1 on the bytes of the result.",
  "every pair of buffers, every range that is not inverted (see C85 for those)",
  "One test copies a single item.",
  [IB+": BinaryBuffer::append_from, item_len"])
p("BinaryBuffer never records a wrapped offset",
  "However much data is appended or copied in, a call that would make the total data exceed what a 32-bit offset can hold panics; any call that returns leaves exact offsets. No offset is ever silently truncated, in checked and unchecked builds.",
  "every append/append_from history, both build profiles",
  "Needs more than 4 GiB of data to exercise.",
  [IB+": BinaryBuffer::append (try_into expect), append_from (assert)"])
p("Varint round trip inside any stream",
  "Decoding the bytes produced for any 64-bit value, followed by arbitrary other bytes, returns that value and the number of bytes the encoder reported.",
  "every u64, every suffix",
  "Tests check 20 boundary values with no suffix.",
  [VI+": encode_varint, decode_varint, Encoder::put_varint"])
p("Varint length is predicted exactly and fits the scratch buffer",
  "encoded_len_varint(v) equals the number of bytes encode_varint writes, which is the number of 7-bit groups of v (at least one), never more than MAX_VARINT_LEN = 10; so encoding into a 10-byte scratch buffer never panics, and put_varint appends exactly those bytes and keeps what was there.",
  "every u64",
  "2^64 values; the closed formula with leading_zeros is checked on boundaries only.",
  [VI+": encoded_len_varint, encode_varint, MAX_VARINT_LEN"])
p("Varint decoding of arbitrary bytes is well defined",
  "On any byte slice decode_varint either returns the little-endian base-128 value (modulo 2^64) of the bytes up to the first byte below 0x80 and its length (at most 10), or returns an error exactly when the first ten bytes all have the top bit set, or panics exactly when the slice ends before a terminator. No intermediate addition, subtraction or shift overflows.",
  "every byte slice, both build profiles",
  "Input space is unbounded; tests decode only canonical encodings.",
  [VI+": decode_varint"])
p("Varint encodings are canonical and minimal",
  "Different values have different encodings, no encoding is a proper prefix of another, and no shorter byte string decodes to the same value.",
  "every pair of u64 values, every byte string",
  "A statement about all pairs of values and all byte strings.",
  [VI+": encode_varint, decode_varint"])
p("Bitmap RLE round trip",
  "For any sequence of bits shorter than 2^32 - 7, put()-ing them in order, flush()ing and decoding encoded_values() into a slice with room for them yields exactly the positions of the set bits in increasing order, leaves the rest of the slice untouched, and reports their number, without panicking in either build profile.",
  "every bit sequence, every output slice that is large enough, both build profiles",
  "Four fixed patterns are tested; the encoder's four-state machine and frame headers have unboundedly many paths.",
  [RLE+": Encoder::{put,flush,encoded_values,append,emit_run,emit_bitmap_literal}, Decoder::{decode,read_frame,decode_run,decode_byte}, decode"])
p("Bitmap RLE decoding of arbitrary input is safe",
  "On any byte string and any output slice, decoding terminates, either panicking or returning a count no larger than the slice; positions written are strictly increasing in a build with overflow checks, and entries past the returned count are untouched.",
  "every byte string, every output slice",
  "Corrupt inputs are not tested at all.",
  [RLE+": decode, Decoder::read_frame, decode_run, decode_bitmap"])
p("Bitmap RLE never expands a bitmap by more than 1/64 plus one byte",
  "The encoding of n bitmap bytes takes at most n + n/64 + 1 bytes (0 for an empty bitmap), and a bitmap of n >= 3 equal bytes takes exactly one byte plus the varint of 2n.",
  "every bit sequence",
  "A bound over all inputs.",
  [RLE+": Encoder::append, emit_run, emit_bitmap_literal, MIN_RUN_LEN"])
p("A cleared RLE encoder is as good as new",
  "Whatever an Encoder encoded before (flushed or not), after clear() it produces for any bit sequence exactly the bytes a new Encoder produces.",
  "every earlier history, every later bit sequence",
  "The encoder is reused for every block; clear() leaves one field stale, and no test reuses an encoder.",
  [RLE+": Encoder::clear"])
p("put_from encodes exactly the requested rows",
  "put_from(bitmap, start, n) has the same effect as put() on each bit from start up to and including the n-th set bit, returns the position just after it, and panics exactly when there are fewer than n set bits.",
  "every encoder state, bitmap, start and count",
  "put_from is only tested through encoders on bitmaps without nulls.",
  [RLE+": Encoder::put_from"])
p("Alignment helpers return the least upper multiple",
  "ceil8(n) is the least number of bytes holding n bits; round_upto_power_of_2(n, f) is the least multiple of f that is at least n, for every power of two f with no 64-bit overflow.",
  "every usize value and every power of two",
  "No tests; the second is a bit trick over 64-bit words.",
  [UT+": ceil8, round_upto_power_of_2"])
p("Encoded item lengths can be recovered",
  "From the bytes OffsetEncoder::encode appends for a list of item lengths, and the number of items, the list of lengths can be recovered: two different lists of the same size never encode to the same bytes.",
  "every list of u32 lengths",
  "No tests decode offsets; the failing lists depend on the interleaved layout of the bit packer and the trim at the end.",
  [OFF+": OffsetEncoder::encode (trim at lines 59-62)"])
p("Offset encoding accepts any number of items",
  "OffsetEncoder::encode returns normally for every list of lengths, whatever its size, and leaves the bytes already in the destination unchanged.",
  "every list length including 0 and more than 128",
  "Tests encode at most three items.",
  [OFF+": OffsetEncoder::encode, num_bits call at line 42"])
p("A primitive block is self-contained",
  "From the bytes of one block written for a primitive column and the column's nullability, a reader recovers exactly the values of the block and, for nullable columns, exactly which rows (up to the last non-null one) are null.",
  "every element type, every value list, every validity pattern of fewer than 2^32 - 7 rows",
  "Tests count blocks and never decode one.",
  [PE+": encode_primitive_buffer, to_byte_slice"])
p("Primitive column: every value is written once, in order",
  "For any sequence of encode() calls followed by flush(), the values in the blocks given to the sink, concatenated, are the concatenation of the values of all the buffers.",
  "every sequence of buffers, every block size, every element type",
  "Tests make a single encode() call.",
  [PE+": Encoder::encode, flush, write_block, write_remaining, chunk"])
p("Primitive column: nulls keep their rows",
  "For any sequence of encode() calls followed by flush(), the rows described by the written blocks, concatenated, are exactly the rows of the buffers, including nulls anywhere.",
  "every sequence of nullable buffers",
  "Tests never encode a null.",
  [PE+": Encoder::encode, encode_primitive_buffer, "+RLE+": put_from"])
p("Primitive column: row ids tell which rows a block holds",
  "The row id passed to the sink with each block is the zero-based index, in the column, of the last row stored in that block.",
  "every sequence of blocks, nullable or not",
  "The test sink records row ids but no test looks at them.",
  [PE+": write_block, write_remaining, add_rows, EncodeResult"])
p("Primitive column: block sizes",
  "Every block written by encode() holds at least the configured block size of value bytes and less than one element more; flush() writes at most one smaller block; values held back between calls never exceed one block.",
  "every block size, every buffer sequence",
  "One configuration is tested.",
  [PE+": chunk, encode"])
p("Primitive column: encode never panics on a well-formed buffer",
  "For any block size and any buffers with the column's nullability, encode() and flush() return normally as long as the column has fewer than 2^32 rows.",
  "every block size, every buffer sequence, both build profiles",
  "The failing states need several encode() calls with particular leftovers.",
  [PE+": encode line 117 (min_block_size - remaining_size), write_block line 74"])
p("A binary block can be decoded",
  "From the bytes of one block written for a binary column, its row count and the column's nullability, a reader recovers exactly the byte strings and null rows of the block.",
  "every list of byte strings and nulls",
  "Tests count blocks and never decode one.",
  [BE+": encode_binary_buffer", OFF+": OffsetEncoder::encode"])
p("Binary column: every value is written once, in order",
  "For any sequence of encode() calls followed by flush(), the byte strings described by the blocks given to the sink are, in order, exactly the byte strings of all buffers.",
  "every sequence of buffers, every block size",
  "Tests write at most one full block per buffer.",
  [BE+": chunk (relative position used as absolute), encode, flush"])
p("Binary column: encode completes on any buffer",
  "For any positive block size and any well-formed buffers with the column's nullability, encode() and flush() return normally.",
  "every buffer sequence, both build profiles",
  "The failing buffers need two full blocks in one buffer or more than 128 items in a block.",
  [BE+": chunk, write_block", OFF+": OffsetEncoder::encode"])
p("Binary column: row ids tell which rows a block holds",
  "The row id passed to the sink with each block is the zero-based index of the last row stored in it.",
  "every sequence of blocks, nullable or not",
  "No test looks at row ids.",
  [BE+": write_block, write_remaining, EncodeResult"])
p("Binary column: nulls keep their rows",
  "For any sequence of encode() calls followed by flush(), the validity data of the blocks, concatenated, describes exactly the rows of the buffers.",
  "every sequence of nullable buffers",
  "Tests never encode a null; the failure needs a reuse of the leftover buffer.",
  [BE+": encode line 144 (remaining.clear)", IB+": Bitmap::clear"])
p("Binary column: leftovers stay below a block",
  "Between calls the encoder holds back strictly less than one block of data bytes, so the size computation at the start of encode() never underflows; blocks written by encode() from the leftovers hold at least the block size.",
  "every block size above 0, every buffer sequence",
  "An invariant over all histories.",
  [BE+": encode lines 128-145"])
p("Flushing writes pending data exactly once",
  "flush() on an encoder with nothing held back writes no block; flush() after flush() writes nothing more.",
  "both encoders, every history",
  "Tests flush once.",
  [PE+": flush", BE+": flush"])
p("A sink error stops the encoder and is reported",
  "If the sink fails on some block, encode() or flush() returns the error, no further block is offered to the sink in that call, and the blocks offered so far are exactly the first blocks of the error-free run.",
  "both encoders, every failure point",
  "Tests use a sink that never fails.",
  [PE+": write_block ?", BE+": write_block ?", SW+": ColumnWriter::write"])
p("Row counting never wraps",
  "When the number of rows of a column would pass 2^32 - 1 the encoder panics before the block is offered to the sink; the row id given to the sink is never the result of a wrapped addition.",
  "every history, both build profiles",
  "Needs 2^32 rows.",
  [PE+": add_rows", BE+": add_rows"])
p("The block writer's position is the file length",
  "After any sequence of successful write_block calls, the file holds the concatenation of the blocks in order and pos() is its length; each block occupies the range between pos() before and pos() after its write.",
  "every sequence of blocks",
  "Tests use one random sequence.",
  [BW+": Writer::{new,write_block,pos}"])
p("A failed block write cannot go unnoticed",
  "Under any schedule of delayed background write errors, if every write_block and the final flush return success then the file holds every block; if some background write fails, some later write_block or flush reports an error.",
  "every fault schedule",
  "Tests never inject I/O errors.",
  [BW+": Writer::write_block, flush"])
p("The block index brackets every block",
  "After any sequence of blocks written through the block sink, the i-th index entry holds the row id given with block i and the file position just after it, so block i is exactly the bytes between entry i-1 (or the column start) and entry i.",
  "every sequence of blocks, every starting position",
  "The index is never read back by a test.",
  [BS+": BlockSinkImpl::write_block", BI+": index_block, clear"])
p("read_block returns exactly the requested bytes or an error",
  "read_block(start,end) returns the bytes [start,end) of the file when start <= end and either start = end or end is within the file; in every other case it returns an error; it never panics and never returns fewer or different bytes.",
  "every file, every range including reversed and out-of-file ones, both build profiles",
  "Tests read only valid ranges.",
  [BR+": Reader::read_block", IO+": asyncify"])
p("read_blocks yields results in request order under every schedule",
  "Whatever the order in which background reads complete, the stream yields exactly one result per requested op, in the order of the ops, each carrying its own op_info and the result read_block gives for its range; a failed op does not affect the others; at most two reads are pending at any time.",
  "every list of ops, every completion schedule",
  "Tests see one schedule of the runtime.",
  [BR+": Reader::read_blocks, BLOCK_BUFFER_SIZE", IO+": BlockReader"])
p("Write then read round trip",
  "Blocks written with the block writer and read back with read_blocks using their recorded positions come back byte for byte, in order, with the caller's op_info.",
  "every sequence of blocks, every schedule",
  "One random sequence is tested.",
  [IO+": tests::io_roundtrip", BW, BR])
p("Segment files are well framed",
  "Whatever columns are written, after close() the data file starts with MEERKAT_DATA1, the index file starts with MEERKAT_IDX1, and its last 8 bytes are the little-endian position at which the encoded metadata starts and from which it extends up to those 8 bytes.",
  "every sequence of columns and buffers, every metadata",
  "No test reads a segment back.",
  [SW+": SegmentWriter::new, write_headers, close"])
p("Columns of a segment do not interfere",
  "Writing several columns one after the other gives a data file that is the header followed by each column's blocks, in order, each column's blocks being those it would have produced alone; the block index of a column only ever contains that column's blocks.",
  "every sequence of columns",
  "Tests write one column.",
  [SW+": new_binary_column_writer, ColumnWriter::write, close"])
p("Metadata lists exactly the closed columns",
  "At close(), the metadata contains for each column name closed so far the description and layout given by the last column closed under that name, nothing else, and the segment's identity fields are those given at creation.",
  "every sequence of column writers, closed or abandoned",
  "Tests write one column.",
  [SW+": ColumnWriter::close, SegmentWriter::new"])
p("Metadata survives encoding, whatever the map order",
  "Decoding the metadata bytes yields the same metadata, for every order in which the hash maps are iterated.",
  "every metadata value, every iteration order",
  "HashMap iteration order is random per process; tests never decode.",
  [SW+": close (encode_to_vec)", SM])
p("Segment file names are unique and safe",
  "Different segment ids give different data and index file names; a name is 22 URL-safe base64 characters plus a 4-character extension and contains no path separator; data and index files never share a name.",
  "every pair of 128-bit ids",
  "2^256 pairs.",
  [SW+": SegmentWriter::new lines 144-152"])
p("Encoder selection is total and honest",
  "For every column kind and encoding, the constructor either returns an encoder or an error; integer and float columns accept only Raw, binary columns only Raw and Snappy.",
  "all five constructors, all five encodings",
  "No test asks for an unsupported encoding.",
  [EM+": new_i32_encoder .. new_binary_encoder"])
p("An accepted encoding stores the data",
  "If the encoder constructor accepts an encoding for a binary column, the blocks it writes determine the values encoded.",
  "every accepted encoding, every buffer",
  "A statement about all pairs of inputs.",
  [SN+": Encoder::encode"])
p("The index file locates a column's blocks",
  "After a column is closed, the block index layout in the metadata is the range of the index file that holds the block offsets and row ids of the column.",
  "every column",
  "No test reads the index.",
  [BI+": BlockIndex::flush"])
p("Synced segments survive a crash",
  "If close() and sync() returned success, every crash afterwards leaves both files complete; and at every crash point, if the index file on disk is complete then so is the data file it describes.",
  "every crash point, every order of background write-back",
  "Crash points and write-back orders cannot be enumerated by tests.",
  [SW+": SegmentWriter::close, sync", BW+": flush, sync"])
p("Seed list parsing",
  "The seeds option is split at commas and trimmed: the configured list has no entry containing a comma or surrounding blanks, joining the entries gives back the option up to blanks, and when the option is absent the list is empty.",
  "every option string",
  "No tests.",
  [MA+": main lines 57-66"])
p("A nullability mismatch is always detected",
  "Giving an encoder a buffer whose nullability differs from the column's makes encode() panic; it never writes a block whose layout disagrees with the column's nullability.",
  "both encoders, every buffer",
  "No test mixes nullabilities.",
  [PE+": encode", BE+": encode", IB+": append_from asserts"])
p("Row ids increase",
  "The row ids given to the block sink with the successive blocks of a column strictly increase, however the run ends.",
  "both encoders, every history, both build profiles",
  "A statement about every history, including those that end in a panic.",
  [PE+": write_block, write_remaining", BE+": write_block, write_remaining"])
p("A failed write never goes unnoticed before close",
  "If a segment was created and every call on it, up to and including close(), returned success, then no background write of either file failed and none is pending.",
  "every history of columns and calls, every behaviour of the operating system",
  "Background writes report their failure on a later call; tests run on a file system that never fails.",
  [SW+": new, ColumnWriter::write, close, SegmentWriter::close", BW+": write_block, flush"])
p("A successful sync means the data is on disk",
  "If every call on a segment succeeded and then sync() succeeded, no background write failed: all bytes given to both files were written and synced.",
  "every history, closed or not before the sync, every behaviour of the operating system",
  "sync consumes the writer, so a failure it does not report can never be seen; tests never make a write fail.",
  [SW+": SegmentWriter::sync", BW+": sync"])
p("A column of a synced segment can be read back",
  "If every call on a segment up to close() and sync() succeeded, then after any crash the values of each binary column can be read back exactly, in order, from the data file with the block index the column had when it was closed, under every schedule of the reads.",
  "every history, every crash, every order in which reads complete",
  "It combines buffers, encoder, segment writer, file, crash and reader; no test goes further than one of them.",
  [SW+": ColumnWriter::write, close, SegmentWriter::close, sync", BE+": encode, flush", BW+": write_block", BI])
p("Segments do not disturb each other",
  "Segments with different ids written in one directory, their operations interleaved in any way and failing in any way, leave in each one's two files exactly what they would leave if it were written alone.",
  "every interleaving of any number of segments, every failure, every earlier content of the directory",
  "Interleavings of several segments are not tested at all.",
  [SW+": SegmentWriter::new, new_binary_column_writer, close, sync", BW+": new"])
p("Creating a segment destroys nothing",
  "SegmentWriter::new changes no file that existed before: with a new id it only adds two files, with an id in use it fails.",
  "every content of the directory, every id",
  "No test creates a segment twice.",
  [SW+": SegmentWriter::new", BW+": Writer::new"])
p("Starting and stopping servers never panics",
  "Calls of start() and stop() on the servers of a process, in any order and any number of times, never panic, and each call after the first start logs its line.",
  "every history of calls on any number of servers",
  "No test starts a server; the logging set-up is global to the process, so it fails only from the second start on.",
  ["src/server/mod.rs: Meerkat::start, stop, init_logging"])
p("main passes the arguments on",
  "In a new process main never panics once the arguments are parsed; it prints one line with the version and profile and starts one server, whose path and port are those of the arguments and whose seeds are the entries of the seeds option.",
  "every argument, every build information",
  "main has no test.",
  [MA+": main", "src/build/mod.rs: short_info", "src/server/mod.rs: Meerkat::new, start"])
p("A refused block can be offered again",
  "If a call of encode() or flush() returned the error of the sink, repeating it with a sink that accepts everything offers the blocks, with the row ids, that the first call had yet to offer.",
  "both encoders, every state, every sink, every point at which it fails",
  "The test sink never fails.",
  [PE+": encode, flush, write_block, write_remaining", BE+": encode, flush, write_block, write_remaining"])
p("Data blocks are about 128 KiB",
  "In a raw column of a segment every block but the last holds at least 128 KiB of values (io/mod.rs, and the comment on BLOCK_SIZE), and none exceeds 128 KiB by the longest value of the column or more.",
  "every sequence of buffers, however the run ends",
  "No test looks at block sizes; the constant and its comment disagree.",
  [SW+": BLOCK_SIZE", BE+": chunk, encode, flush", "src/store/io/mod.rs: module comment"])
p("A dropped call leaves the writer usable",
  "If the future of a call on a block writer is dropped while it waits, the position of the writer is still the end of its file, so the index entries of blocks written later describe exactly those blocks.",
  "every history of calls, each awaited to its end or dropped at any await, every behaviour of the operating system",
  "Dropping futures (timeouts, select) is ordinary in async code, and no test does it.",
  [BW+": write_block, flush, pos", SW+": ColumnWriter::write"])
p("The metadata counts what was written",
  "In the metadata of a closed segment, num_values and num_nulls of each column count the values and the nulls that were written to it.",
  "every history of a segment",
  "No test reads the metadata back.",
  [SW+": ColumnWriter::close lines 295-308", "src/store/segment_metadata.proto: ColumnMeta"])
p("The files of a segment determine its columns",
  "Two segments closed without an error that left the same data file and the same index file have the same columns with the same values.",
  "every pair of histories",
  "A statement about pairs of histories; nothing reads segments yet.",
  [SW+": ColumnWriter::close, SegmentWriter::close", BI])
p("A column takes little more space than its values",
  "The blocks written for a column have, together, at most the bytes of its values, five bytes for each block of a primitive column, six for each block and four for each item of a binary column, and for nullable columns two more bytes for each block and one for every seven rows; and there is at most one block that is not full.",
  "both encoders, every sequence of buffers of fewer than 2^32 - 7 rows, every positive block size that is a multiple of the element size, however the run ends",
  "Tests compare a few blocks byte by byte; none looks at how much is written for a long column.",
  [PE+": encode, encode_primitive_buffer", BE+": chunk, encode, encode_binary_buffer", "src/store/encoding/offsets.rs: encode", "src/store/encoding/bitmap_rle.rs: flush"])
p("What is encoded after a flush is written without what came before",
  "After a flush() that returned normally, encoding further buffers and flushing again gives the sink blocks that hold the rows of those buffers and none of the rows given before.",
  "both encoders, every state of the encoder, every sequence of further buffers, both build profiles",
  "Tests flush once, at the end.",
  [PE+": flush, encode, write_remaining", BE+": flush, encode, write_remaining"])
p("Overflow checks do not change what is written",
  "A build without overflow checks does exactly what a build with them does (results, blocks, files, decoded values), in every case in which the latter does not panic in an overflow check.",
  "both encoders in every state with every sink and every sequence of buffers; every history of a segment, and of any number of segments in a directory, with every behaviour of the operating system; every bitmap and every bytes given to the bitmap decoder; every range that is not inverted given to the block reader; every call of the functions of buffers, varints and packed lengths, and every rounding up to a power of two",
  "Tests run in one profile, the database is deployed in the other.",
  [PE+": encode, flush", BE+": encode, flush", SW, "src/store/encoding/util.rs: round_upto_power_of_2 (debug_assert)", "src/store/encoding/bitmap_rle.rs"])
p("How rows are divided into buffers does not matter",
  "Two sequences of buffers with the same rows in the same order make an encoder of the same block size write the same blocks, with the same bytes and the same row ids.",
  "both encoders, every pair of sequences of buffers, every positive block size",
  "A statement about pairs of runs; a test has one sequence of buffers.",
  [PE+": encode, flush, write_remaining", BE+": encode, chunk, flush, write_remaining"])

p("The bitmap decoder reads the format and nothing else",
  "A compressed bitmap is a sequence of frames: a varint header 2n followed by one byte stands for n copies of it, a header 2n+1 followed by n bytes for those bytes. The decoder returns normally exactly when its input is such a sequence, every bit has a position below 2^32 and the output has room for the set bits; it then writes the positions of the set bits. In every other case it panics.",
  "every byte string, every output slice, both build profiles",
  "Tests decode only what the encoder has just written.",
  ["src/store/encoding/bitmap_rle.rs: Decoder::decode, read_frame, decode_run, decode_bitmap, decode_byte, decode", "src/store/encoding/varint.rs: decode_varint"])
p("Any row can be looked up by its number",
  "The row ids lead to the rows: for every row number r of a column, the first block whose row id is not below r, read at the position r minus the row after the row id of the block before, holds row r.",
  "both encoders, every sequence of buffers with fewer than 2^32 - 8 rows, every positive block size; in a segment, also after a crash that follows sync()",
  "The tests compare the row ids of a few blocks with numbers; nothing uses them to find a row.",
  [PE+": encode, write_remaining, add_rows", BE+": encode, write_remaining, add_rows", BI, SW])
p("A failed call leaves the writers usable",
  "After calls that failed, the positions kept by the writers are still those of the files: a close() of the segment that is repeated and succeeds leaves an index file whose last eight bytes locate the metadata, and a column written with success after another one failed has a block index that brackets its blocks.",
  "every history of a segment whatever its calls returned, every behaviour of the operating system, both build profiles",
  "No test makes a write fail, and the damage shows only later, in calls that succeed.",
  ["src/store/io/default_block_writer.rs: write_block, flush, pos", SW+": close", BI])
p("A buffer without rows changes nothing",
  "encode() of a buffer without rows returns normally, gives the sink nothing and leaves the encoder as it was; so such buffers can be left out of any sequence of calls.",
  "both encoders, every sequence of encode() and flush() calls, every sink, every positive block size, both build profiles",
  "Tests encode one buffer with rows.",
  [PE+": encode, chunk", BE+": encode, chunk", "src/store/indexing_buffer.rs: append_from"])
p("A bitmap has one compressed form",
  "The RLE encoder divides the bytes of a bitmap in one way: every longest run of three or more equal bytes is a run frame, what lies between two of them is one bitmap frame, and every header is as short as possible. So two sequences of bits are compressed to the same bytes exactly if they are the same once filled up with zeros to whole bytes.",
  "every bit sequence, both build profiles",
  "Tests decode what was encoded, which does not show that runs are found and not cut.",
  ["src/store/encoding/bitmap_rle.rs: Encoder::put, append, flush"])
p("Primitive column: leftovers stay below a block",
  "Between calls the encoder holds back less than one block of values.",
  "every element type, every positive block size, nullable or not, every sequence of encode() and flush() calls that return, every sink, both build profiles",
  "An invariant over all histories.",
  [PE+": encode, chunk", "src/store/indexing_buffer.rs: PrimitiveBuffer::append_from"])
p("A segment survives dropped calls",
  "If futures of calls on a segment writer or on its column writers are dropped while they wait, a later close() that succeeds leaves an index file whose last eight bytes locate the metadata, and a column written with success later has a block index that brackets its blocks.",
  "every history of a segment, each call awaited to its end, whatever it returned, or dropped at any await; every behaviour of the operating system, both build profiles",
  "Tests await every call, and the damage shows only in later calls, which succeed.",
  ["src/store/io/default_block_writer.rs: write_block, flush", SW+": ColumnWriter::write, ColumnWriter::close, SegmentWriter::close", BI])
p("An index file that a crash left incomplete does not look complete",
  "After close(), a crash before the sync leaves either the whole index file or one that a reader recognises as incomplete: without the signature, without a position in its last eight bytes, or without metadata that names a segment at that position.",
  "every history of a segment without a failing call that ends with a close; every content a crash can leave of the index file",
  "Tests do not crash the machine; what a crash leaves depends on the file system, and a wrong file can be read without any error.",
  [SW+": SegmentWriter::close, SegmentWriter::sync", "src/store/segment_metadata.proto"])
p("The RLE encoder can be flushed more than once",
  "If flush() is called several times, with or without more bits in between, encoded_values() is the compressed form of all bits put so far.",
  "every sequence of bits and flushes, both build profiles",
  "Tests flush every encoder once; a second flush changes nothing that a test of one block could see.",
  ["src/store/encoding/bitmap_rle.rs: Encoder::flush, Encoder::put"])
p("Reading a segment that is still being written gives no wrong bytes",
  "What read_block() returns, and what a read_blocks() stream yields, for a file of a segment that is still being written are the bytes the file has in that range when the segment is closed; a range within the reader's len() can be read from the moment the reader was opened.",
  "every history whatever fails, every moment of it, every content the successive system calls of a read may find, both build profiles",
  "Tests read files that are complete.",
  ["src/store/io/unix_disk_block_reader.rs: read_block, Reader::new, len", "src/store/io/default_block_writer.rs: write_block, flush", "src/store/segment_writer.rs: write, close"])
p("A block can be read as soon as write_block() has returned",
  "When write_block() has succeeded, a reader of the file gets the block from the range between the positions before and after the call.",
  "every sequence of blocks, every moment at which the background writes are done",
  "Tests flush before they read; whether a block is there without depends on the schedule of the threads.",
  ["src/store/io/default_block_writer.rs: write_block", "src/store/io/unix_disk_block_reader.rs: read_block"])
p("append_from refuses an inverted range",
  "append_from(src, start, end, pos) of a primitive or binary buffer panics if start > end.",
  "every pair of buffers, every inverted range, both build profiles",
  "Only special buffers show it, and only without overflow checks.",
  ["src/store/indexing_buffer.rs: PrimitiveBuffer::append_from, BinaryBuffer::append_from"])
p("A column that the index file lists is in the data file",
  "If the index file of a segment looks complete and lists a column, every block of the column is in the data file.",
  "every history of calls, every behaviour of the two files, both build profiles, whatever close() returned",
  "Whoever opens the segment later has only the two files, not the results of the calls; index and data are flushed one after the other.",
  ["src/store/segment_writer.rs: SegmentWriter::close", "src/store/segment_writer.rs: ColumnWriter::close"])
p("The last row id tells the number of rows",
  "The row id of the last block of a column, plus one, is the number of rows of the column (no block: no rows); so the columns of a segment, which have the same rows, end with the same row id.",
  "every sequence of buffers and a flush, both encoders, nullable or not, every block size, both build profiles",
  "Needs the row ids of a whole column; tests look at none.",
  [PE+": write_block, write_remaining, add_rows", BE+": write_block, write_remaining, add_rows"])
p("A column index is given the buffers that are stored",
  "Whatever a column index does and whichever calls fail, it is given exactly the buffers that were encoded without an error, each once and in order; what is written to the data file is what would be written without it; write() succeeds exactly if both the encoder and the index did; close() records the layout that the index returned, and records nothing if it fails.",
  "every implementation of ColumnIndex, every sequence of buffers, every operating system, both build profiles",
  "Nothing implements the trait, so no test reaches these branches.",
  ["src/store/index/mod.rs: ColumnIndex", SW+": ColumnWriter::write, close"])
p("A column that is to be indexed has an index",
  "In the metadata, a column has a column index layout exactly if its index type is not NoIndex.",
  "every history of a segment, every column description",
  "The only test of a segment uses NoIndex and never reads the metadata.",
  [SW+": new_binary_column_writer, ColumnWriter::close"])
p("The same calls leave the same files",
  "If the same columns are written with the same calls to two segments with the same description and no call fails, their data files and their index files are the same, byte for byte.",
  "every list of columns and calls, any two operating systems, build profiles and iteration orders of hash maps",
  "Compares two runs; HashMap iterates in an order that changes from run to run.",
  [SW+": SegmentWriter::close", "src/store/segment_metadata.rs: SegmentMeta, Metadata"])
p("A bitmap takes memory in proportion to its bits",
  "A bitmap has room for its bits, and it takes less than one byte for four bits unless it still has the size it was made with or was given by clear().",
  "every history of new, with_capacity, append, append_from and clear",
  "No test fills the 1024 bytes of a new bitmap, so none sees it grow.",
  [IB+": Bitmap::append, append_from, clear"])
p("A creation that stops leaves the directory as it was",
  "If SegmentWriter::new() returns an error, or if its future is dropped, the directory is as it was before.",
  "every content of the directory, every behaviour of the operating system, every await at which the future can be dropped",
  "Tests create segments in fresh directories where nothing fails, and await every call.",
  [SW+": SegmentWriter::new, write_headers", BW+": Writer::new"])

p("A dropped sync does no harm",
  "If the future of sync() is dropped, both files end with the same bytes as without the call, nothing written or synced before is lost, an error of a write not yet reported is still reported by the next flush, and a crash leaves nothing that it could not have left without the call.",
  "every history of a segment, whatever its calls returned; every await of sync; every behaviour of the operating system",
  "Tests await sync() and do not crash the machine.",
  [SW+": SegmentWriter::sync", BW+": Writer::sync"])
p("The accessors of buffers do what their comments say",
  "len() and num_values() of a PrimitiveBuffer both return the number of rows including nulls, len() of a BinaryBuffer that of the rows that are not null and num_values() that of all rows, len() of a BoolBuffer that of all rows; validity() panics if the buffer is not nullable.",
  "every element type, every sequence of rows, both nullability settings",
  "No test calls len() of a PrimitiveBuffer with nulls, or validity() of a buffer that is not nullable.",
  [IB+": PrimitiveBuffer::len, num_values, validity; BinaryBuffer::len, num_values, validity; BoolBuffer::len, validity"])
p("A range that is not in the file is refused without ending the process",
  "read_block() of a range that is not in the file returns an error, however long the range is, in a process whose memory suffices for the whole file.",
  "every file, every range including reversed ones, every amount of memory not below the length of the file, both build profiles",
  "Tests read only valid ranges.",
  [BR+": Reader::read_block"])
p("A damaged byte of a data file can be noticed",
  "No two different columns are written as blocks with the same row ids and lengths that differ in a single byte, so that a reader can tell when one byte of the data file was changed; and a file that lost bytes at its end is noticed when a block that had them is read.",
  "every column of byte strings or primitive values, both nullability settings, every positive block size; every file and every number of lost bytes",
  "Tests never damage a file.",
  [BE+": encode_binary_buffer", PE+": encode_primitive_buffer", BR+": Reader::read_block"])
p("Segments with the same id do not mix their bytes",
  "If a segment is created while one with the same id is still being written in the same directory, then whatever calls follow, the data file holds in the end what one of the two segments wrote, from its beginning to its end.",
  "every content of the directory, every history of both segments and of any others, every behaviour of the operating system, both build profiles",
  "No test creates a segment twice, still less while the first is open.",
  [SW+": SegmentWriter::new, write_headers", BW+": Writer::new"])
p("A call that panics leaves the buffer as it was",
  "If append(), append_null() or append_from() of a buffer or of a bitmap panics, the buffer is the same as before the call.",
  "every content of the buffers, every argument, both nullability settings, both build profiles",
  "Tests that expect a panic end with it and never look at the buffer afterwards.",
  [IB+": PrimitiveBuffer, BinaryBuffer, BoolBuffer, Bitmap: append, append_null, append_from", PE+": encode"])
p("A write that panics leaves the column as it was",
  "If ColumnWriter::write() panics because the nullability of the buffer is not the column's, the column and the segment go on as if the call had not been made: nothing of the buffer is stored, and the rows taken before still are.",
  "every segment, every buffer, every state of the column, both nullability settings, both build profiles",
  "No test mixes nullabilities, and a test that expects a panic ends with it.",
  ["src/store/segment_writer.rs: ColumnWriter::write, close", BE+": encode, flush", IB+": BinaryBuffer::append_from"])
p("The values of a column do not decide its layout",
  "Two columns with nulls in the same places, and with binary values of the same lengths, are encoded alike: the calls return or fail the same, there are as many blocks with the same row ids and lengths, and the blocks differ only in the bytes of the values, which stand in the same places. For primitive columns this holds even between types of the same size.",
  "every pair of such columns, of any number of buffers and rows, both nullability settings, every block size, both build profiles",
  "It relates two runs of the encoder; a test looks at one. A comparison with a value, or a value read where a length is meant, breaks it for some pair only.",
  [PE+": encode, flush, write_block", BE+": encode, flush, write_block", IB+": PrimitiveBuffer, BinaryBuffer"])

p("The bytes of a column do not depend on the machine",
  "The same primitive column is written as the same blocks on a little endian and on a big endian machine, so that a segment written on one can be read on the other.",
  "every column of i32, i64 or u64, of any number of buffers and rows, both nullability settings, every block size, both build profiles",
  "The tests run on one machine, and compare with what that machine writes.",
  [PE+": to_byte_slice, write_block"])
p("A 32-bit machine reads the same bytes",
  "Where usize has 32 bits, read_block() returns what it returns where usize has 64 bits, or an error; it never returns other or fewer bytes than asked for.",
  "every file, every range, both build profiles",
  "The tests run on a 64-bit machine, and on any machine they would need a file of more than 4 GiB.",
  ["src/store/io/unix_disk_block_reader.rs: read_block"])
p("A synced segment is found after a crash",
  "After close() and sync() of a segment have succeeded, a crash leaves both of its files in the directory, under their names and complete.",
  "every segment, every history of calls, every directory, every crash that POSIX allows",
  "Tests cannot crash the machine, and most file systems keep the name of a file when its bytes are synced.",
  ["src/store/segment_writer.rs: SegmentWriter::new, sync", "src/store/io/default_block_writer.rs: new, sync"])
p("A server starts even if nobody reads its output",
  "main() starts the server with the configuration given, whatever becomes of writes to the standard output.",
  "every state of the standard output, all arguments, all build information",
  "No test runs main(), and a test harness reads the output.",
  ["src/main.rs: main", "src/server/mod.rs: Meerkat::start"])
p("Decoding a bitmap takes time in proportion to its input and output",
  "Whatever bytes are given to the bitmap decoder, it returns or panics after a number of loop iterations bounded by a constant times the length of the input plus the length of the output slice, however long a run a header announces.",
  "all inputs, well formed or not, all output slices, both build profiles",
  "The tests decode what the encoder wrote; none measures the work done for a header announcing a long run.",
  [RLE+": decode", RLE+": Decoder::decode", RLE+": Decoder::decode_run", RLE+": Decoder::decode_byte"])
p("An encoder holds back fewer rows than a block has bytes",
  "Between calls, the rows an encoder has taken but not yet written are fewer than the bytes of a block, so that its memory does not grow with the column.",
  "every sequence of encode and flush calls that succeed, every block size, both encoders, nullable or not",
  "Tests look at what is written, not at what is held back, and use few empty strings and nulls.",
  [BE+": Encoder::encode", BE+": chunk", PE+": Encoder::encode", IB+": BinaryBuffer::append_from"])

p("Every column that was closed is listed",
  "The metadata of a segment lists each column that was closed without an error.",
  "every sequence of columns with any names, whatever fails",
  "Tests write one column.",
  [SW+": ColumnWriter::close", SW+": SegmentWriter::new_binary_column_writer"])

p("A column that does not fit its declaration is refused",
  "Writing a column of byte strings that is declared to be of another type, or a column whose number of rows is not the one announced for the segment, is refused with an error.",
  "every declared type, every announced number of rows, all columns",
  "Tests declare what they write.",
  [SW+": SegmentWriter::new_binary_column_writer", SW+": SegmentWriter::new", SW+": ColumnWriter::close"])
p("Declaring a column nullable adds the validity and nothing else",
  "A nullable column is encoded like the column of its values: when its calls return so do those for the column of its values, not nullable; there are as many blocks, each with the bytes of the other followed by the validity. For a column without nulls the row ids are the same as well.",
  "every column of any number of buffers and rows with any nulls, flushed in between or not, every positive block size, both build profiles, both encoders",
  "It relates two runs of the encoder; the tests of nullable and of other columns are separate and use different values.",
  [PE+": Encoder::encode", PE+": encode_primitive_buffer", BE+": Encoder::encode", BE+": encode_binary_buffer"])
p("A segment may be closed again",
  "Closing a segment that is closed already, any number of times, leaves the data file as it is and the metadata a reader finds in the index file the same: the second metadata are appended after the first, and the position at the end of the file leads to them.",
  "every history of columns and closes in which no call fails, any number of further closes, every iteration order of the maps at each close, both build profiles",
  "close takes &mut self, so a caller can do it; no test closes a segment twice.",
  [SW+": SegmentWriter::close"])
p("A column may be closed again",
  "Closing a column that is closed already, any number of times, adds no rows to it: the data file, the block index and the metadata stay as they are.",
  "every history before it, every column and calls on it in which no call fails, any number of further closes, both build profiles",
  "close takes &mut self, so a caller can do it, in a retry for instance; no test closes a column twice.",
  [SW+": ColumnWriter::close", BE+": Encoder::flush"])
p("Encoding a primitive column takes time in proportion to its rows",
  "The iterations of all loops, the values copied and the bytes produced and copied while the buffers of a primitive column are encoded are together at most a constant number, which does not depend on the block size, for each value, each validity bit and each buffer; rows that are held back are not gone through again before they are written.",
  "every element type, every sequence of buffers, every positive block size, every sink, nullable or not, however the calls end, both build profiles",
  "A test cannot bound the time of all inputs; the tests encode a few short columns.",
  [PE+": Encoder::encode", PE+": Encoder::flush", PE+": encode_primitive_buffer", RLE+": Encoder::put_from", IB+": PrimitiveBuffer::append_from"])
p("A column writer fails only when the file does",
  "If write() or close() of a column writer, with either encoding that is accepted, does not return normally, then the first call that did not returned an error of the file: no column is refused for what it holds.",
  "every segment and every history of it, every sequence of buffers, every behaviour of the file, both build profiles",
  "The tests write a few short strings; a buffer of ordinary size already panics.",
  [SW+": ColumnWriter::write", SW+": ColumnWriter::close", BE+": Encoder::encode"])
p("Encoding a binary column takes time in proportion to its rows and bytes",
  "The iterations of all loops and the bytes, offsets and validity bits produced or copied while the buffers of a binary column are encoded are together at most 60 for each byte, 120 for each row and 2164 for each buffer, and 702 more, whatever the block size.",
  "every sequence of buffers, every positive block size below 2^32, nullable or not, both build profiles",
  "A test cannot bound the time of all inputs; the tests encode a few short columns.",
  [BE+": Encoder::encode", BE+": Encoder::flush", BE+": encode_binary_buffer", BE+": chunk", IB+": BinaryBuffer::append_from"])
p("A call on a column that was dropped can be made again",
  "If the future of a write() or close() of a column writer is dropped while it waits and the same call is made again, it offers the blocks, with the row ids, that the dropped call had yet to write.",
  "every column, every state of its encoder, every await at which the call is dropped, every behaviour of the operating system, both build profiles",
  "Tests await every call. What a repeated call does wrong is seen only in the row ids and in the index, which no test reads.",
  [SW+": ColumnWriter::write", SW+": ColumnWriter::close", BE+": Encoder::encode", BE+": Encoder::flush"])
p("Filling a buffer takes time in proportion to its rows",
  "Any sequence of append(), append_null(), append_from() and clear() calls on a new buffer takes a number of steps bounded by a constant for each call, each row copied and each byte of the values, the growth of its bitmaps included.",
  "every kind of buffer, nullable or not, every sequence of calls, including those that end in a panic",
  "The bitmaps double in size when they are full and are cut back by clear(); a test with a few rows never sees either, and no test measures time.",
  [IB+": Bitmap::append", IB+": Bitmap::clear", IB+": PrimitiveBuffer", IB+": BinaryBuffer", IB+": BoolBuffer"])
p("Declaring a column without nulls nullable costs at most eight bytes a block",
  "A column without nulls that is declared nullable is written in as many blocks as when it is not; each of its blocks is the other one followed by at most eight bytes, however many rows it has, so the column grows by at most eight bytes for each block.",
  "every column without nulls, of any number of buffers and rows, flushed in between or not, every positive block size, both build profiles, both encoders, whenever the calls return",
  "A validity of equal bits should cost next to nothing: the run-length encoder, the bitmap and the positions in it must all do their part. No test looks at the size of a block.",
  [PE+": encode_primitive_buffer", BE+": encode_binary_buffer", RLE+": Encoder::put_from", RLE+": Encoder::flush", IB+": Bitmap::append_from"])
p("A changed value changes one block",
  "When one value of a column is replaced by another one of the same length and the column is encoded again, buffer by buffer and then flushed, the blocks have the same row ids and lengths, and all of them but one at most have the same bytes; that one differs only in the bytes of the value, which stand at one place in it.",
  "every column of any number of buffers and rows, every row of it and every other value, nullable or not, every block size, both build profiles, both encoders, whenever the calls return",
  "It compares two runs, and holds only if no value is written twice and nothing of one block leaks into another.",
  [PE+": Encoder::encode", PE+": encode_primitive_buffer", BE+": Encoder::encode", BE+": encode_binary_buffer", BE+": chunk"])
p("Rows added at the end change no block but the last",
  "The blocks made of any calls followed by encode() of a buffer and flush(), all but the last, are the first blocks made when that buffer has more rows at its end or when other calls follow it, with the same row ids and the same bytes. The data file of a segment, up to the last block, is the beginning of that of the segment with more rows.",
  "every sequence of encode() and flush() calls before, every buffer, any rows added to it, every sequence of calls afterwards whether they return or not, nullable or not, every positive block size, both build profiles, both encoders, whenever the calls of the shorter column return",
  "It compares two runs of any length; tests encode one column.",
  [PE+": Encoder::encode", PE+": chunk", PE+": encode_primitive_buffer", BE+": Encoder::encode", BE+": chunk", BE+": encode_binary_buffer"])
p("Buffers with the same rows are encoded the same",
  "encode() of two buffers that are both nullable or both not and show the same rows is the same: the same blocks with the same row ids and bytes reach the sink, the encoder is left the same, and it returns, fails or panics alike. The bytes a bitmap keeps behind its last bit do not matter.",
  "every two buffers with the same rows, every encoder state, every sink, every sequence of encode() and flush() calls with such buffers, both build profiles, both encoders, ColumnWriter::write, and the files of any history of segments",
  "It compares two runs for every representation of a column; a test has one representation.",
  [PE+": Encoder::encode", BE+": Encoder::encode", IB+": Bitmap::append_from", BE+": encode_binary_buffer", PE+": encode_primitive_buffer", SW+": ColumnWriter::write"])
p("A compressed bitmap that was cut short gives no wrong position",
  "When the bytes the bitmap encoder wrote are cut off anywhere, the decoder either panics or returns exactly the positions set among the first few bits; it never gives a position that is not set or misses one before the last it gives. It panics exactly when the cut is inside a frame, so it returns when flush() was not called. Compressed bitmaps one after the other decode as their bytes one after the other.",
  "every bitmap of fewer than 2^32 - 7 bits, every place of the cut, every output slice with room for the positions of the whole bitmap, both build profiles",
  "Tests decode only complete encodings.",
  [RLE+": Decoder::decode", RLE+": Decoder::read_frame", RLE+": Encoder::flush"])
p("Rows can be copied and compressed in parts",
  "append_from() of a range of values returns exactly when append_from() of its first part and then of the rest, from the position the first call returned, do, and the buffer is then the same; so is the position, if the source has a validity. put_from() and Bitmap::append_from() of n + m set bits are those of n and then of m, panics included.",
  "every destination, every source whose offsets are in order (as those of any buffer that shows rows are), every range and every place to part it, every state of the bitmap encoder, both build profiles",
  "It compares runs for every place to part every range; tests copy a few ranges.",
  [IB+": PrimitiveBuffer::append_from", IB+": BinaryBuffer::append_from", IB+": Bitmap::append_from", RLE+": Encoder::put_from"])
p("The index file takes space in proportion to the names of the columns",
  "The metadata that SegmentWriter::close() encodes takes at most 56 bytes plus the segment id, the database name and the table name, plus, for each column created, 82 bytes and three times its name. The index file of a segment whose columns were written and that was then closed once takes 20 bytes more, however many rows and blocks were written.",
  "every history of columns, writes and closes, for the metadata also with failing calls, every iteration order of the hash maps, every operating system behaviour, both build profiles; as long as the file is shorter than 2^64 bytes",
  "The bound is over all histories and all names; a test sees the size of a few files.",
  [SW+": SegmentWriter::close", SW+": ColumnWriter::close", SM+": Metadata"])
p("The columns of a segment may be written in any order",
  "The metadata of a segment is decided by the column last closed under each name, up to the order of its entries: other columns, failed calls and the order of the columns make no difference. If columns with different names are written in another order, and no call fails, the data file has the same bytes for each column, in the new order, and the index file has the same length.",
  "every pair of histories with the same columns last closed (for the metadata), every permutation of every list of columns with different names, every iteration order of the hash maps, every operating system behaviour, both build profiles",
  "It compares two runs for every permutation of every list of columns; tests write columns in one order.",
  [SW+": SegmentWriter::new_binary_column_writer", SW+": ColumnWriter::write", SW+": ColumnWriter::close", SW+": SegmentWriter::close"])
p("A column that is refused, or to which nothing is done, leaves no trace",
  "Leaving out of a history the columns whose encoding new_binary_column_writer() refuses, and the column writers that are dropped without a call, changes neither what the other calls return nor the two files, their positions and the metadata.",
  "every history of a segment, including failing calls, every state of the segment writer, every operating system behaviour, both build profiles",
  "It compares two runs for every history; no test asks for an encoding that is refused.",
  [SW+": SegmentWriter::new_binary_column_writer", EM+": new_binary_encoder", BI+": BlockIndex::clear"])

with open(os.path.join(os.path.dirname(__file__), "..", "properties.jsonl"), "w") as f:
    for x in P: f.write(json.dumps(x)+"\n")
print(len(P))
