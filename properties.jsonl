{"id": "C01", "title": "Bitmap stores exactly the appended bits", "statement": "After appending any sequence of booleans to a new Bitmap, no append panics, len() is the number of appends, is_set(i) returns the i-th appended boolean for every i below len(), and is_set(i) panics for every i at or above len(). Growth of the backing store never changes a bit.", "quantifier": "every finite sequence of booleans, every index", "why_tests_cant": "Tests use one random sequence of at most 2047 bits, which never reaches the 8192-bit boundary where the backing store is doubled.", "anchors": ["src/store/indexing_buffer.rs: Bitmap::new, append, is_set, len"]}
{"id": "C02", "title": "A cleared Bitmap behaves like a new one", "statement": "After clear(), any sequence of appends to a Bitmap is read back exactly as it would be from a new Bitmap, whatever the bitmap held before.", "quantifier": "every sequence of bits before clear(), every sequence after", "why_tests_cant": "Existing tests clear a buffer but never read a null back afterwards; the failing histories depend on overlap of old set bits with new unset bits.", "anchors": ["src/store/indexing_buffer.rs: Bitmap::clear, append, is_set"]}
{"id": "C03", "title": "Bitmap::append_from copies a bit range ending at the n-th set bit", "statement": "append_from(src, start, n) appends to the destination exactly the source bits from start up to and including the n-th set bit at or after start (none if n is 0), returns the position just after it, leaves earlier destination bits unchanged, and panics exactly when the source has fewer than n set bits from start on.", "quantifier": "every destination and source, whatever was done with them before (set bits left behind by clear() are those of C02), every start position and count", "why_tests_cant": "One test copies two set bits out of five.", "anchors": ["src/store/indexing_buffer.rs: Bitmap::append_from"]}
{"id": "C04", "title": "Any capacity hint gives a usable Bitmap", "statement": "A Bitmap made by with_capacity(cap) accepts and returns any sequence of booleans, for every cap.", "quantifier": "every capacity, every sequence of booleans", "why_tests_cant": "with_capacity has no test; the failing capacities are below 8.", "anchors": ["src/store/indexing_buffer.rs: Bitmap::with_capacity, append"]}
{"id": "C05", "title": "PrimitiveBuffer is a faithful sparse column", "statement": "After any sequence of append(v)/append_null() calls on a new buffer that accepts them, values() is the list of non-null values in order, len() their number, num_values() the number of calls, is_nullable() the flag it was created with, has_nulls() says whether any call was append_null, and the validity bitmap marks exactly the non-null rows, so the whole column can be reconstructed.", "quantifier": "every element type, every call sequence, both nullability settings", "why_tests_cant": "Tests use a five-row column.", "anchors": ["src/store/indexing_buffer.rs: PrimitiveBuffer::{new,append,append_null,values,len,num_values,is_nullable,has_nulls,validity}"]}
{"id": "C06", "title": "BinaryBuffer is a faithful sparse column of byte strings", "statement": "After any sequence of append(bytes)/append_null() calls that does not panic, offsets() starts at 0, is non-decreasing and has len()+1 entries, the bytes of data() between consecutive offsets are exactly the appended strings in order, item_len(i) is the length of the i-th, and num_values, has_nulls and validity are as for primitives.", "quantifier": "every sequence of byte strings and nulls, both nullability settings", "why_tests_cant": "Tests use three short names.", "anchors": ["src/store/indexing_buffer.rs: BinaryBuffer::{new,append,append_null,item_len,data,offsets,len,num_values,has_nulls}"]}
{"id": "C07", "title": "BoolBuffer is a faithful sparse column of booleans", "statement": "After any sequence of append(b)/append_null() calls, len() counts all rows, values() holds exactly the non-null booleans in order, the validity bitmap marks the non-null rows, and has_nulls() says whether any row is null.", "quantifier": "every sequence of booleans and nulls, both nullability settings", "why_tests_cant": "Tests use seven rows.", "anchors": ["src/store/indexing_buffer.rs: BoolBuffer::{new,append,append_null,values,validity,len,has_nulls}"]}
{"id": "C08", "title": "A non-nullable buffer never holds a null", "statement": "On a buffer created non-nullable, append_null() always panics, and whatever calls succeed has_nulls() is false, there is no validity bitmap and the number of rows is the number of values; on a nullable buffer append_null() never panics.", "quantifier": "all three buffer kinds, every call history", "why_tests_cant": "Tests never call append_null on a non-nullable buffer.", "anchors": ["src/store/indexing_buffer.rs: PrimitiveBuffer::append_null, BinaryBuffer::append_null, BoolBuffer::append_null"]}
{"id": "C09", "title": "A cleared buffer behaves like a new buffer", "statement": "After clear(), a buffer holds no rows and any later sequence of appends produces the same column, as read through its API, as the same sequence on a new buffer.", "quantifier": "all three buffer kinds, every history before and after clear", "why_tests_cant": "Tests append only non-null values after clear.", "anchors": ["src/store/indexing_buffer.rs: PrimitiveBuffer::clear, BinaryBuffer::clear, BoolBuffer::clear"]}
{"id": "C10", "title": "PrimitiveBuffer::append_from concatenates columns", "statement": "Appending values [start,end) of one buffer to another with matching nullability adds exactly those values, and for nullable buffers exactly the rows from the given row position up to the last copied value; the returned position is where the next copy must start, so successive calls that cover the source copy all rows up to the last non-null one, in order. The call returns exactly when the range lies inside the source, the result has fewer than 2^32 - 1 values, both buffers are nullable or neither is, and a nullable source has enough values from the given row on; otherwise it panics.", "quantifier": "every pair of buffers, every split of the source into ranges", "why_tests_cant": "append_from on primitives has no direct test.", "anchors": ["src/store/indexing_buffer.rs: PrimitiveBuffer::append_from"]}
{"id": "C11", "title": "BinaryBuffer::append_from concatenates columns", "statement": "Appending items [start,end) of one BinaryBuffer to another adds exactly those byte strings (offsets are rebased), and the validity rows as for primitives. The call returns under the same conditions, with the limit of 2^32 - 1 on the bytes of the result.", "quantifier": "every pair of buffers, every range that is not inverted (see C85 for those)", "why_tests_cant": "One test copies a single item.", "anchors": ["src/store/indexing_buffer.rs: BinaryBuffer::append_from, item_len"]}
{"id": "C12", "title": "BinaryBuffer never records a wrapped offset", "statement": "However much data is appended or copied in, a call that would make the total data exceed what a 32-bit offset can hold panics; any call that returns leaves exact offsets. No offset is ever silently truncated, in checked and unchecked builds.", "quantifier": "every append/append_from history, both build profiles", "why_tests_cant": "Needs more than 4 GiB of data to exercise.", "anchors": ["src/store/indexing_buffer.rs: BinaryBuffer::append (try_into expect), append_from (assert)"]}
{"id": "C13", "title": "Varint round trip inside any stream", "statement": "Decoding the bytes produced for any 64-bit value, followed by arbitrary other bytes, returns that value and the number of bytes the encoder reported.", "quantifier": "every u64, every suffix", "why_tests_cant": "Tests check 20 boundary values with no suffix.", "anchors": ["src/store/encoding/varint.rs: encode_varint, decode_varint, Encoder::put_varint"]}
{"id": "C14", "title": "Varint length is predicted exactly and fits the scratch buffer", "statement": "encoded_len_varint(v) equals the number of bytes encode_varint writes, which is the number of 7-bit groups of v (at least one), never more than MAX_VARINT_LEN = 10; so encoding into a 10-byte scratch buffer never panics, and put_varint appends exactly those bytes and keeps what was there.", "quantifier": "every u64", "why_tests_cant": "2^64 values; the closed formula with leading_zeros is checked on boundaries only.", "anchors": ["src/store/encoding/varint.rs: encoded_len_varint, encode_varint, MAX_VARINT_LEN"]}
{"id": "C15", "title": "Varint decoding of arbitrary bytes is well defined", "statement": "On any byte slice decode_varint either returns the little-endian base-128 value (modulo 2^64) of the bytes up to the first byte below 0x80 and its length (at most 10), or returns an error exactly when the first ten bytes all have the top bit set, or panics exactly when the slice ends before a terminator. No intermediate addition, subtraction or shift overflows.", "quantifier": "every byte slice, both build profiles", "why_tests_cant": "Input space is unbounded; tests decode only canonical encodings.", "anchors": ["src/store/encoding/varint.rs: decode_varint"]}
{"id": "C16", "title": "Varint encodings are canonical and minimal", "statement": "Different values have different encodings, no encoding is a proper prefix of another, and no shorter byte string decodes to the same value.", "quantifier": "every pair of u64 values, every byte string", "why_tests_cant": "A statement about all pairs of values and all byte strings.", "anchors": ["src/store/encoding/varint.rs: encode_varint, decode_varint"]}
{"id": "C17", "title": "Bitmap RLE round trip", "statement": "For any sequence of bits shorter than 2^32 - 7, put()-ing them in order, flush()ing and decoding encoded_values() into a slice with room for them yields exactly the positions of the set bits in increasing order, leaves the rest of the slice untouched, and reports their number, without panicking in either build profile.", "quantifier": "every bit sequence, every output slice that is large enough, both build profiles", "why_tests_cant": "Four fixed patterns are tested; the encoder's four-state machine and frame headers have unboundedly many paths.", "anchors": ["src/store/encoding/bitmap_rle.rs: Encoder::{put,flush,encoded_values,append,emit_run,emit_bitmap_literal}, Decoder::{decode,read_frame,decode_run,decode_byte}, decode"]}
{"id": "C18", "title": "Bitmap RLE decoding of arbitrary input is safe", "statement": "On any byte string and any output slice, decoding terminates, either panicking or returning a count no larger than the slice; positions written are strictly increasing in a build with overflow checks, and entries past the returned count are untouched.", "quantifier": "every byte string, every output slice", "why_tests_cant": "Corrupt inputs are not tested at all.", "anchors": ["src/store/encoding/bitmap_rle.rs: decode, Decoder::read_frame, decode_run, decode_bitmap"]}
{"id": "C19", "title": "Bitmap RLE never expands a bitmap by more than 1/64 plus one byte", "statement": "The encoding of n bitmap bytes takes at most n + n/64 + 1 bytes (0 for an empty bitmap), and a bitmap of n >= 3 equal bytes takes exactly one byte plus the varint of 2n.", "quantifier": "every bit sequence", "why_tests_cant": "A bound over all inputs.", "anchors": ["src/store/encoding/bitmap_rle.rs: Encoder::append, emit_run, emit_bitmap_literal, MIN_RUN_LEN"]}
{"id": "C20", "title": "A cleared RLE encoder is as good as new", "statement": "Whatever an Encoder encoded before (flushed or not), after clear() it produces for any bit sequence exactly the bytes a new Encoder produces.", "quantifier": "every earlier history, every later bit sequence", "why_tests_cant": "The encoder is reused for every block; clear() leaves one field stale, and no test reuses an encoder.", "anchors": ["src/store/encoding/bitmap_rle.rs: Encoder::clear"]}
{"id": "C21", "title": "put_from encodes exactly the requested rows", "statement": "put_from(bitmap, start, n) has the same effect as put() on each bit from start up to and including the n-th set bit, returns the position just after it, and panics exactly when there are fewer than n set bits.", "quantifier": "every encoder state, bitmap, start and count", "why_tests_cant": "put_from is only tested through encoders on bitmaps without nulls.", "anchors": ["src/store/encoding/bitmap_rle.rs: Encoder::put_from"]}
{"id": "C22", "title": "Alignment helpers return the least upper multiple", "statement": "ceil8(n) is the least number of bytes holding n bits; round_upto_power_of_2(n, f) is the least multiple of f that is at least n, for every power of two f with no 64-bit overflow.", "quantifier": "every usize value and every power of two", "why_tests_cant": "No tests; the second is a bit trick over 64-bit words.", "anchors": ["src/store/encoding/util.rs: ceil8, round_upto_power_of_2"]}
{"id": "C23", "title": "Encoded item lengths can be recovered", "statement": "From the bytes OffsetEncoder::encode appends for a list of item lengths, and the number of items, the list of lengths can be recovered: two different lists of the same size never encode to the same bytes.", "quantifier": "every list of u32 lengths", "why_tests_cant": "No tests decode offsets; the failing lists depend on the interleaved layout of the bit packer and the trim at the end.", "anchors": ["src/store/encoding/offsets.rs: OffsetEncoder::encode (trim at lines 59-62)"]}
{"id": "C24", "title": "Offset encoding accepts any number of items", "statement": "OffsetEncoder::encode returns normally for every list of lengths, whatever its size, and leaves the bytes already in the destination unchanged.", "quantifier": "every list length including 0 and more than 128", "why_tests_cant": "Tests encode at most three items.", "anchors": ["src/store/encoding/offsets.rs: OffsetEncoder::encode, num_bits call at line 42"]}
{"id": "C25", "title": "A primitive block is self-contained", "statement": "From the bytes of one block written for a primitive column and the column's nullability, a reader recovers exactly the values of the block and, for nullable columns, exactly which rows (up to the last non-null one) are null.", "quantifier": "every element type, every value list, every validity pattern of fewer than 2^32 - 7 rows", "why_tests_cant": "Tests count blocks and never decode one.", "anchors": ["src/store/encoding/raw/primitive_enc.rs: encode_primitive_buffer, to_byte_slice"]}
{"id": "C26", "title": "Primitive column: every value is written once, in order", "statement": "For any sequence of encode() calls followed by flush(), the values in the blocks given to the sink, concatenated, are the concatenation of the values of all the buffers.", "quantifier": "every sequence of buffers, every block size, every element type", "why_tests_cant": "Tests make a single encode() call.", "anchors": ["src/store/encoding/raw/primitive_enc.rs: Encoder::encode, flush, write_block, write_remaining, chunk"]}
{"id": "C27", "title": "Primitive column: nulls keep their rows", "statement": "For any sequence of encode() calls followed by flush(), the rows described by the written blocks, concatenated, are exactly the rows of the buffers, including nulls anywhere.", "quantifier": "every sequence of nullable buffers", "why_tests_cant": "Tests never encode a null.", "anchors": ["src/store/encoding/raw/primitive_enc.rs: Encoder::encode, encode_primitive_buffer, src/store/encoding/bitmap_rle.rs: put_from"]}
{"id": "C28", "title": "Primitive column: row ids tell which rows a block holds", "statement": "The row id passed to the sink with each block is the zero-based index, in the column, of the last row stored in that block.", "quantifier": "every sequence of blocks, nullable or not", "why_tests_cant": "The test sink records row ids but no test looks at them.", "anchors": ["src/store/encoding/raw/primitive_enc.rs: write_block, write_remaining, add_rows, EncodeResult"]}
{"id": "C29", "title": "Primitive column: block sizes", "statement": "Every block written by encode() holds at least the configured block size of value bytes and less than one element more; flush() writes at most one smaller block; values held back between calls never exceed one block.", "quantifier": "every block size, every buffer sequence", "why_tests_cant": "One configuration is tested.", "anchors": ["src/store/encoding/raw/primitive_enc.rs: chunk, encode"]}
{"id": "C30", "title": "Primitive column: encode never panics on a well-formed buffer", "statement": "For any block size and any buffers with the column's nullability, encode() and flush() return normally as long as the column has fewer than 2^32 rows.", "quantifier": "every block size, every buffer sequence, both build profiles", "why_tests_cant": "The failing states need several encode() calls with particular leftovers.", "anchors": ["src/store/encoding/raw/primitive_enc.rs: encode line 117 (min_block_size - remaining_size), write_block line 74"]}
{"id": "C31", "title": "A binary block can be decoded", "statement": "From the bytes of one block written for a binary column, its row count and the column's nullability, a reader recovers exactly the byte strings and null rows of the block.", "quantifier": "every list of byte strings and nulls", "why_tests_cant": "Tests count blocks and never decode one.", "anchors": ["src/store/encoding/raw/binary_enc.rs: encode_binary_buffer", "src/store/encoding/offsets.rs: OffsetEncoder::encode"]}
{"id": "C32", "title": "Binary column: every value is written once, in order", "statement": "For any sequence of encode() calls followed by flush(), the byte strings described by the blocks given to the sink are, in order, exactly the byte strings of all buffers.", "quantifier": "every sequence of buffers, every block size", "why_tests_cant": "Tests write at most one full block per buffer.", "anchors": ["src/store/encoding/raw/binary_enc.rs: chunk (relative position used as absolute), encode, flush"]}
{"id": "C33", "title": "Binary column: encode completes on any buffer", "statement": "For any positive block size and any well-formed buffers with the column's nullability, encode() and flush() return normally.", "quantifier": "every buffer sequence, both build profiles", "why_tests_cant": "The failing buffers need two full blocks in one buffer or more than 128 items in a block.", "anchors": ["src/store/encoding/raw/binary_enc.rs: chunk, write_block", "src/store/encoding/offsets.rs: OffsetEncoder::encode"]}
{"id": "C34", "title": "Binary column: row ids tell which rows a block holds", "statement": "The row id passed to the sink with each block is the zero-based index of the last row stored in it.", "quantifier": "every sequence of blocks, nullable or not", "why_tests_cant": "No test looks at row ids.", "anchors": ["src/store/encoding/raw/binary_enc.rs: write_block, write_remaining, EncodeResult"]}
{"id": "C35", "title": "Binary column: nulls keep their rows", "statement": "For any sequence of encode() calls followed by flush(), the validity data of the blocks, concatenated, describes exactly the rows of the buffers.", "quantifier": "every sequence of nullable buffers", "why_tests_cant": "Tests never encode a null; the failure needs a reuse of the leftover buffer.", "anchors": ["src/store/encoding/raw/binary_enc.rs: encode line 144 (remaining.clear)", "src/store/indexing_buffer.rs: Bitmap::clear"]}
{"id": "C36", "title": "Binary column: leftovers stay below a block", "statement": "Between calls the encoder holds back strictly less than one block of data bytes, so the size computation at the start of encode() never underflows; blocks written by encode() from the leftovers hold at least the block size.", "quantifier": "every block size above 0, every buffer sequence", "why_tests_cant": "An invariant over all histories.", "anchors": ["src/store/encoding/raw/binary_enc.rs: encode lines 128-145"]}
{"id": "C37", "title": "Flushing writes pending data exactly once", "statement": "flush() on an encoder with nothing held back writes no block; flush() after flush() writes nothing more.", "quantifier": "both encoders, every history", "why_tests_cant": "Tests flush once.", "anchors": ["src/store/encoding/raw/primitive_enc.rs: flush", "src/store/encoding/raw/binary_enc.rs: flush"]}
{"id": "C38", "title": "A sink error stops the encoder and is reported", "statement": "If the sink fails on some block, encode() or flush() returns the error, no further block is offered to the sink in that call, and the blocks offered so far are exactly the first blocks of the error-free run.", "quantifier": "both encoders, every failure point", "why_tests_cant": "Tests use a sink that never fails.", "anchors": ["src/store/encoding/raw/primitive_enc.rs: write_block ?", "src/store/encoding/raw/binary_enc.rs: write_block ?", "src/store/segment_writer.rs: ColumnWriter::write"]}
{"id": "C39", "title": "Row counting never wraps", "statement": "When the number of rows of a column would pass 2^32 - 1 the encoder panics before the block is offered to the sink; the row id given to the sink is never the result of a wrapped addition.", "quantifier": "every history, both build profiles", "why_tests_cant": "Needs 2^32 rows.", "anchors": ["src/store/encoding/raw/primitive_enc.rs: add_rows", "src/store/encoding/raw/binary_enc.rs: add_rows"]}
{"id": "C40", "title": "The block writer's position is the file length", "statement": "After any sequence of successful write_block calls, the file holds the concatenation of the blocks in order and pos() is its length; each block occupies the range between pos() before and pos() after its write.", "quantifier": "every sequence of blocks", "why_tests_cant": "Tests use one random sequence.", "anchors": ["src/store/io/default_block_writer.rs: Writer::{new,write_block,pos}"]}
{"id": "C41", "title": "A failed block write cannot go unnoticed", "statement": "Under any schedule of delayed background write errors, if every write_block and the final flush return success then the file holds every block; if some background write fails, some later write_block or flush reports an error.", "quantifier": "every fault schedule", "why_tests_cant": "Tests never inject I/O errors.", "anchors": ["src/store/io/default_block_writer.rs: Writer::write_block, flush"]}
{"id": "C42", "title": "The block index brackets every block", "statement": "After any sequence of blocks written through the block sink, the i-th index entry holds the row id given with block i and the file position just after it, so block i is exactly the bytes between entry i-1 (or the column start) and entry i.", "quantifier": "every sequence of blocks, every starting position", "why_tests_cant": "The index is never read back by a test.", "anchors": ["src/store/block_sink.rs: BlockSinkImpl::write_block", "src/store/block_index.rs: index_block, clear"]}
{"id": "C43", "title": "read_block returns exactly the requested bytes or an error", "statement": "read_block(start,end) returns the bytes [start,end) of the file when start <= end and either start = end or end is within the file; in every other case it returns an error; it never panics and never returns fewer or different bytes.", "quantifier": "every file, every range including reversed and out-of-file ones, both build profiles", "why_tests_cant": "Tests read only valid ranges.", "anchors": ["src/store/io/unix_disk_block_reader.rs: Reader::read_block", "src/store/io/mod.rs: asyncify"]}
{"id": "C44", "title": "read_blocks yields results in request order under every schedule", "statement": "Whatever the order in which background reads complete, the stream yields exactly one result per requested op, in the order of the ops, each carrying its own op_info and the result read_block gives for its range; a failed op does not affect the others; at most two reads are pending at any time.", "quantifier": "every list of ops, every completion schedule", "why_tests_cant": "Tests see one schedule of the runtime.", "anchors": ["src/store/io/unix_disk_block_reader.rs: Reader::read_blocks, BLOCK_BUFFER_SIZE", "src/store/io/mod.rs: BlockReader"]}
{"id": "C45", "title": "Write then read round trip", "statement": "Blocks written with the block writer and read back with read_blocks using their recorded positions come back byte for byte, in order, with the caller's op_info.", "quantifier": "every sequence of blocks, every schedule", "why_tests_cant": "One random sequence is tested.", "anchors": ["src/store/io/mod.rs: tests::io_roundtrip", "src/store/io/default_block_writer.rs", "src/store/io/unix_disk_block_reader.rs"]}
{"id": "C46", "title": "Segment files are well framed", "statement": "Whatever columns are written, after close() the data file starts with MEERKAT_DATA1, the index file starts with MEERKAT_IDX1, and its last 8 bytes are the little-endian position at which the encoded metadata starts and from which it extends up to those 8 bytes.", "quantifier": "every sequence of columns and buffers, every metadata", "why_tests_cant": "No test reads a segment back.", "anchors": ["src/store/segment_writer.rs: SegmentWriter::new, write_headers, close"]}
{"id": "C47", "title": "Columns of a segment do not interfere", "statement": "Writing several columns one after the other gives a data file that is the header followed by each column's blocks, in order, each column's blocks being those it would have produced alone; the block index of a column only ever contains that column's blocks.", "quantifier": "every sequence of columns", "why_tests_cant": "Tests write one column.", "anchors": ["src/store/segment_writer.rs: new_binary_column_writer, ColumnWriter::write, close"]}
{"id": "C48", "title": "Metadata lists exactly the closed columns", "statement": "At close(), the metadata contains for each column name closed so far the description and layout given by the last column closed under that name, nothing else, and the segment's identity fields are those given at creation.", "quantifier": "every sequence of column writers, closed or abandoned", "why_tests_cant": "Tests write one column.", "anchors": ["src/store/segment_writer.rs: ColumnWriter::close, SegmentWriter::new"]}
{"id": "C49", "title": "Metadata survives encoding, whatever the map order", "statement": "Decoding the metadata bytes yields the same metadata, for every order in which the hash maps are iterated.", "quantifier": "every metadata value, every iteration order", "why_tests_cant": "HashMap iteration order is random per process; tests never decode.", "anchors": ["src/store/segment_writer.rs: close (encode_to_vec)", "src/store/segment_metadata.rs"]}
{"id": "C50", "title": "Segment file names are unique and safe", "statement": "Different segment ids give different data and index file names; a name is 22 URL-safe base64 characters plus a 4-character extension and contains no path separator; data and index files never share a name.", "quantifier": "every pair of 128-bit ids", "why_tests_cant": "2^256 pairs.", "anchors": ["src/store/segment_writer.rs: SegmentWriter::new lines 144-152"]}
{"id": "C51", "title": "Encoder selection is total and honest", "statement": "For every column kind and encoding, the constructor either returns an encoder or an error; integer and float columns accept only Raw, binary columns only Raw and Snappy.", "quantifier": "all five constructors, all five encodings", "why_tests_cant": "No test asks for an unsupported encoding.", "anchors": ["src/store/encoding/mod.rs: new_i32_encoder .. new_binary_encoder"]}
{"id": "C52", "title": "An accepted encoding stores the data", "statement": "If the encoder constructor accepts an encoding for a binary column, the blocks it writes determine the values encoded.", "quantifier": "every accepted encoding, every buffer", "why_tests_cant": "A statement about all pairs of inputs.", "anchors": ["src/store/encoding/snappy/snappy_enc.rs: Encoder::encode"]}
{"id": "C53", "title": "The index file locates a column's blocks", "statement": "After a column is closed, the block index layout in the metadata is the range of the index file that holds the block offsets and row ids of the column.", "quantifier": "every column", "why_tests_cant": "No test reads the index.", "anchors": ["src/store/block_index.rs: BlockIndex::flush"]}
{"id": "C54", "title": "Synced segments survive a crash", "statement": "If close() and sync() returned success, every crash afterwards leaves both files complete; and at every crash point, if the index file on disk is complete then so is the data file it describes.", "quantifier": "every crash point, every order of background write-back", "why_tests_cant": "Crash points and write-back orders cannot be enumerated by tests.", "anchors": ["src/store/segment_writer.rs: SegmentWriter::close, sync", "src/store/io/default_block_writer.rs: flush, sync"]}
{"id": "C55", "title": "Seed list parsing", "statement": "The seeds option is split at commas and trimmed: the configured list has no entry containing a comma or surrounding blanks, joining the entries gives back the option up to blanks, and when the option is absent the list is empty.", "quantifier": "every option string", "why_tests_cant": "No tests.", "anchors": ["src/main.rs: main lines 57-66"]}
{"id": "C56", "title": "A nullability mismatch is always detected", "statement": "Giving an encoder a buffer whose nullability differs from the column's makes encode() panic; it never writes a block whose layout disagrees with the column's nullability.", "quantifier": "both encoders, every buffer", "why_tests_cant": "No test mixes nullabilities.", "anchors": ["src/store/encoding/raw/primitive_enc.rs: encode", "src/store/encoding/raw/binary_enc.rs: encode", "src/store/indexing_buffer.rs: append_from asserts"]}
{"id": "C57", "title": "Row ids increase", "statement": "The row ids given to the block sink with the successive blocks of a column strictly increase, however the run ends.", "quantifier": "both encoders, every history, both build profiles", "why_tests_cant": "A statement about every history, including those that end in a panic.", "anchors": ["src/store/encoding/raw/primitive_enc.rs: write_block, write_remaining", "src/store/encoding/raw/binary_enc.rs: write_block, write_remaining"]}
{"id": "C58", "title": "A failed write never goes unnoticed before close", "statement": "If a segment was created and every call on it, up to and including close(), returned success, then no background write of either file failed and none is pending.", "quantifier": "every history of columns and calls, every behaviour of the operating system", "why_tests_cant": "Background writes report their failure on a later call; tests run on a file system that never fails.", "anchors": ["src/store/segment_writer.rs: new, ColumnWriter::write, close, SegmentWriter::close", "src/store/io/default_block_writer.rs: write_block, flush"]}
{"id": "C59", "title": "A successful sync means the data is on disk", "statement": "If every call on a segment succeeded and then sync() succeeded, no background write failed: all bytes given to both files were written and synced.", "quantifier": "every history, closed or not before the sync, every behaviour of the operating system", "why_tests_cant": "sync consumes the writer, so a failure it does not report can never be seen; tests never make a write fail.", "anchors": ["src/store/segment_writer.rs: SegmentWriter::sync", "src/store/io/default_block_writer.rs: sync"]}
{"id": "C60", "title": "A column of a synced segment can be read back", "statement": "If every call on a segment up to close() and sync() succeeded, then after any crash the values of each binary column can be read back exactly, in order, from the data file with the block index the column had when it was closed, under every schedule of the reads.", "quantifier": "every history, every crash, every order in which reads complete", "why_tests_cant": "It combines buffers, encoder, segment writer, file, crash and reader; no test goes further than one of them.", "anchors": ["src/store/segment_writer.rs: ColumnWriter::write, close, SegmentWriter::close, sync", "src/store/encoding/raw/binary_enc.rs: encode, flush", "src/store/io/default_block_writer.rs: write_block", "src/store/block_index.rs"]}
{"id": "C61", "title": "Segments do not disturb each other", "statement": "Segments with different ids written in one directory, their operations interleaved in any way and failing in any way, leave in each one's two files exactly what they would leave if it were written alone.", "quantifier": "every interleaving of any number of segments, every failure, every earlier content of the directory", "why_tests_cant": "Interleavings of several segments are not tested at all.", "anchors": ["src/store/segment_writer.rs: SegmentWriter::new, new_binary_column_writer, close, sync", "src/store/io/default_block_writer.rs: new"]}
{"id": "C62", "title": "Creating a segment destroys nothing", "statement": "SegmentWriter::new changes no file that existed before: with a new id it only adds two files, with an id in use it fails.", "quantifier": "every content of the directory, every id", "why_tests_cant": "No test creates a segment twice.", "anchors": ["src/store/segment_writer.rs: SegmentWriter::new", "src/store/io/default_block_writer.rs: Writer::new"]}
{"id": "C63", "title": "Starting and stopping servers never panics", "statement": "Calls of start() and stop() on the servers of a process, in any order and any number of times, never panic, and each call after the first start logs its line.", "quantifier": "every history of calls on any number of servers", "why_tests_cant": "No test starts a server; the logging set-up is global to the process, so it fails only from the second start on.", "anchors": ["src/server/mod.rs: Meerkat::start, stop, init_logging"]}
{"id": "C64", "title": "main passes the arguments on", "statement": "In a new process main never panics once the arguments are parsed; it prints one line with the version and profile and starts one server, whose path and port are those of the arguments and whose seeds are the entries of the seeds option.", "quantifier": "every argument, every build information", "why_tests_cant": "main has no test.", "anchors": ["src/main.rs: main", "src/build/mod.rs: short_info", "src/server/mod.rs: Meerkat::new, start"]}
{"id": "C65", "title": "A refused block can be offered again", "statement": "If a call of encode() or flush() returned the error of the sink, repeating it with a sink that accepts everything offers the blocks, with the row ids, that the first call had yet to offer.", "quantifier": "both encoders, every state, every sink, every point at which it fails", "why_tests_cant": "The test sink never fails.", "anchors": ["src/store/encoding/raw/primitive_enc.rs: encode, flush, write_block, write_remaining", "src/store/encoding/raw/binary_enc.rs: encode, flush, write_block, write_remaining"]}
{"id": "C66", "title": "Data blocks are about 128 KiB", "statement": "In a raw column of a segment every block but the last holds at least 128 KiB of values (io/mod.rs, and the comment on BLOCK_SIZE), and none exceeds 128 KiB by the longest value of the column or more.", "quantifier": "every sequence of buffers, however the run ends", "why_tests_cant": "No test looks at block sizes; the constant and its comment disagree.", "anchors": ["src/store/segment_writer.rs: BLOCK_SIZE", "src/store/encoding/raw/binary_enc.rs: chunk, encode, flush", "src/store/io/mod.rs: module comment"]}
{"id": "C67", "title": "A dropped call leaves the writer usable", "statement": "If the future of a call on a block writer is dropped while it waits, the position of the writer is still the end of its file, so the index entries of blocks written later describe exactly those blocks.", "quantifier": "every history of calls, each awaited to its end or dropped at any await, every behaviour of the operating system", "why_tests_cant": "Dropping futures (timeouts, select) is ordinary in async code, and no test does it.", "anchors": ["src/store/io/default_block_writer.rs: write_block, flush, pos", "src/store/segment_writer.rs: ColumnWriter::write"]}
{"id": "C68", "title": "The metadata counts what was written", "statement": "In the metadata of a closed segment, num_values and num_nulls of each column count the values and the nulls that were written to it.", "quantifier": "every history of a segment", "why_tests_cant": "No test reads the metadata back.", "anchors": ["src/store/segment_writer.rs: ColumnWriter::close lines 295-308", "src/store/segment_metadata.proto: ColumnMeta"]}
{"id": "C69", "title": "The files of a segment determine its columns", "statement": "Two segments closed without an error that left the same data file and the same index file have the same columns with the same values.", "quantifier": "every pair of histories", "why_tests_cant": "A statement about pairs of histories; nothing reads segments yet.", "anchors": ["src/store/segment_writer.rs: ColumnWriter::close, SegmentWriter::close", "src/store/block_index.rs"]}
{"id": "C70", "title": "A column takes little more space than its values", "statement": "The blocks written for a column have, together, at most the bytes of its values, five bytes for each block of a primitive column, six for each block and four for each item of a binary column, and for nullable columns two more bytes for each block and one for every seven rows; and there is at most one block that is not full.", "quantifier": "both encoders, every sequence of buffers of fewer than 2^32 - 7 rows, every positive block size that is a multiple of the element size, however the run ends", "why_tests_cant": "Tests compare a few blocks byte by byte; none looks at how much is written for a long column.", "anchors": ["src/store/encoding/raw/primitive_enc.rs: encode, encode_primitive_buffer", "src/store/encoding/raw/binary_enc.rs: chunk, encode, encode_binary_buffer", "src/store/encoding/offsets.rs: encode", "src/store/encoding/bitmap_rle.rs: flush"]}
{"id": "C71", "title": "What is encoded after a flush is written without what came before", "statement": "After a flush() that returned normally, encoding further buffers and flushing again gives the sink blocks that hold the rows of those buffers and none of the rows given before.", "quantifier": "both encoders, every state of the encoder, every sequence of further buffers, both build profiles", "why_tests_cant": "Tests flush once, at the end.", "anchors": ["src/store/encoding/raw/primitive_enc.rs: flush, encode, write_remaining", "src/store/encoding/raw/binary_enc.rs: flush, encode, write_remaining"]}
{"id": "C72", "title": "Overflow checks do not change what is written", "statement": "A build without overflow checks does exactly what a build with them does (results, blocks, files, decoded values), in every case in which the latter does not panic in an overflow check.", "quantifier": "both encoders in every state with every sink and every sequence of buffers; every history of a segment, and of any number of segments in a directory, with every behaviour of the operating system; every bitmap and every bytes given to the bitmap decoder; every range that is not inverted given to the block reader; every call of the functions of buffers, varints and packed lengths, and every rounding up to a power of two", "why_tests_cant": "Tests run in one profile, the database is deployed in the other.", "anchors": ["src/store/encoding/raw/primitive_enc.rs: encode, flush", "src/store/encoding/raw/binary_enc.rs: encode, flush", "src/store/segment_writer.rs", "src/store/encoding/util.rs: round_upto_power_of_2 (debug_assert)", "src/store/encoding/bitmap_rle.rs"]}
{"id": "C73", "title": "How rows are divided into buffers does not matter", "statement": "Two sequences of buffers with the same rows in the same order make an encoder of the same block size write the same blocks, with the same bytes and the same row ids.", "quantifier": "both encoders, every pair of sequences of buffers, every positive block size", "why_tests_cant": "A statement about pairs of runs; a test has one sequence of buffers.", "anchors": ["src/store/encoding/raw/primitive_enc.rs: encode, flush, write_remaining", "src/store/encoding/raw/binary_enc.rs: encode, chunk, flush, write_remaining"]}
{"id": "C74", "title": "The bitmap decoder reads the format and nothing else", "statement": "A compressed bitmap is a sequence of frames: a varint header 2n followed by one byte stands for n copies of it, a header 2n+1 followed by n bytes for those bytes. The decoder returns normally exactly when its input is such a sequence, every bit has a position below 2^32 and the output has room for the set bits; it then writes the positions of the set bits. In every other case it panics.", "quantifier": "every byte string, every output slice, both build profiles", "why_tests_cant": "Tests decode only what the encoder has just written.", "anchors": ["src/store/encoding/bitmap_rle.rs: Decoder::decode, read_frame, decode_run, decode_bitmap, decode_byte, decode", "src/store/encoding/varint.rs: decode_varint"]}
{"id": "C75", "title": "Any row can be looked up by its number", "statement": "The row ids lead to the rows: for every row number r of a column, the first block whose row id is not below r, read at the position r minus the row after the row id of the block before, holds row r.", "quantifier": "both encoders, every sequence of buffers with fewer than 2^32 - 8 rows, every positive block size; in a segment, also after a crash that follows sync()", "why_tests_cant": "The tests compare the row ids of a few blocks with numbers; nothing uses them to find a row.", "anchors": ["src/store/encoding/raw/primitive_enc.rs: encode, write_remaining, add_rows", "src/store/encoding/raw/binary_enc.rs: encode, write_remaining, add_rows", "src/store/block_index.rs", "src/store/segment_writer.rs"]}
{"id": "C76", "title": "A failed call leaves the writers usable", "statement": "After calls that failed, the positions kept by the writers are still those of the files: a close() of the segment that is repeated and succeeds leaves an index file whose last eight bytes locate the metadata, and a column written with success after another one failed has a block index that brackets its blocks.", "quantifier": "every history of a segment whatever its calls returned, every behaviour of the operating system, both build profiles", "why_tests_cant": "No test makes a write fail, and the damage shows only later, in calls that succeed.", "anchors": ["src/store/io/default_block_writer.rs: write_block, flush, pos", "src/store/segment_writer.rs: close", "src/store/block_index.rs"]}
{"id": "C77", "title": "A buffer without rows changes nothing", "statement": "encode() of a buffer without rows returns normally, gives the sink nothing and leaves the encoder as it was; so such buffers can be left out of any sequence of calls.", "quantifier": "both encoders, every sequence of encode() and flush() calls, every sink, every positive block size, both build profiles", "why_tests_cant": "Tests encode one buffer with rows.", "anchors": ["src/store/encoding/raw/primitive_enc.rs: encode, chunk", "src/store/encoding/raw/binary_enc.rs: encode, chunk", "src/store/indexing_buffer.rs: append_from"]}
{"id": "C78", "title": "A bitmap has one compressed form", "statement": "The RLE encoder divides the bytes of a bitmap in one way: every longest run of three or more equal bytes is a run frame, what lies between two of them is one bitmap frame, and every header is as short as possible. So two sequences of bits are compressed to the same bytes exactly if they are the same once filled up with zeros to whole bytes.", "quantifier": "every bit sequence, both build profiles", "why_tests_cant": "Tests decode what was encoded, which does not show that runs are found and not cut.", "anchors": ["src/store/encoding/bitmap_rle.rs: Encoder::put, append, flush"]}
{"id": "C79", "title": "Primitive column: leftovers stay below a block", "statement": "Between calls the encoder holds back less than one block of values.", "quantifier": "every element type, every positive block size, nullable or not, every sequence of encode() and flush() calls that return, every sink, both build profiles", "why_tests_cant": "An invariant over all histories.", "anchors": ["src/store/encoding/raw/primitive_enc.rs: encode, chunk", "src/store/indexing_buffer.rs: PrimitiveBuffer::append_from"]}
{"id": "C80", "title": "A segment survives dropped calls", "statement": "If futures of calls on a segment writer or on its column writers are dropped while they wait, a later close() that succeeds leaves an index file whose last eight bytes locate the metadata, and a column written with success later has a block index that brackets its blocks.", "quantifier": "every history of a segment, each call awaited to its end, whatever it returned, or dropped at any await; every behaviour of the operating system, both build profiles", "why_tests_cant": "Tests await every call, and the damage shows only in later calls, which succeed.", "anchors": ["src/store/io/default_block_writer.rs: write_block, flush", "src/store/segment_writer.rs: ColumnWriter::write, ColumnWriter::close, SegmentWriter::close", "src/store/block_index.rs"]}
{"id": "C81", "title": "An index file that a crash left incomplete does not look complete", "statement": "After close(), a crash before the sync leaves either the whole index file or one that a reader recognises as incomplete: without the signature, without a position in its last eight bytes, or without metadata that names a segment at that position.", "quantifier": "every history of a segment without a failing call that ends with a close; every content a crash can leave of the index file", "why_tests_cant": "Tests do not crash the machine; what a crash leaves depends on the file system, and a wrong file can be read without any error.", "anchors": ["src/store/segment_writer.rs: SegmentWriter::close, SegmentWriter::sync", "src/store/segment_metadata.proto"]}
{"id": "C82", "title": "The RLE encoder can be flushed more than once", "statement": "If flush() is called several times, with or without more bits in between, encoded_values() is the compressed form of all bits put so far.", "quantifier": "every sequence of bits and flushes, both build profiles", "why_tests_cant": "Tests flush every encoder once; a second flush changes nothing that a test of one block could see.", "anchors": ["src/store/encoding/bitmap_rle.rs: Encoder::flush, Encoder::put"]}
{"id": "C83", "title": "Reading a segment that is still being written gives no wrong bytes", "statement": "What read_block() returns, and what a read_blocks() stream yields, for a file of a segment that is still being written are the bytes the file has in that range when the segment is closed; a range within the reader's len() can be read from the moment the reader was opened.", "quantifier": "every history whatever fails, every moment of it, every content the successive system calls of a read may find, both build profiles", "why_tests_cant": "Tests read files that are complete.", "anchors": ["src/store/io/unix_disk_block_reader.rs: read_block, Reader::new, len", "src/store/io/default_block_writer.rs: write_block, flush", "src/store/segment_writer.rs: write, close"]}
{"id": "C84", "title": "A block can be read as soon as write_block() has returned", "statement": "When write_block() has succeeded, a reader of the file gets the block from the range between the positions before and after the call.", "quantifier": "every sequence of blocks, every moment at which the background writes are done", "why_tests_cant": "Tests flush before they read; whether a block is there without depends on the schedule of the threads.", "anchors": ["src/store/io/default_block_writer.rs: write_block", "src/store/io/unix_disk_block_reader.rs: read_block"]}
{"id": "C85", "title": "append_from refuses an inverted range", "statement": "append_from(src, start, end, pos) of a primitive or binary buffer panics if start > end.", "quantifier": "every pair of buffers, every inverted range, both build profiles", "why_tests_cant": "Only special buffers show it, and only without overflow checks.", "anchors": ["src/store/indexing_buffer.rs: PrimitiveBuffer::append_from, BinaryBuffer::append_from"]}
{"id": "C86", "title": "A column that the index file lists is in the data file", "statement": "If the index file of a segment looks complete and lists a column, every block of the column is in the data file.", "quantifier": "every history of calls, every behaviour of the two files, both build profiles, whatever close() returned", "why_tests_cant": "Whoever opens the segment later has only the two files, not the results of the calls; index and data are flushed one after the other.", "anchors": ["src/store/segment_writer.rs: SegmentWriter::close", "src/store/segment_writer.rs: ColumnWriter::close"]}
{"id": "C87", "title": "The last row id tells the number of rows", "statement": "The row id of the last block of a column, plus one, is the number of rows of the column (no block: no rows); so the columns of a segment, which have the same rows, end with the same row id.", "quantifier": "every sequence of buffers and a flush, both encoders, nullable or not, every block size, both build profiles", "why_tests_cant": "Needs the row ids of a whole column; tests look at none.", "anchors": ["src/store/encoding/raw/primitive_enc.rs: write_block, write_remaining, add_rows", "src/store/encoding/raw/binary_enc.rs: write_block, write_remaining, add_rows"]}
{"id": "C88", "title": "A column index is given the buffers that are stored", "statement": "Whatever a column index does and whichever calls fail, it is given exactly the buffers that were encoded without an error, each once and in order; what is written to the data file is what would be written without it; write() succeeds exactly if both the encoder and the index did; close() records the layout that the index returned, and records nothing if it fails.", "quantifier": "every implementation of ColumnIndex, every sequence of buffers, every operating system, both build profiles", "why_tests_cant": "Nothing implements the trait, so no test reaches these branches.", "anchors": ["src/store/index/mod.rs: ColumnIndex", "src/store/segment_writer.rs: ColumnWriter::write, close"]}
{"id": "C89", "title": "A column that is to be indexed has an index", "statement": "In the metadata, a column has a column index layout exactly if its index type is not NoIndex.", "quantifier": "every history of a segment, every column description", "why_tests_cant": "The only test of a segment uses NoIndex and never reads the metadata.", "anchors": ["src/store/segment_writer.rs: new_binary_column_writer, ColumnWriter::close"]}
{"id": "C90", "title": "The same calls leave the same files", "statement": "If the same columns are written with the same calls to two segments with the same description and no call fails, their data files and their index files are the same, byte for byte.", "quantifier": "every list of columns and calls, any two operating systems, build profiles and iteration orders of hash maps", "why_tests_cant": "Compares two runs; HashMap iterates in an order that changes from run to run.", "anchors": ["src/store/segment_writer.rs: SegmentWriter::close", "src/store/segment_metadata.rs: SegmentMeta, Metadata"]}
{"id": "C91", "title": "A bitmap takes memory in proportion to its bits", "statement": "A bitmap has room for its bits, and it takes less than one byte for four bits unless it still has the size it was made with or was given by clear().", "quantifier": "every history of new, with_capacity, append, append_from and clear", "why_tests_cant": "No test fills the 1024 bytes of a new bitmap, so none sees it grow.", "anchors": ["src/store/indexing_buffer.rs: Bitmap::append, append_from, clear"]}
{"id": "C92", "title": "A creation that stops leaves the directory as it was", "statement": "If SegmentWriter::new() returns an error, or if its future is dropped, the directory is as it was before.", "quantifier": "every content of the directory, every behaviour of the operating system, every await at which the future can be dropped", "why_tests_cant": "Tests create segments in fresh directories where nothing fails, and await every call.", "anchors": ["src/store/segment_writer.rs: SegmentWriter::new, write_headers", "src/store/io/default_block_writer.rs: Writer::new"]}
{"id": "C93", "title": "A dropped sync does no harm", "statement": "If the future of sync() is dropped, both files end with the same bytes as without the call, nothing written or synced before is lost, an error of a write not yet reported is still reported by the next flush, and a crash leaves nothing that it could not have left without the call.", "quantifier": "every history of a segment, whatever its calls returned; every await of sync; every behaviour of the operating system", "why_tests_cant": "Tests await sync() and do not crash the machine.", "anchors": ["src/store/segment_writer.rs: SegmentWriter::sync", "src/store/io/default_block_writer.rs: Writer::sync"]}
{"id": "C94", "title": "The accessors of buffers do what their comments say", "statement": "len() and num_values() of a PrimitiveBuffer both return the number of rows including nulls, len() of a BinaryBuffer that of the rows that are not null and num_values() that of all rows, len() of a BoolBuffer that of all rows; validity() panics if the buffer is not nullable.", "quantifier": "every element type, every sequence of rows, both nullability settings", "why_tests_cant": "No test calls len() of a PrimitiveBuffer with nulls, or validity() of a buffer that is not nullable.", "anchors": ["src/store/indexing_buffer.rs: PrimitiveBuffer::len, num_values, validity; BinaryBuffer::len, num_values, validity; BoolBuffer::len, validity"]}
{"id": "C95", "title": "A range that is not in the file is refused without ending the process", "statement": "read_block() of a range that is not in the file returns an error, however long the range is, in a process whose memory suffices for the whole file.", "quantifier": "every file, every range including reversed ones, every amount of memory not below the length of the file, both build profiles", "why_tests_cant": "Tests read only valid ranges.", "anchors": ["src/store/io/unix_disk_block_reader.rs: Reader::read_block"]}
{"id": "C96", "title": "A damaged byte of a data file can be noticed", "statement": "No two different columns are written as blocks with the same row ids and lengths that differ in a single byte, so that a reader can tell when one byte of the data file was changed; and a file that lost bytes at its end is noticed when a block that had them is read.", "quantifier": "every column of byte strings or primitive values, both nullability settings, every positive block size; every file and every number of lost bytes", "why_tests_cant": "Tests never damage a file.", "anchors": ["src/store/encoding/raw/binary_enc.rs: encode_binary_buffer", "src/store/encoding/raw/primitive_enc.rs: encode_primitive_buffer", "src/store/io/unix_disk_block_reader.rs: Reader::read_block"]}
{"id": "C97", "title": "Segments with the same id do not mix their bytes", "statement": "If a segment is created while one with the same id is still being written in the same directory, then whatever calls follow, the data file holds in the end what one of the two segments wrote, from its beginning to its end.", "quantifier": "every content of the directory, every history of both segments and of any others, every behaviour of the operating system, both build profiles", "why_tests_cant": "No test creates a segment twice, still less while the first is open.", "anchors": ["src/store/segment_writer.rs: SegmentWriter::new, write_headers", "src/store/io/default_block_writer.rs: Writer::new"]}
{"id": "C98", "title": "A call that panics leaves the buffer as it was", "statement": "If append(), append_null() or append_from() of a buffer or of a bitmap panics, the buffer is the same as before the call.", "quantifier": "every content of the buffers, every argument, both nullability settings, both build profiles", "why_tests_cant": "Tests that expect a panic end with it and never look at the buffer afterwards.", "anchors": ["src/store/indexing_buffer.rs: PrimitiveBuffer, BinaryBuffer, BoolBuffer, Bitmap: append, append_null, append_from", "src/store/encoding/raw/primitive_enc.rs: encode"]}
{"id": "C99", "title": "A write that panics leaves the column as it was", "statement": "If ColumnWriter::write() panics because the nullability of the buffer is not the column's, the column and the segment go on as if the call had not been made: nothing of the buffer is stored, and the rows taken before still are.", "quantifier": "every segment, every buffer, every state of the column, both nullability settings, both build profiles", "why_tests_cant": "No test mixes nullabilities, and a test that expects a panic ends with it.", "anchors": ["src/store/segment_writer.rs: ColumnWriter::write, close", "src/store/encoding/raw/binary_enc.rs: encode, flush", "src/store/indexing_buffer.rs: BinaryBuffer::append_from"]}
{"id": "C100", "title": "The values of a column do not decide its layout", "statement": "Two columns with nulls in the same places, and with binary values of the same lengths, are encoded alike: the calls return or fail the same, there are as many blocks with the same row ids and lengths, and the blocks differ only in the bytes of the values, which stand in the same places. For primitive columns this holds even between types of the same size.", "quantifier": "every pair of such columns, of any number of buffers and rows, both nullability settings, every block size, both build profiles", "why_tests_cant": "It relates two runs of the encoder; a test looks at one. A comparison with a value, or a value read where a length is meant, breaks it for some pair only.", "anchors": ["src/store/encoding/raw/primitive_enc.rs: encode, flush, write_block", "src/store/encoding/raw/binary_enc.rs: encode, flush, write_block", "src/store/indexing_buffer.rs: PrimitiveBuffer, BinaryBuffer"]}
{"id": "C101", "title": "The bytes of a column do not depend on the machine", "statement": "The same primitive column is written as the same blocks on a little endian and on a big endian machine, so that a segment written on one can be read on the other.", "quantifier": "every column of i32, i64 or u64, of any number of buffers and rows, both nullability settings, every block size, both build profiles", "why_tests_cant": "The tests run on one machine, and compare with what that machine writes.", "anchors": ["src/store/encoding/raw/primitive_enc.rs: to_byte_slice, write_block"]}
{"id": "C102", "title": "A 32-bit machine reads the same bytes", "statement": "Where usize has 32 bits, read_block() returns what it returns where usize has 64 bits, or an error; it never returns other or fewer bytes than asked for.", "quantifier": "every file, every range, both build profiles", "why_tests_cant": "The tests run on a 64-bit machine, and on any machine they would need a file of more than 4 GiB.", "anchors": ["src/store/io/unix_disk_block_reader.rs: read_block"]}
{"id": "C103", "title": "A synced segment is found after a crash", "statement": "After close() and sync() of a segment have succeeded, a crash leaves both of its files in the directory, under their names and complete.", "quantifier": "every segment, every history of calls, every directory, every crash that POSIX allows", "why_tests_cant": "Tests cannot crash the machine, and most file systems keep the name of a file when its bytes are synced.", "anchors": ["src/store/segment_writer.rs: SegmentWriter::new, sync", "src/store/io/default_block_writer.rs: new, sync"]}
{"id": "C104", "title": "A server starts even if nobody reads its output", "statement": "main() starts the server with the configuration given, whatever becomes of writes to the standard output.", "quantifier": "every state of the standard output, all arguments, all build information", "why_tests_cant": "No test runs main(), and a test harness reads the output.", "anchors": ["src/main.rs: main", "src/server/mod.rs: Meerkat::start"]}
{"id": "C105", "title": "Decoding a bitmap takes time in proportion to its input and output", "statement": "Whatever bytes are given to the bitmap decoder, it returns or panics after a number of loop iterations bounded by a constant times the length of the input plus the length of the output slice, however long a run a header announces.", "quantifier": "all inputs, well formed or not, all output slices, both build profiles", "why_tests_cant": "The tests decode what the encoder wrote; none measures the work done for a header announcing a long run.", "anchors": ["src/store/encoding/bitmap_rle.rs: decode", "src/store/encoding/bitmap_rle.rs: Decoder::decode", "src/store/encoding/bitmap_rle.rs: Decoder::decode_run", "src/store/encoding/bitmap_rle.rs: Decoder::decode_byte"]}
{"id": "C106", "title": "An encoder holds back fewer rows than a block has bytes", "statement": "Between calls, the rows an encoder has taken but not yet written are fewer than the bytes of a block, so that its memory does not grow with the column.", "quantifier": "every sequence of encode and flush calls that succeed, every block size, both encoders, nullable or not", "why_tests_cant": "Tests look at what is written, not at what is held back, and use few empty strings and nulls.", "anchors": ["src/store/encoding/raw/binary_enc.rs: Encoder::encode", "src/store/encoding/raw/binary_enc.rs: chunk", "src/store/encoding/raw/primitive_enc.rs: Encoder::encode", "src/store/indexing_buffer.rs: BinaryBuffer::append_from"]}
{"id": "C107", "title": "Every column that was closed is listed", "statement": "The metadata of a segment lists each column that was closed without an error.", "quantifier": "every sequence of columns with any names, whatever fails", "why_tests_cant": "Tests write one column.", "anchors": ["src/store/segment_writer.rs: ColumnWriter::close", "src/store/segment_writer.rs: SegmentWriter::new_binary_column_writer"]}
{"id": "C108", "title": "A column that does not fit its declaration is refused", "statement": "Writing a column of byte strings that is declared to be of another type, or a column whose number of rows is not the one announced for the segment, is refused with an error.", "quantifier": "every declared type, every announced number of rows, all columns", "why_tests_cant": "Tests declare what they write.", "anchors": ["src/store/segment_writer.rs: SegmentWriter::new_binary_column_writer", "src/store/segment_writer.rs: SegmentWriter::new", "src/store/segment_writer.rs: ColumnWriter::close"]}
{"id": "C109", "title": "Declaring a column nullable adds the validity and nothing else", "statement": "A nullable column is encoded like the column of its values: when its calls return so do those for the column of its values, not nullable; there are as many blocks, each with the bytes of the other followed by the validity. For a column without nulls the row ids are the same as well.", "quantifier": "every column of any number of buffers and rows with any nulls, flushed in between or not, every positive block size, both build profiles, both encoders", "why_tests_cant": "It relates two runs of the encoder; the tests of nullable and of other columns are separate and use different values.", "anchors": ["src/store/encoding/raw/primitive_enc.rs: Encoder::encode", "src/store/encoding/raw/primitive_enc.rs: encode_primitive_buffer", "src/store/encoding/raw/binary_enc.rs: Encoder::encode", "src/store/encoding/raw/binary_enc.rs: encode_binary_buffer"]}
{"id": "C110", "title": "A segment may be closed again", "statement": "Closing a segment that is closed already, any number of times, leaves the data file as it is and the metadata a reader finds in the index file the same: the second metadata are appended after the first, and the position at the end of the file leads to them.", "quantifier": "every history of columns and closes in which no call fails, any number of further closes, every iteration order of the maps at each close, both build profiles", "why_tests_cant": "close takes &mut self, so a caller can do it; no test closes a segment twice.", "anchors": ["src/store/segment_writer.rs: SegmentWriter::close"]}
{"id": "C111", "title": "A column may be closed again", "statement": "Closing a column that is closed already, any number of times, adds no rows to it: the data file, the block index and the metadata stay as they are.", "quantifier": "every history before it, every column and calls on it in which no call fails, any number of further closes, both build profiles", "why_tests_cant": "close takes &mut self, so a caller can do it, in a retry for instance; no test closes a column twice.", "anchors": ["src/store/segment_writer.rs: ColumnWriter::close", "src/store/encoding/raw/binary_enc.rs: Encoder::flush"]}
{"id": "C112", "title": "Encoding a primitive column takes time in proportion to its rows", "statement": "The iterations of all loops, the values copied and the bytes produced and copied while the buffers of a primitive column are encoded are together at most a constant number, which does not depend on the block size, for each value, each validity bit and each buffer; rows that are held back are not gone through again before they are written.", "quantifier": "every element type, every sequence of buffers, every positive block size, every sink, nullable or not, however the calls end, both build profiles", "why_tests_cant": "A test cannot bound the time of all inputs; the tests encode a few short columns.", "anchors": ["src/store/encoding/raw/primitive_enc.rs: Encoder::encode", "src/store/encoding/raw/primitive_enc.rs: Encoder::flush", "src/store/encoding/raw/primitive_enc.rs: encode_primitive_buffer", "src/store/encoding/bitmap_rle.rs: Encoder::put_from", "src/store/indexing_buffer.rs: PrimitiveBuffer::append_from"]}
{"id": "C113", "title": "A column writer fails only when the file does", "statement": "If write() or close() of a column writer, with either encoding that is accepted, does not return normally, then the first call that did not returned an error of the file: no column is refused for what it holds.", "quantifier": "every segment and every history of it, every sequence of buffers, every behaviour of the file, both build profiles", "why_tests_cant": "The tests write a few short strings; a buffer of ordinary size already panics.", "anchors": ["src/store/segment_writer.rs: ColumnWriter::write", "src/store/segment_writer.rs: ColumnWriter::close", "src/store/encoding/raw/binary_enc.rs: Encoder::encode"]}
{"id": "C114", "title": "Encoding a binary column takes time in proportion to its rows and bytes", "statement": "The iterations of all loops and the bytes, offsets and validity bits produced or copied while the buffers of a binary column are encoded are together at most 60 for each byte, 120 for each row and 2164 for each buffer, and 702 more, whatever the block size.", "quantifier": "every sequence of buffers, every positive block size below 2^32, nullable or not, both build profiles", "why_tests_cant": "A test cannot bound the time of all inputs; the tests encode a few short columns.", "anchors": ["src/store/encoding/raw/binary_enc.rs: Encoder::encode", "src/store/encoding/raw/binary_enc.rs: Encoder::flush", "src/store/encoding/raw/binary_enc.rs: encode_binary_buffer", "src/store/encoding/raw/binary_enc.rs: chunk", "src/store/indexing_buffer.rs: BinaryBuffer::append_from"]}
{"id": "C115", "title": "A call on a column that was dropped can be made again", "statement": "If the future of a write() or close() of a column writer is dropped while it waits and the same call is made again, it offers the blocks, with the row ids, that the dropped call had yet to write.", "quantifier": "every column, every state of its encoder, every await at which the call is dropped, every behaviour of the operating system, both build profiles", "why_tests_cant": "Tests await every call. What a repeated call does wrong is seen only in the row ids and in the index, which no test reads.", "anchors": ["src/store/segment_writer.rs: ColumnWriter::write", "src/store/segment_writer.rs: ColumnWriter::close", "src/store/encoding/raw/binary_enc.rs: Encoder::encode", "src/store/encoding/raw/binary_enc.rs: Encoder::flush"]}
{"id": "C116", "title": "Filling a buffer takes time in proportion to its rows", "statement": "Any sequence of append(), append_null(), append_from() and clear() calls on a new buffer takes a number of steps bounded by a constant for each call, each row copied and each byte of the values, the growth of its bitmaps included.", "quantifier": "every kind of buffer, nullable or not, every sequence of calls, including those that end in a panic", "why_tests_cant": "The bitmaps double in size when they are full and are cut back by clear(); a test with a few rows never sees either, and no test measures time.", "anchors": ["src/store/indexing_buffer.rs: Bitmap::append", "src/store/indexing_buffer.rs: Bitmap::clear", "src/store/indexing_buffer.rs: PrimitiveBuffer", "src/store/indexing_buffer.rs: BinaryBuffer", "src/store/indexing_buffer.rs: BoolBuffer"]}
{"id": "C117", "title": "Declaring a column without nulls nullable costs at most eight bytes a block", "statement": "A column without nulls that is declared nullable is written in as many blocks as when it is not; each of its blocks is the other one followed by at most eight bytes, however many rows it has, so the column grows by at most eight bytes for each block.", "quantifier": "every column without nulls, of any number of buffers and rows, flushed in between or not, every positive block size, both build profiles, both encoders, whenever the calls return", "why_tests_cant": "A validity of equal bits should cost next to nothing: the run-length encoder, the bitmap and the positions in it must all do their part. No test looks at the size of a block.", "anchors": ["src/store/encoding/raw/primitive_enc.rs: encode_primitive_buffer", "src/store/encoding/raw/binary_enc.rs: encode_binary_buffer", "src/store/encoding/bitmap_rle.rs: Encoder::put_from", "src/store/encoding/bitmap_rle.rs: Encoder::flush", "src/store/indexing_buffer.rs: Bitmap::append_from"]}
{"id": "C118", "title": "A changed value changes one block", "statement": "When one value of a column is replaced by another one of the same length and the column is encoded again, buffer by buffer and then flushed, the blocks have the same row ids and lengths, and all of them but one at most have the same bytes; that one differs only in the bytes of the value, which stand at one place in it.", "quantifier": "every column of any number of buffers and rows, every row of it and every other value, nullable or not, every block size, both build profiles, both encoders, whenever the calls return", "why_tests_cant": "It compares two runs, and holds only if no value is written twice and nothing of one block leaks into another.", "anchors": ["src/store/encoding/raw/primitive_enc.rs: Encoder::encode", "src/store/encoding/raw/primitive_enc.rs: encode_primitive_buffer", "src/store/encoding/raw/binary_enc.rs: Encoder::encode", "src/store/encoding/raw/binary_enc.rs: encode_binary_buffer", "src/store/encoding/raw/binary_enc.rs: chunk"]}
{"id": "C119", "title": "Rows added at the end change no block but the last", "statement": "The blocks made of any calls followed by encode() of a buffer and flush(), all but the last, are the first blocks made when that buffer has more rows at its end or when other calls follow it, with the same row ids and the same bytes. The data file of a segment, up to the last block, is the beginning of that of the segment with more rows.", "quantifier": "every sequence of encode() and flush() calls before, every buffer, any rows added to it, every sequence of calls afterwards whether they return or not, nullable or not, every positive block size, both build profiles, both encoders, whenever the calls of the shorter column return", "why_tests_cant": "It compares two runs of any length; tests encode one column.", "anchors": ["src/store/encoding/raw/primitive_enc.rs: Encoder::encode", "src/store/encoding/raw/primitive_enc.rs: chunk", "src/store/encoding/raw/primitive_enc.rs: encode_primitive_buffer", "src/store/encoding/raw/binary_enc.rs: Encoder::encode", "src/store/encoding/raw/binary_enc.rs: chunk", "src/store/encoding/raw/binary_enc.rs: encode_binary_buffer"]}
{"id": "C120", "title": "Buffers with the same rows are encoded the same", "statement": "encode() of two buffers that are both nullable or both not and show the same rows is the same: the same blocks with the same row ids and bytes reach the sink, the encoder is left the same, and it returns, fails or panics alike. The bytes a bitmap keeps behind its last bit do not matter.", "quantifier": "every two buffers with the same rows, every encoder state, every sink, every sequence of encode() and flush() calls with such buffers, both build profiles, both encoders, ColumnWriter::write, and the files of any history of segments", "why_tests_cant": "It compares two runs for every representation of a column; a test has one representation.", "anchors": ["src/store/encoding/raw/primitive_enc.rs: Encoder::encode", "src/store/encoding/raw/binary_enc.rs: Encoder::encode", "src/store/indexing_buffer.rs: Bitmap::append_from", "src/store/encoding/raw/binary_enc.rs: encode_binary_buffer", "src/store/encoding/raw/primitive_enc.rs: encode_primitive_buffer", "src/store/segment_writer.rs: ColumnWriter::write"]}
{"id": "C121", "title": "A compressed bitmap that was cut short gives no wrong position", "statement": "When the bytes the bitmap encoder wrote are cut off anywhere, the decoder either panics or returns exactly the positions set among the first few bits; it never gives a position that is not set or misses one before the last it gives. It panics exactly when the cut is inside a frame, so it returns when flush() was not called. Compressed bitmaps one after the other decode as their bytes one after the other.", "quantifier": "every bitmap of fewer than 2^32 - 7 bits, every place of the cut, every output slice with room for the positions of the whole bitmap, both build profiles", "why_tests_cant": "Tests decode only complete encodings.", "anchors": ["src/store/encoding/bitmap_rle.rs: Decoder::decode", "src/store/encoding/bitmap_rle.rs: Decoder::read_frame", "src/store/encoding/bitmap_rle.rs: Encoder::flush"]}
{"id": "C122", "title": "Rows can be copied and compressed in parts", "statement": "append_from() of a range of values returns exactly when append_from() of its first part and then of the rest, from the position the first call returned, do, and the buffer is then the same; so is the position, if the source has a validity. put_from() and Bitmap::append_from() of n + m set bits are those of n and then of m, panics included.", "quantifier": "every destination, every source whose offsets are in order (as those of any buffer that shows rows are), every range and every place to part it, every state of the bitmap encoder, both build profiles", "why_tests_cant": "It compares runs for every place to part every range; tests copy a few ranges.", "anchors": ["src/store/indexing_buffer.rs: PrimitiveBuffer::append_from", "src/store/indexing_buffer.rs: BinaryBuffer::append_from", "src/store/indexing_buffer.rs: Bitmap::append_from", "src/store/encoding/bitmap_rle.rs: Encoder::put_from"]}
{"id": "C123", "title": "The index file takes space in proportion to the names of the columns", "statement": "The metadata that SegmentWriter::close() encodes takes at most 56 bytes plus the segment id, the database name and the table name, plus, for each column created, 82 bytes and three times its name. The index file of a segment whose columns were written and that was then closed once takes 20 bytes more, however many rows and blocks were written.", "quantifier": "every history of columns, writes and closes, for the metadata also with failing calls, every iteration order of the hash maps, every operating system behaviour, both build profiles; as long as the file is shorter than 2^64 bytes", "why_tests_cant": "The bound is over all histories and all names; a test sees the size of a few files.", "anchors": ["src/store/segment_writer.rs: SegmentWriter::close", "src/store/segment_writer.rs: ColumnWriter::close", "src/store/segment_metadata.rs: Metadata"]}
{"id": "C124", "title": "The columns of a segment may be written in any order", "statement": "The metadata of a segment is decided by the column last closed under each name, up to the order of its entries: other columns, failed calls and the order of the columns make no difference. If columns with different names are written in another order, and no call fails, the data file has the same bytes for each column, in the new order, and the index file has the same length.", "quantifier": "every pair of histories with the same columns last closed (for the metadata), every permutation of every list of columns with different names, every iteration order of the hash maps, every operating system behaviour, both build profiles", "why_tests_cant": "It compares two runs for every permutation of every list of columns; tests write columns in one order.", "anchors": ["src/store/segment_writer.rs: SegmentWriter::new_binary_column_writer", "src/store/segment_writer.rs: ColumnWriter::write", "src/store/segment_writer.rs: ColumnWriter::close", "src/store/segment_writer.rs: SegmentWriter::close"]}
{"id": "C125", "title": "A column that is refused, or to which nothing is done, leaves no trace", "statement": "Leaving out of a history the columns whose encoding new_binary_column_writer() refuses, and the column writers that are dropped without a call, changes neither what the other calls return nor the two files, their positions and the metadata.", "quantifier": "every history of a segment, including failing calls, every state of the segment writer, every operating system behaviour, both build profiles", "why_tests_cant": "It compares two runs for every history; no test asks for an encoding that is refused.", "anchors": ["src/store/segment_writer.rs: SegmentWriter::new_binary_column_writer", "src/store/encoding/mod.rs: new_binary_encoder", "src/store/block_index.rs: BlockIndex::clear"]}
