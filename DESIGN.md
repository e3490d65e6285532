# Design of the formal model of meerkatdb/meerkat

## Technique

The Rust code in /repo is read as text and transcribed, function by function, into total
computable Lean 4 functions (`lean/Verif/Model/*`). Properties are stated against small
independent specifications (`lean/Verif/Spec/*`), in `lean/Verif/Props/*`, and proved with
helper lemmas in `lean/Verif/Proofs/*`.

Conventions of the model

* `&mut self` methods become functions returning the new value. `Result`/`Option` stay data.
* A panic is the value `Except.error (Panic...)`; it is never hidden by a default.
* Bytes are `UInt8`; `Vec<T>`/slices are `List T`. Vec capacity is not modelled.
* `u32`/`u64`/`usize` values are `Nat`. Every addition, subtraction or shift that can
  overflow in the code for inputs a caller can supply goes through a checked operation that
  takes the build profile: with overflow checks (debug) it panics, without (release) it wraps.
  `usize` counters that count elements held in memory (for example `Bitmap::len`) cannot reach
  2^64 and are plain `Nat`.
* A `while` loop becomes a function with fuel that returns the distinguished fault `diverge`
  when the fuel runs out; theorems show that this does not happen, or the divergence is the
  finding.
* `async` functions are sequential: the only concurrency in the code is `read_blocks`
  (a buffered stream of background reads) and tokio's background file writes. Both are modelled
  as state machines driven by an arbitrary schedule.

When the code violates a property, the violation is proved with a concrete witness
(`..._violated`), and what does hold is proved as `..._partial`.

## Properties: what is modelled and how it is proved

| id | model | proof |
|----|-------|-------|
| C01-C04 | `Bitmap` byte by byte | bit-level lemma for `append`, induction on the appended list; C02 and C04 are violated: exact characterisation of what a cleared bitmap returns |
| C05-C12 | `PrimitiveBuffer`, `BinaryBuffer`, `BoolBuffer` over the bitmap | abstraction to `List (Option a)`, induction on calls; C09 inherits the violation of C02 |
| C13-C16 | `varint.rs`, unrolled decoder as written, checked arithmetic | the unrolled decoder is proved equal to a base-128 specification; round trip by induction on the value |
| C17-C21 | the RLE encoder state machine and decoder as written | invariant: emitted frames expand, with the pending state, to the bytes appended so far |
| C22 | `util.rs` with 64-bit masks | bit-level arithmetic |
| C23-C24 | `offsets.rs` over an executable model of `bitpacking::BitPacker4x` | violated (interleaved layout is trimmed; number of bits of a list not 128 long panics); exact conditions |
| C25-C30 | `primitive_enc.rs` generic in the element type and in the sink | loop invariant; several are violated for more than one `encode` call; exact condition for losslessness; `Spec/PrimitiveWritten.lean` says what is in each block in release builds, for every block size |
| C31-C36 | `binary_enc.rs` | same; several violated; for C33 the code is shown to follow a short specification of where its chunks end (`Spec/BinaryCompletes.lean`), which decides whether a column is encoded; `Spec/BinaryWritten.lean` adds what is then in each block; `Props/AnyReader.lean` says which blocks determine their rows whatever the reader |
| C37-C39, C56, C57 | both encoders | state invariants and simulation between an arbitrary sink and a recording sink |
| C40-C42 | `default_block_writer.rs`, `block_sink.rs`, `block_index.rs`, tokio file as a fault-scheduled state machine | invariants over histories |
| C43-C45 | reader, buffered stream under an arbitrary schedule | invariant of the in-flight window |
| C46-C48, C53 | `segment_writer.rs` | trace invariants |
| C49 | prost wire encoding of the messages of `segment_metadata.rs` | two-layer round trip (wire fields, then messages), permutation of map entries |
| C50 | base64 URL-safe, no padding (16 bytes) | injectivity of the 6-bit regrouping |
| C51-C52 | `encoding/mod.rs`, `snappy_enc.rs` | case analysis; C52 violated by the Snappy stub and by raw columns whose lengths lose bits; for raw columns without nulls, exactly when (`Props/StoredExact.lean`) |
| C54 | flush/sync order over a crash model | invariants; the index-implies-data part is violated |
| C55 | `main.rs` seeds expression | induction on characters; "absent means empty" is violated |
| C58-C59 | the whole segment writer over the tokio file | every background write that fails is reported by a later call or still held by the file when the history ends; C59 is violated for a sync without a close, where exactly the write pending on each file can be lost |
| C60 | values, buffers, encoder, sink, files, disk, and a reader written from the format | composition of C26-C36, C42, C46-C49, C54; the index does not hold the block offsets, so the reader gets them from the sink |
| C61-C62 | several segment writers in one directory | each open file is simulated by its private content; C62 is violated (`File::create` truncates) |
| C63-C64 | `server/mod.rs`, `build/mod.rs`, `main.rs` | induction on the calls; C63 is violated by a second `start` |
| C65 | both encoders | simulation between two encoders that differ only in the rows counted so far |
| C66 | segment writer, binary encoder | invariants of C36 together with the least chunk found by `chunk` |
| C67 | block writer, block sink, column writer | induction over histories in which calls may be dropped; the position runs ahead by what was not written |
| C68, C69 | segment writer, metadata | induction over histories; blocks in a row are told apart because full ones end with a non-empty item and validity ends with a set bit (`column_inj_nullable`, `column_inj_nonnull`) |
| C70 | both encoders | sizes of the parts of a block summed over the groups; items shaped like a heap for the counterexample |
| C71 | both encoders | the simulation of C65, applied to the state a flush leaves |
| C72 | everything that takes a build profile | a relation between the two builds, preserved by sequencing, function by function |
| C73 | encode, flush of both encoders | the groups written are a cut of the rows that is made as early as possible, and a list has only one such cut |
| C74 | bitmap decoder on any bytes | induction on the frames; whatever `read_frame` returns is a frame of the format; for every input: runs of equal bits are cut modulo 2^29 bytes (`Spec.CutFrames`), and without overflow checks positions are kept modulo 2^32 |
| C75 | looking a row up | induction on the blocks; `Spec.rowAt` finds a row by its number; every row is found iff the row ids are those of the last rows (for the last block: not below), which is compared with what the encoder counts; on the disk through the brackets of C47 and one `read_block` of C43 |
| C76 | the writers after failed calls | an invariant of every history (`Lag`): the position counts all bytes given, the file with its pending write has fewer if and only if a background write failed; what a column or a close that succeeds adds is then computed from any such state |
| C77 | buffers without rows | an invariant of the rows held back over every sequence of calls that return (`Tidy`), then one `encode` computed |
| C78 | the RLE encoder's choice of frames | invariant: the frames written and the pending one are the division of the bytes so far (`Neat`); uniqueness of divisions by the byte after the first piece |
| C79 | the rows the primitive encoder holds back | the invariant of C77; two computed steps (`hold_first`, `hold_more`) reach the bounds |
| C80 | histories of a segment with dropped and failed calls | the invariant of C76 (`Lag`) with a proposition that says that a write was dropped |
| C81 | index files left by a crash | the framing of C46 and the round trip of C49; a position below 3072 has six zero bytes |
| C82 | an RLE encoder flushed several times | the encoder only adds to its output (`Adds`), so but for the output its state is that of one that was not flushed (`Known`) |
| C83, C84 | readers of a file that is being written | each `pread` sees one of the contents the file can have (`ReadExactLive`); what the file holds once the pending write is over only grows (`Settles`), which is lifted to segments by `Preserved.run`; the stream of `read_blocks` (`ReadStream.Step`) takes the results `read_block` can have as a parameter, so it covers such files too |
| C85 | inverted ranges | direct computation of the call |
| C86 | columns the index lists against blocks in the data file | invariants of every call, whatever it returns |
| C87 | what the last row id tells | from the exact row ids of C28, C34 and the counters of C39 |
| C88 | `ColumnWriter` with any implementation of `ColumnIndex` (Model/ColumnIndex) | by cases on what the calls return, induction over the buffers; without an index it is the other model |
| C89 | index types and layouts in the metadata | from C48 |
| C90 | two runs of the same calls | data from C47 and C72; index from C46, C48 and the reader of C49, which makes the encoding injective |
| C91 | the bytes of a bitmap | invariant over any history (C01) |
| C92 | the directory after `SegmentWriter::new` that failed or was dropped | a file never holds more than it was given, whatever its writes return; then every place where the call can stop |
| C93 | `sync` that was dropped | what a stopped sync keeps of a file (`Kept`), and that it leaves a crash no new choice |
| C94 | accessors of buffers | from C05, C06 and C07 |
| C95 | reading with limited memory | cases of `ReadBlockWithin`, which adds the failure of the allocation to `ReadBlock` |
| C96 | damaged bytes | the groups of a column depend only on its nulls and lengths (primitive: nulls); `Spec.distance` counts the bytes in which files differ |
| C97 | two segments with one id | each writer's calls are followed separately (`aloneFrom`); `Spec.Mixed` says what the shared file can hold |
| C98 | buffers after a panic | the calls as state transformers (Model/Unwind.lean), related to the results of C01-C11 by `EndsAs` |
| C99 | columns after a refused buffer | the state after the panic is compared with the state after a write of the same values without nulls |
| C100 | pairs of columns | nulls in the same places, any relation between the values; the blocks share all bytes but those of the values |
| C101 | pairs of machines | `BigEndian` values have their bytes in the other order; compared with the little endian blocks |
| C102 | reads on a 32-bit machine | `ReadBlock32` is compared with `ReadBlock` |
| C103 | directories after a crash | `DirAfterCrash`: names that were created may be lost, as the directory is not synced |
| C104 | runs of `main` with any standard output | `Stdout`: writes succeed, fail, or go to a descriptor that is not open |
| C105 | the decoder with every loop iteration counted | `Counted`: a result and a number of steps |
| C106 | `remaining` of both encoders after any successful calls | number of rows held against the block size |
| C107 | histories of a segment | `closedOnce`: columns closed without an error |
| C108 | two histories that differ in what is declared | `redeclare` |
| C109 | the encoders on a nullable column and on the column of its values | `WithValidity`, `IsValidity`, `CompressedBits`, `withoutNulls` |
| C110 | `SegmentWriter.close` after a close | `recoverIndex`, `SameMetadata` |
| C111 | `ColumnWriter.close` after a close | `blocksAlone`, `rowsTold` |
| C112 | the primitive encoder with every loop iteration and every copied value or byte counted | `Timed`: a call and a number of steps; `PrimitiveBuffer.weight` |
| C113 | a column writer and its first failure, for C33's columns and the others | `firstFault`; `Completes` of C33 |
| C114 | the binary encoder with every loop iteration and every copied byte counted | `Timed` as for C112; `BinaryBuffer.weight`; `Manageable` of C32 |
| C115 | a dropped write() or close() of a column, made again | `closeCut` and `writeCut` of C67; what the encoder then offers, as in C65 |
| C116 | append(), append_null(), append_from() and clear() of the three buffers with every bit, value, byte and resized byte counted | `Counted` as for C105; three steps for two bits pay for the next doubling |
| C117 | the encoders on a column without nulls, declared nullable or not | `WithValidity true`, `IsValidity`; lengths of the bytes added |
| C118 | the encoders on two columns that differ in one value | `DifferAtMostIn`: blocks compared by position; `Matched`, `Manageable` |
| C119 | the encoders on a column and on one with more rows | `PrimitiveBuffer.Shows`, `BinaryBuffer.Shows`; blocks as recorded, `<+:` |
| C120 | the encoders on two buffers with the same rows | `PrimitiveBuffer.Shows`, `BinaryBuffer.Shows`; `Spec.SameCalls` |
| C121 | the bitmap decoder on bytes that were cut off | `Spec.Frames`, `setPositions` |
| C122 | `append_from` and `put_from` in two calls | the calls themselves, compared with one call |
| C123 | the length of the index file | the names of the columns a history creates (`Spec.columnNames`), their UTF-8 sizes |
| C124 | the same columns in two orders | the runs themselves, compared; `lastClosed` |
| C125 | a history with and without its idle columns | the runs themselves, compared; `Spec.Idle` |

## What is modelled, file by file

| file of /repo | modelled in | left out |
|---|---|---|
| src/store/indexing_buffer.rs | Model/Bitmap, Model/Buffers, Model/FillSteps (counting the steps), Model/Unwind, Model/Element | capacity of vectors |
| src/store/encoding/util.rs | Model/Util | - |
| src/store/encoding/varint.rs | Model/Varint | - |
| src/store/encoding/bitmap_rle.rs | Model/Rle, Model/RleSteps (the decoder, counting its steps) | - |
| src/store/encoding/offsets.rs | Model/Offsets | - |
| src/store/encoding/raw/primitive_enc.rs | Model/PrimitiveEnc, Model/EncSteps (the same, counting its steps) | - |
| src/store/encoding/raw/binary_enc.rs | Model/BinaryEnc, Model/BinarySteps (the same, counting its steps) | the stateless field `offset_encoder` |
| src/store/encoding/snappy/snappy_enc.rs | Model/Encoders | - |
| src/store/encoding/mod.rs | Model/Sink, Model/Encoders | text of the error messages |
| src/store/block_index.rs, block_sink.rs | Model/BlockSink | dropped calls: Model/Cancel |
| src/store/io/default_block_writer.rs | Model/BlockWriter | - |
| src/store/io/unix_disk_block_reader.rs, io/mod.rs | Model/BlockReader | kinds of I/O errors |
| src/store/segment_metadata.rs | Model/Metadata | the `Clone`/`Debug` code made by prost |
| src/store/segment_writer.rs | Model/SegmentWriter, Model/SegmentName, Model/Store | `column_index`, which is never `Some`: Model/ColumnIndex |
| src/store/index/mod.rs | Model/ColumnIndex | - |
| src/server/mod.rs, src/build/mod.rs, src/main.rs | Model/Server, Model/Seeds, Model/Stdout | parsing of the command line (structopt), `LogTracer` |
| build.rs | not modelled | it only runs the generators at build time |
| tests | Tests/RepoTests | the two tests with random data, which are instances of C01 and C45 |

Simplifications that apply everywhere:

* Allocation never fails.
* The target is 64-bit and little endian. Only C102 is about 32-bit machines (`Model/Narrow.lean`, the block reader), and only C101 is about big endian machines: there `Model/BigEndian.lean` gives the values of primitive
  columns their bytes in the other order, and the packed lengths of binary columns, which the bitpacking crate writes, are left out. An `f64` is seen as its 64 bits: the code only copies it.
* `usize` counts of things in memory are natural numbers; every `u32`/`u64` computed from data is checked or wraps.
* What a panic leaves is modelled for the calls on buffers and bitmaps (Model/Unwind.lean) and for `remaining` in both
  encoders. The encoders' scratch fields `encoded_data` and `bitmap_encoder` keep the value they had before the call that
  panics; both are cleared before they are used again, so nothing depends on them.
* Dropping a future half-way (cancellation of an async call) is modelled for `write_block`, `flush`, `ColumnWriter::write` and the two `close` (Model/Cancel.lean), and for `SegmentWriter::new` and `sync` (Model/Interrupted.lean). The `async` functions left over do not wait or only pass on what these do.
* `SegmentWriter::sync(mut self)` consumes the writer: in histories nothing follows it.

## Models of dependencies

None of these crates is in /repo or in the sandbox; each model states the documented behaviour and is part of the
trusted base.

* **`bitpacking` 0.5.1, `BitPacker4x`** (Model/Offsets): blocks of 128 values, four interleaved lanes, `num_bits` and
  `compress` assert the length of their argument. C23, C24, C31-C35 depend on it.
* **`tokio` 1.12, `fs::File`** (Model/TokioFile): a write copies at most `maxBuf` bytes (any positive number) to a buffer, hands it to a background
  thread and reports success; the next write, flush or sync waits for it. A write or flush reports its error, a sync
  keeps the error for the next write or flush. The operating system is an arbitrary function from the calls so far to
  results (`Os`, `SegmentOs`): short writes, failing writes, failing fsyncs. A background write that fails has written any part of its
  bytes but the last (one that has written them all has not failed). A runtime that shuts down while a file is being written is not modelled. C40-C42, C45-C48, C54, C58-C62, C76.
* **`futures` `StreamExt::buffered(n)`** (Model/BlockReader): at most `n` futures in flight, results in order of
  submission. The schedule is arbitrary. C44.
* **`pread`** may return fewer bytes, be interrupted finitely often, or fail; a runtime that shuts down drops the read, which then fails. Files are shorter than 2^63 bytes. C43.
* **`prost` 0.8** (Model/Metadata): fields in the order of their tags, default scalars left out, a map as one entry
  message per pair with default key and default value left out, in an arbitrary order. C48, C49.
* **`base64` 0.13** URL_SAFE_NO_PAD (Model/SegmentName). C50.
* **`tracing`**: a process has at most one global subscriber and a second `set_global_default` fails. C63.
* **`structopt`**, **`built`**: parameters. C64.
* **`println!`** panics when the write fails, unless the descriptor is not open. C104.
* **The directory** (Model/Store): `File::create` empties an existing file, each descriptor writes at its own offset, nothing
  is renamed or unlinked. C61, C62, C97.
* **Crashes** (Spec/Crash; Spec/DirCrash for C103, where entries of the directory may be lost): entries of the directory survive, files only grow, a byte written but not synced is after the
  crash the byte, a zero, or missing from some point on; bytes written before a successful fsync survive. C54, C60.

## How statements are kept honest

* Specifications (`Spec/*`) do not mention model functions, with two exceptions. The readers `Spec/PrimitiveBlock`,
  `Spec/BinaryBlock` and `Spec/Recover`, written from the format because /repo has none, use the two decoders /repo has
  (varint and bitmap RLE, as any reader would; C13-C19 and C74 are about those decoders alone). `Spec/Segment` and `Spec/Calls` run histories of calls, so they
  call what they run. `Spec/Column`, `Spec/RowIds`, `Spec/BinaryBlock` describe which rows should be where; `Spec/Lookup` finds a row by its number.
* When a theorem has hypotheses, an `example` beside it gives a concrete case that satisfies them and has a
  conclusion worth having.
* `Tests/RepoTests.lean` runs the tests of /repo on the model.
* `tools/difftest.py SEED COUNT` compares the model with a second transcription of the Rust code, to Python,
  made from the sources alone. Random histories of bitmaps, run-length encoder and decoder, varints, the two
  raw encoders and whole segments, with debug and release arithmetic, panics in the middle and failing
  writes, are run on both and the transcripts compared: results of every call, bytes of every block and file,
  what is left in the encoder. No difference in the last 9000 cases. It is a test of the transcription; no
  theorem depends on it.
* `tools/mutate.py` builds the proofs against edited copies of the model; `seeded/LOG.jsonl` has one line per attempt,
  `seeded/mutations` the edits themselves.

## Findings: where the code breaks a property

| what happens | where | theorem |
|---|---|---|
| `Bitmap::clear` keeps the old bytes, so later nulls can read as set | indexing_buffer.rs:87 | `C02_clear_like_new_violated`, `C09_clear_like_new_violated`, `C35_binary_nulls_violated` |
| `Bitmap::with_capacity` below 8 panics on the first append | indexing_buffer.rs:45 | `C04_with_capacity_violated` |
| `len << 3` on a `u32` drops bits silently: a run of 2^29 bytes is decoded as an empty one, also with overflow checks | bitmap_rle.rs:272-274 | `C74_rle_long_runs_violated` |
| Because row ids count trailing nulls not at all and rows of later blocks twice, looking up a row by its number gives another row or none | primitive_enc.rs and binary_enc.rs `encode` | `C75_primitive_lookup_violated`, `C75_binary_lookup_violated` |
| packed lengths are trimmed as if they were not interleaved; two columns give the same block | offsets.rs | `C23_offsets_recoverable_violated`, `C31_binary_block_violated` |
| a byte string that a buffer accepts panics when it completes a block of which rows are held back and the sum passes the limit of 4 GiB | indexing_buffer.rs:248-290 | `C33_leftover_full_violated` |
| no buffer with more than 33024 values, or with 8320 bytes in values of at most 128 bytes, is encoded with blocks of 128 bytes; when all values have the same size, none with two blocks | binary_enc.rs, `find_position` | `C33_many_values_violated`, `C33_many_bytes_violated`, `C33_eight_kilobytes_violated`, `C33_even_sizes_violated`, `C113_writer_fails_violated` |
| 0 or more than 128 items panic | offsets.rs | `C24_offsets_any_count_violated`, `C33_binary_completes_violated` |
| a count of items is compared with a size in bytes; values of later buffers are lost | primitive_enc.rs:123 | `C26_primitive_values_violated` |
| trailing nulls of a buffer are lost | primitive_enc.rs, binary_enc.rs | `C27_primitive_rows_violated`, `C35_binary_nulls_violated` |
| the row counter of a nullable column adds absolute positions | primitive_enc.rs | `C28_primitive_row_ids_violated` |
| underflow, too small blocks or an endless loop for unlucky block sizes | primitive_enc.rs:117 | `C29_primitive_block_sizes_violated`, `C30_primitive_completes_violated` |
| `chunk` returns a position relative to the chunk; the second block of a buffer is wrong or panics | binary_enc.rs | `C32_binary_second_chunk_violated`, `C34_binary_row_ids_violated` |
| a second flush writes the last rows again | both encoders | `C37_flush_twice_violated` |
| rows written by a flush are written again with whatever is encoded later | both encoders | `C71_after_flush_violated` |
| repeating a call after a sink error writes moved row ids, or blocks twice, or panics | both encoders | `C65_retry_violated` |
| blocks of segments are 128 bytes: `BLOCK_SIZE` is `1 << 7`, its comment says 128k | segment_writer.rs:112 | `C66_block_sizes_violated` |
| a dropped `write_block` leaves the position ahead of the file: every later index entry is too large and nothing reports it | default_block_writer.rs:37-40 | `C67_dropped_call_violated`, `C67_index_after_cut` |
| a failed `write_block` leaves the position ahead of the file for good: a `close` that is repeated and succeeds writes a footer that does not locate the metadata, and the index of a column written later is past the end of its blocks | default_block_writer.rs:37-40, segment_writer.rs `close` | `C76_footer_violated`, `C76_index_violated` |
| with a block size that is no multiple of the element size more than a block can be held back; the next `encode`, even of an empty buffer, panics in a debug build | primitive_enc.rs `encode` | `C77_primitive_violated` |
| a dropped close() of a segment, called again, leaves a footer that is not the place of the metadata; a dropped close() of a column spoils the offsets of all later columns | default_block_writer.rs `write_block` | `C80_footer_violated`, `C80_index_violated` |
| a dropped close() of a column, called again, writes the held block with a row id too large by its rows, after a piece of it; a dropped write() writes all blocks of its buffer again | raw/binary_enc.rs `write_block`, `write_remaining` (rows are counted before the write) | `C115_dropped_close_violated`, `C115_dropped_close_exact`, `C115_dropped_write_exact` |
| the index file has no checksum: after a crash it can look complete and not be | segment_writer.rs `close` | `C81_unsynced_recognised_violated`, `C81_cut_recognised_violated` |
| an RLE encoder that is flushed twice writes its last piece twice | bitmap_rle.rs `flush` | `C82_flush_twice_violated` |
| a block is not in the file yet when `write_block` returns | default_block_writer.rs:37-40 | `C84_readable_at_once_violated` |
| without overflow checks an inverted range of empty items is accepted, and a wrapped length returned | indexing_buffer.rs:248-281 | `C85_inverted_violated` |
| the index is completed before the data is flushed: a complete index can list a column whose last bytes are lost; close() may even succeed | segment_writer.rs:221-243 | `C86_listed_violated` |
| the last row id does not tell the number of rows; two columns of the same rows end with different ids | raw/primitive_enc.rs:55-108, raw/binary_enc.rs:61-122 | `C87_row_total_violated` |
| a column with any index type is accepted and recorded as having that index, and no index is made | segment_writer.rs:199-218, 290-308 | `C89_declared_index_violated` |
| the index file of the same segment differs from run to run (order of `HashMap`) | segment_writer.rs:222, segment_metadata.rs:65, 79 | `C90_same_files_violated` |
| a creation that fails or is dropped leaves an empty index file, or empties the one that was there | segment_writer.rs:144-184 `new` | `C92_stopped_creation_violated` |
| `PrimitiveBuffer::len` does not count nulls, though its comment says so; `validity` does not panic, though its comment says so | indexing_buffer.rs:162-171, 293-297 | `C94_comments_violated` |
| a range that is longer than the memory ends the process, although the length of the file is known | unix_disk_block_reader.rs:62-71 | `C95_bad_range_violated` |
| a changed byte of a data file cannot be noticed: blocks have no checksum | raw/binary_enc.rs, raw/primitive_enc.rs | `C96_damage_violated`, `C96_primitive_violated` |
| a whole block can be held back between calls; without overflow checks nearly as many blocks as a value has bytes | primitive_enc.rs `encode` (item count compared with a byte count) | `C79_whole_block_held_violated`, `C79_many_blocks_held_violated` |
| the metadata says 0 values, nulls and bytes for every column (a TODO in the code) | segment_writer.rs:295-308 | `C68_metadata_counts_violated`, `C68_counts_exact` |
| which column the values belong to, and how many empty strings end a column, cannot be told from the files | segment_writer.rs:281-328 | `C69_files_determine_columns_violated` |
| binary columns can be written many times over: with blocks of 128 bytes, 1024 bytes in 255 items become 128 blocks | binary_enc.rs:147-159, 232-255 | `C70_binary_overhead_violated`, `C70_binary_overhead_amplified`, `C114_binary_steps_amplified` |
| the Snappy encoder writes a constant block | snappy_enc.rs | `C52_stored_data_violated` |
| the block index is never written | block_index.rs:46 | `C53_index_locates_blocks_violated` |
| the index file is synced before the data file | segment_writer.rs:246 | `C54_index_implies_data_violated` |
| no seeds option gives one empty seed | main.rs:57 | `C55_seeds_absent_violated` |
| a nullable buffer given to a non-nullable encoder (or the reverse) is written | both encoders | `C56_nullability_mismatch_violated` |
| a call that panics leaves values, offsets or bytes of what it refused in the buffer | indexing_buffer.rs:130, 227, 248 | `C98_unchanged_violated` |
| the values of a buffer that `write` refused are stored, or the column can no longer be closed | binary_enc.rs:124, indexing_buffer.rs:248 | `C99_refused_violated`, `C99_nullable_stuck` |
| primitive values are written in the byte order of the machine | primitive_enc.rs:219 | `C101_byte_order_violated` |
| on a 32-bit machine `read_block` returns too few bytes of a range of more than 4 GiB, without an error | unix_disk_block_reader.rs:66 | `C102_word_violated` |
| the directory is never synced, so a synced segment may be missing after a crash | segment_writer.rs:246-255 | `C103_found_violated` |
| no server starts if the standard output cannot be written | main.rs:46 | `C104_output_violated` |
| any number of empty strings, or of nulls before a value, is held back in memory | binary_enc.rs, primitive_enc.rs `encode` | `C106_empty_values_violated`, `C106_binary_nulls_violated`, `C106_primitive_nulls_violated` |
| a column closed under a name already used replaces the entry of the other, whose blocks are lost | segment_writer.rs:316-325 | `C107_all_listed_violated` |
| neither the declared column type nor the announced number of rows is checked | segment_writer.rs:199-218 | `C108_declarations_violated` |
| closing a column a second time writes its last block again, as if it held new rows | binary_enc.rs:164-170, segment_writer.rs:281 | `C111_column_close_again_violated` |
| `sync` without `close` can succeed although a write failed | segment_writer.rs:246 | `C59_sync_reports_failures_violated` |
| creating a segment with an id in use destroys the old one | segment_writer.rs:144 | `C62_create_destroys_violated` |
| two open segments with the same id write into the same files, with holes | segment_writer.rs:144, default_block_writer.rs | `C97_same_id_violated` |
| a second `start` panics | server/mod.rs:53 | `C63_second_start_panics_violated` |
| file names of different ids can differ only by case | segment_writer.rs | `C50_names_differ_by_case` |

## Trusted base

* Lean 4.33.0's kernel.
* The axioms listed below: for every theorem a subset of `propext`, `Classical.choice` and `Quot.sound`. No axiom is added,
  nothing is proved by `native_decide` or `bv_decide`, no proof contains `sorry`.
* The reading of the Rust code: the model is a transcription by hand. It was checked by running the tests of /repo on the model and by
  comparing it with a second transcription (`tools/difftest.py`); the Rust code itself was not run.
* The models of dependencies, of the operating system and of crashes above.
* The specifications: that `Spec/*` and the statements in `Props/*` say what `properties.jsonl` says.

### Axioms of each theorem of the manifest

<!-- axioms: written by tools/gen_axioms.py -->

**none** (2): `C42_after_failed_write`, `C55_seeds_absent_violated`.

**propext** (6): `C51_encoder_selection`, `C72_read_block`, `C93_whole_sync`, `C104_output_violated`, `C104_output_partial`, `C104_output_exact`.

**Quot.sound, propext** (115): `C04_with_capacity_violated`, `C05_has_nulls_any_history`, `C15_varint_decode_total`, `C18_rle_decode_any`, `C20_rle_clear_like_new`, `C23_offsets_recoverable_violated`, `C24_chunk_loop`, `C25_element_bytes`, `C31_binary_block_violated`, `C37_primitive_flush_idle`, `C37_binary_flush_idle`, `C37_primitive_flush_partial`, `C37_binary_flush_partial`, `C38_primitive_sink_errors`, `C38_binary_sink_errors`, `C38_column_writer_sink_errors`, `C39_primitive_overflow_panics`, `C39_binary_overflow_panics`, `C56_primitive_mismatch_partial`, `C56_binary_mismatch_partial`, `C43_total`, `C44_results_in_order`, `C44_prefix_in_order`, `C44_at_most_two`, `C42_index_brackets_blocks`, `C47_data_is_columns`, `C47_index_is_own`, `C48_metadata_lists_closed`, `C53_index_locates_blocks_violated`, `C54_synced_survives_partial`, `C54_index_implies_data_violated`, `C54_between_fsyncs_violated`, `C59_sync_reports_failures_violated`, `C60_column_recovered_violated`, `C64_version_text`, `C65_binary_stuck_violated`, `C65_primitive_flush_partial`, `C65_binary_full`, `C65_binary_overfull`, `C67_dropped_call_violated`, `C68_metadata_counts_violated`, `C68_counts_exact`, `C69_files_determine_columns_violated`, `C70_binary_overhead_violated`, `C72_primitive`, `C72_bitmap`, `C72_primitive_calls`, `C74_rle_malformed_panics`, `C74_cut_frames`, `C74_cut_frames_unique`, `C74_frames_unique`, `C74_rle_long_runs_violated`, `C76_footer_violated`, `C76_index_violated`, `C77_primitive_violated`, `C80_footer_violated`, `C80_index_violated`, `C82_flush_twice_violated`, `C84_readable_at_once_violated`, `C85_inverted_violated`, `C88_without_index`, `C88_write_succeeds_iff`, `C88_index_gets_stored_buffers`, `C88_close`, `C89_declared_index_violated`, `C89_declared_index_exact`, `C90_same_files_violated`, `C93_dropped_sync`, `C94_len_partial`, `C95_bad_range_violated`, `C95_bad_range_exact`, `C95_total`, `C96_elements`, `C98_binary_stuck`, `C99_refused_exact`, `C99_refused_encode`, `C99_overfull`, `C100_primitive_alike`, `C100_primitive_calls`, `C101_byte_order_violated`, `C101_byte_order_partial`, `C101_byte_order_exact`, `C101_byte_order_blocks`, `C102_total`, `C105_decode_steps`, `C105_decode_stores`, `C107_all_listed_violated`, `C107_all_listed_partial`, `C108_declarations_violated`, `C108_declarations_partial`, `C108_declarations_exact`, `C109_primitive_with_validity_violated`, `C109_binary_with_validity_violated`, `C111_column_close_again_violated`, `C113_snappy_writer`, `C115_dropped_close_violated`, `C115_dropped_snappy`, `C116_rows_passed`, `C118_one_block_violated`, `C119_primitive`, `C119_binary`, `C119_primitive_from`, `C119_binary_from`, `C119_column`, `C119_data_file`, `C120_primitive`, `C120_binary`, `C120_column`, `C120_column_calls`, `C120_primitive_calls`, `C120_binary_calls`, `C122_bitmap`, `C122_put_from`, `C122_binary_ordered`, `C125_idle`.

**Classical.choice, Quot.sound, propext** (342): `C01_bitmap_faithful`, `C01_append_any`, `C02_clear_exact`, `C02_clear_like_new_partial`, `C02_clear_like_new_violated`, `C02_history_exact`, `C02_like_new_iff`, `C03_append_from`, `C03_any_bitmap`, `C04_with_capacity_partial`, `C05_primitive_faithful`, `C06_binary_faithful`, `C06_any_history`, `C07_bool_faithful`, `C08_non_nullable_never_null`, `C08_any_history`, `C09_clear_primitive_partial`, `C09_clear_binary_partial`, `C09_clear_bool_partial`, `C09_clear_like_new_violated`, `C09_primitive_history`, `C09_binary_history`, `C09_bool_history`, `C10_primitive_append_from`, `C10_every_range`, `C10_successive_copies`, `C10_append_from_returns`, `C10_append_from_result`, `C10_any_history`, `C11_binary_append_from`, `C11_append_from_returns`, `C11_append_from_result`, `C11_any_history`, `C12_no_wrapped_offset`, `C13_varint_roundtrip`, `C14_varint_length`, `C14_varint_short_buffer`, `C16_varint_canonical`, `C17_rle_roundtrip`, `C19_rle_size`, `C19_rle_run_size`, `C21_put_from`, `C22_ceil8`, `C22_round_up`, `C22_round_up_overflow`, `C22_round_up_other`, `C23_offsets_recoverable_exact`, `C23_offsets_recoverable_partial`, `C24_offsets_any_count_violated`, `C24_offsets_any_count_partial`, `C25_primitive_block`, `C26_primitive_values_exact`, `C26_primitive_values_iff`, `C26_primitive_wrapped_exact`, `C26_primitive_release_exact`, `C26_primitive_release_values`, `C26_primitive_values_partial`, `C26_primitive_values_violated`, `C27_primitive_rows_exact`, `C27_primitive_rows_iff`, `C27_primitive_rows_partial`, `C27_primitive_rows_violated`, `C28_primitive_row_ids_partial`, `C28_primitive_row_ids_iff`, `C28_primitive_row_ids_violated`, `C29_primitive_block_sizes_partial`, `C29_primitive_wrapped_sizes`, `C29_primitive_block_sizes_violated`, `C30_primitive_completes_partial`, `C30_primitive_completes_exact`, `C30_primitive_debug_exact`, `C30_primitive_completes_violated`, `C31_binary_block_partial`, `C31_binary_block_exact`, `C31_any_reader_exact`, `C31_two_items`, `readableLengths_128`, `C32_binary_values_partial`, `C32_binary_values_violated`, `C32_binary_second_chunk_violated`, `C32_binary_values_exact`, `C32_binary_data_exact`, `C32_binary_blocks_exact`, `C33_binary_completes_partial`, `C33_binary_completes_violated`, `C33_binary_completes_exact`, `C33_binary_two_large_violated`, `C33_leftover_full_violated`, `C33_many_bytes_violated`, `C33_many_values_violated`, `C33_eight_kilobytes_violated`, `C33_even_sizes_violated`, `manageable_of_small`, `C34_binary_row_ids_exact`, `C34_binary_row_ids_partial`, `C34_binary_row_ids_violated`, `C34_binary_row_ids_iff`, `C34_binary_nonnull_row_ids`, `C35_binary_nulls_partial`, `C35_binary_nulls_violated`, `C35_binary_nulls_exact`, `C35_binary_roundtrip_exact`, `C36_binary_leftovers`, `C36_any_buffers`, `C37_flush_twice_violated`, `C37_primitive_flush_again_exact`, `C37_binary_flush_again_exact`, `C39_primitive_row_counts`, `C39_binary_row_counts`, `C57_primitive_offered_increase`, `C57_binary_offered_increase`, `C56_binary_small_mismatch_partial`, `C56_primitive_mismatch_exact`, `C56_binary_mismatch_exact`, `C56_nullability_mismatch_violated`, `C57_row_ids_increase`, `C40_position_is_length`, `C40_block_range`, `C40_writes_succeed`, `C41_accepted_is_written`, `C41_each_failure_reported_once`, `C41_failure_is_reported`, `C43_read_block`, `C43_no_wrong_bytes`, `C44_ends`, `C44_any_reads`, `C45_write_then_read`, `C45_write_then_read_faulty`, `C46_files_framed`, `C52_stored_data_violated`, `C52_stored_data_partial`, `C52_stored_data_exact`, `C49_metadata_roundtrip`, `C49_index_file_metadata`, `C50_names_safe`, `C50_names_unique`, `C50_names_differ_by_case`, `C55_seeds_given_partial`, `C55_seeds_determined_partial`, `C58_no_silent_failure`, `C59_sync_after_close_partial`, `C59_sync_exact`, `C60_column_recovered_exact`, `C60_nullable_recovered_exact`, `C60_blocks_recovered`, `C60_column_recovered_partial`, `C60_nullable_recovered_partial`, `C61_segments_do_not_interfere`, `C62_create_keeps_others_partial`, `C62_create_destroys_violated`, `C63_lifecycle_partial`, `C63_second_start_panics_violated`, `C64_main`, `C65_retry_violated`, `C65_binary_flush_partial`, `C65_primitive_encode_partial`, `C65_primitive_held_partial`, `C65_binary_encode_partial`, `C65_binary_held_partial`, `C66_block_sizes_violated`, `C66_block_sizes_partial`, `C66_binary_sizes`, `C67_dropped_call_partial`, `C67_position_exact`, `C67_index_after_cut`, `C67_column_cut`, `C67_unnoticed`, `C69_blocks_determine_column`, `C69_files_determine_columns_partial`, `C70_primitive_overhead`, `C70_binary_overhead_partial`, `C70_binary_overhead_amplified`, `C70_binary_overhead_bounded`, `C71_after_flush_violated`, `C71_primitive_after_flush_exact`, `C71_binary_after_flush_exact`, `C71_primitive_calls_exact`, `C71_binary_calls_exact`, `C72_binary`, `C72_segment`, `C72_store`, `C72_functions`, `C72_binary_calls`, `C73_batching_violated`, `C73_primitive_same_rows`, `C73_primitive_batching_iff`, `C73_binary_batching_partial`, `C73_binary_same_rows`, `C74_rle_frames_partial`, `C74_rle_too_long_debug`, `C74_rle_debug_exact`, `C74_rle_release_exact`, `C74_rle_debug_wrong_iff`, `C74_encoder_frames`, `C75_primitive_lookup_exact`, `C75_primitive_lookup_partial`, `C75_primitive_lookup_violated`, `C75_binary_lookup_exact`, `C75_binary_lookup_violated`, `C75_segment_lookup_partial`, `C75_segment_nullable_partial`, `C76_position_exact`, `C76_index_exact`, `C76_footer_exact`, `C77_primitive_exact`, `C77_primitive_partial`, `C77_binary`, `C78_compressed`, `C78_one_form`, `C78_same_iff`, `C79_primitive_leftovers_partial`, `C79_whole_block_held_violated`, `C79_many_blocks_held_violated`, `C80_footer_exact`, `C80_index_exact`, `C80_footer_partial`, `C81_whole_accepted`, `C81_unsynced_recognised_violated`, `C81_cut_recognised_violated`, `C81_cut_recognised_partial`, `C81_long_cut_recognised_partial`, `C82_flush_iff`, `C82_second_flush_exact`, `C83_live_reads`, `C83_reads_are_kept`, `C83_within_len`, `C83_live_stream`, `C83_stream_within_len`, `C84_readable_exact`, `C84_readable_later_partial`, `C85_inverted_exact`, `C85_primitive_partial`, `C86_listed_violated`, `C86_index_ignores_data`, `C86_not_closed_partial`, `C86_listed_partial`, `C87_row_total_violated`, `C87_told_is_counter`, `C87_binary_nonnull_partial`, `C87_two_columns`, `C87_binary_exact`, `C87_primitive_exact`, `C87_primitive_release_exact`, `C87_binary_total`, `C90_same_files_exact`, `C90_same_files_partial`, `C91_memory`, `C92_stopped_creation_violated`, `C92_stopped_creation_exact`, `C92_failed_creation`, `C92_stopped_creation_partial`, `C94_comments_violated`, `C94_comments_exact`, `C95_bad_range_partial`, `C96_damage_violated`, `C96_damage_exact`, `C96_damage_partial`, `C96_primitive_violated`, `C96_primitive_exact`, `C96_primitive_release_exact`, `C97_same_id_violated`, `C97_same_id_exact`, `C97_last_prevails`, `C97_last_decides`, `C97_same_id_partial`, `C98_unchanged_violated`, `C98_unchanged_partial`, `C98_primitive_exact`, `C98_binary_append_exact`, `C98_binary_exact`, `C98_binary_inverted_exact`, `C98_refused_values`, `C98_refused_flush`, `C99_refused_violated`, `C99_refused_partial`, `C99_refused_small`, `C99_refused_held`, `C99_refused_flush`, `C99_nullable_stuck`, `C100_binary_alike`, `C100_binary_calls`, `C102_word_violated`, `C102_reversed_violated`, `C102_word_partial`, `C102_word_exact`, `C102_word_iff`, `C103_found_violated`, `C103_found_partial`, `C103_found_exact`, `C106_empty_values_violated`, `C106_binary_nulls_violated`, `C106_primitive_nulls_violated`, `C106_binary_held_partial`, `C106_primitive_held_partial`, `C107_all_listed_exact`, `C109_primitive_with_validity_partial`, `C109_binary_with_validity_partial`, `C109_primitive_calls_partial`, `C109_binary_calls_partial`, `C109_primitive_row_ids_iff`, `C109_binary_row_ids_iff`, `C110_segment_close_again`, `C111_column_close_again_exact`, `C112_primitive_column_steps`, `C112_primitive_call_steps`, `C112_block_steps_exact`, `C112_append_steps_exact`, `C113_writer_fails_partial`, `C113_writer_fails_violated`, `C113_writer_fails_exact`, `C114_binary_column_linear_partial`, `C114_binary_column_linear_violated`, `C114_binary_steps_amplified`, `C114_binary_column_steps`, `C114_binary_call_steps`, `C114_bytes_counted`, `C114_append_steps_exact`, `C114_block_steps_exact`, `C114_chunk_steps_exact`, `C115_dropped_close_exact`, `C115_dropped_write_exact`, `C115_dropped_write_held_partial`, `C116_primitive`, `C116_binary`, `C116_bool`, `C117_primitive`, `C117_binary`, `C117_primitive_calls`, `C117_binary_calls`, `C118_primitive_one_block`, `C118_binary_one_block_partial`, `C120_files`, `C121_cut`, `C121_cut_exact`, `C121_unflushed`, `C121_join`, `C122_primitive`, `C122_binary`, `C123_metadata`, `C123_index_file`, `C124_metadata`, `C124_any_order`.
