"""Writes MANIFEST.json. One entry per property: status, theorems, note."""
import json, os
C = []
def c(prop, status, theorems, note=""):
    C.append({"property": prop, "status": status, "theorems": ["Meerkat." + t for t in theorems], "note": note})

c("C01", "proved", ["C01_bitmap_faithful", "C01_append_any"])
c("C02", "partial", ["C02_clear_exact", "C02_clear_like_new_partial", "C02_clear_like_new_violated", "C02_history_exact", "C02_like_new_iff"],
  "False of the code: clear() keeps the old bytes. Proved: the exact behaviour over any number of generations ended by clear(), exactly when a reused bitmap reads like a new one, and a counterexample to the full property.")
c("C03", "proved", ["C03_append_from", "C03_any_bitmap"],
  "C03_append_from is for bitmaps filled by append; C03_any_bitmap for bitmaps with any past, where appending to a cleared destination does what append does (C02).")
c("C04", "partial", ["C04_with_capacity_partial", "C04_with_capacity_violated"],
  "False for capacities below 8 (proved for every such capacity); proved for 8 and above.")
c("C05", "proved", ["C05_primitive_faithful", "C05_has_nulls_any_history"])
c("C06", "proved", ["C06_binary_faithful", "C06_any_history"])
c("C07", "proved", ["C07_bool_faithful"])
c("C08", "proved", ["C08_non_nullable_never_null", "C08_any_history"])
c("C09", "partial", ["C09_clear_primitive_partial", "C09_clear_binary_partial", "C09_clear_bool_partial", "C09_clear_like_new_violated",
  "C09_primitive_history", "C09_binary_history", "C09_bool_history"],
  "False of the code for nullable buffers and for boolean buffers (stale bitmap bits). Proved over any number of generations ended by clear(): all counters and values are those of a new buffer, and exactly when the bits are too.")
c("C10", "proved", ["C10_primitive_append_from", "C10_every_range", "C10_successive_copies", "C10_append_from_returns", "C10_append_from_result", "C10_any_history"])
c("C11", "proved", ["C11_binary_append_from", "C11_append_from_returns", "C11_append_from_result", "C11_any_history"])
c("C12", "proved", ["C12_no_wrapped_offset"])
c("C13", "proved", ["C13_varint_roundtrip"])
c("C14", "proved", ["C14_varint_length", "C14_varint_short_buffer"])
c("C15", "proved", ["C15_varint_decode_total"])
c("C16", "proved", ["C16_varint_canonical"])
c("C17", "proved", ["C17_rle_roundtrip"])
c("C18", "proved", ["C18_rle_decode_any"])
c("C19", "proved", ["C19_rle_size", "C19_rle_run_size"])
c("C20", "proved", ["C20_rle_clear_like_new"])
c("C21", "proved", ["C21_put_from"])
c("C22", "proved", ["C22_ceil8", "C22_round_up", "C22_round_up_overflow", "C22_round_up_other"],
  "With a factor that is no power of two a debug build panics and a release build does not.")
c("C23", "partial", ["C23_offsets_recoverable_violated", "C23_offsets_recoverable_exact", "C23_offsets_recoverable_partial"],
  "False of the code: the trim drops bytes of the interleaved layout. Proved: a counterexample, the exact condition on item count and bit width under which nothing is lost, and simple sufficient cases.")
c("C24", "partial", ["C24_offsets_any_count_violated", "C24_offsets_any_count_partial", "C24_chunk_loop"],
  "False of the code for 0 items and for more than 128 (proved for all such lists); proved for 1 to 128 items.")
c("C25", "proved", ["C25_primitive_block", "C25_element_bytes"])
c("C26", "partial", ["C26_primitive_values_exact", "C26_primitive_values_iff", "C26_primitive_wrapped_exact", "C26_primitive_release_exact", "C26_primitive_release_values", "C26_primitive_values_partial", "C26_primitive_values_violated"],
  "False of the code: item count compared with a byte count drops values of later buffers. Proved, for block sizes that are multiples of the element size and for all block sizes in debug builds: exactly which values are written, exactly when all are, and a counterexample. C26_primitive_release_exact gives the rows and row ids of every block, and when the encoder panics, for all block sizes and nullabilities in release builds; C26_primitive_release_values which values are written when the block size is not a multiple.")
c("C27", "partial", ["C27_primitive_rows_exact", "C27_primitive_rows_iff", "C26_primitive_release_exact", "C27_primitive_rows_partial", "C27_primitive_rows_violated"],
  "False of the code: same loss as C26, and trailing nulls of each buffer are dropped. Proved: exactly which rows are written, exactly when all are, counterexamples.")
c("C28", "partial", ["C28_primitive_row_ids_partial", "C28_primitive_row_ids_iff", "C28_primitive_row_ids_violated"],
  "False of the code for nullable columns with two blocks in one call. Proved for non-nullable columns and for nullable ones with at most one block per call; proved exactly when the blocks are the column and all row ids are right; C26_primitive_release_exact gives all row ids in release builds.")
c("C29", "partial", ["C29_primitive_block_sizes_partial", "C29_primitive_wrapped_sizes", "C29_primitive_block_sizes_violated"],
  "False in release builds when the block size is not a multiple of the element size; proved for multiples, and for all block sizes in debug builds; for the other release builds, what the sizes are instead (C26_primitive_release_values for nullable columns).")
c("C30", "partial", ["C30_primitive_completes_partial", "C30_primitive_completes_exact", "C30_primitive_debug_exact", "C30_primitive_completes_violated"],
  "False of the code: underflow for block sizes that are not multiples, endless loop for block size 0, row counter overflow for nullable columns. Proved otherwise, with a bound on the rows of nullable columns; proved exactly which columns of fewer than 2^32 - 1 rows are encoded without a panic, for multiples and for debug builds; C26_primitive_release_exact says it for release builds with any block size.")
c("C31", "partial", ["C31_binary_block_partial", "C31_binary_block_violated", "C31_binary_block_exact", "C31_any_reader_exact", "C31_two_items", "readableLengths_128"],
  "False of the code: the offset encoder keeps too few bytes of the packed lengths, so two different columns give the same block. Proved for blocks whose lengths lose no bit, which includes all blocks of 128 items; proved that no reader can work in general. C31_binary_block_exact: for rows of any buffer that end with a value, the block is written and read back by the natural reader if and only if it has at most 128 items and its lengths lose no bit (buffers of fewer than 2^62 earlier rows, blocks of fewer than 2^32 - 7 rows). C31_any_reader_exact fixes no reader: rows are determined by their block and the number of their items if and only if no other lengths with the same sum share the kept bits; C31_two_items: two items always are.")
c("C32", "partial", ["C32_binary_values_partial", "C32_binary_values_violated", "C32_binary_second_chunk_violated", "C32_binary_values_exact", "C32_binary_data_exact", "C32_binary_blocks_exact"],
  "False of the code: chunk() returns a position relative to the start of the chunk. Proved for histories in which no buffer completes two blocks (Manageable). Proved exactly when the run completes with the data bytes of the column, nullable or not; for non-nullable columns proved exactly when the run completes and its blocks can be read back; proved that a full chunk not at the start of its buffer is never written correctly; counterexample. C32_binary_blocks_exact: what every block holds (row id, data, lengths, validity), for every column for which the calls return, rightly written or not.")
c("C33", "partial", ["C33_binary_completes_partial", "C33_binary_completes_violated", "C33_binary_completes_exact", "C33_binary_two_large_violated", "C33_leftover_full_violated", "C33_many_bytes_violated", "C33_many_values_violated", "C33_eight_kilobytes_violated", "C33_even_sizes_violated", "manageable_of_small", "C32_binary_values_exact", "C32_binary_data_exact"],
  "False of the code: a block that needs no more items than lie before it in its buffer, more than 128 items in a block, block size 0, and a byte string near the limit of 4 GiB after rows that were held back panic. Proved exactly which columns are encoded without a panic (nullable ones: those whose counted rows also stay below 2^32), and for Manageable histories what is written, with a plain sufficient condition. No large buffer is ever encoded, with any sink: with the block size of segment_writer.rs, none of more than 33024 values and none of 8320 bytes in values of at most 128.")
c("C34", "partial", ["C34_binary_row_ids_exact", "C34_binary_row_ids_partial", "C34_binary_row_ids_violated", "C34_binary_row_ids_iff", "C34_binary_nonnull_row_ids", "C32_binary_blocks_exact"],
  "False of the code: trailing nulls of a buffer are not counted, and a second block of a nullable buffer counts rows twice. Proved for Manageable histories: exact row ids, and the correct ones when buffers end with a value. Proved that these are exactly the histories with correct data and row ids. For non-nullable columns: proved that the row ids are correct whenever the calls return.")
c("C35", "partial", ["C35_binary_nulls_partial", "C35_binary_nulls_violated", "C35_binary_nulls_exact", "C35_binary_roundtrip_exact"],
  "False of the code: trailing nulls are dropped, and nulls reaching a reused leftover buffer become set bits. Proved for Manageable histories whose buffers end with a value, and that these are exactly the histories whose blocks and row ids describe the column; with the condition of C31 added, exactly those that can be read back; counterexamples.")
c("C36", "proved", ["C36_binary_leftovers", "C36_any_buffers"],
  "The sizes of the blocks for columns of fewer than 2^63 values.")
c("C37", "partial", ["C37_primitive_flush_idle", "C37_binary_flush_idle", "C37_primitive_flush_partial", "C37_binary_flush_partial", "C37_flush_twice_violated", "C37_primitive_flush_again_exact", "C37_binary_flush_again_exact"],
  "The first half holds. The second is false of the code: flush does not empty the held back rows, so a second flush writes them again. Exactly: every further flush writes the same block, with the row id moved on by its number of rows, until the count of rows would exceed a u32, when it panics.")
c("C38", "proved", ["C38_primitive_sink_errors", "C38_binary_sink_errors", "C38_column_writer_sink_errors"],
  "Encode and flush of both encoders with any sink, and the column writer on top of a failing data file.")
c("C39", "proved", ["C39_primitive_row_counts", "C39_binary_row_counts", "C57_primitive_offered_increase", "C57_binary_offered_increase", "C39_primitive_overflow_panics", "C39_binary_overflow_panics"],
  "Whole histories of the primitive encoder need a block size above 0 (the code uses 128). The two C57 theorems are for calls in any order, whatever they return, and any sink.")
c("C56", "partial", ["C56_primitive_mismatch_partial", "C56_binary_mismatch_partial", "C56_binary_small_mismatch_partial", "C56_primitive_mismatch_exact", "C56_binary_mismatch_exact", "C56_nullability_mismatch_violated"],
  "False of the code when nothing is held back and the buffer fills a block: the block is written with the buffer's layout. Proved when rows are held back or the buffer is smaller than a block; the binary encoder never returns normally. Exactly: with nothing held back the blocks offered are those of an encoder made for the buffer, and the primitive encoder returns normally if and only if nothing is left to hold back.")
c("C57", "proved", ["C57_row_ids_increase", "C57_primitive_offered_increase", "C57_binary_offered_increase"],
  "For block sizes above 0 (the code uses 128).")
c("C40", "proved", ["C40_position_is_length", "C40_block_range", "C40_writes_succeed"])
c("C41", "proved", ["C41_accepted_is_written", "C41_each_failure_reported_once", "C41_failure_is_reported"],
  "About the model of tokio::fs::File described in DESIGN.md.")
c("C43", "proved", ["C43_read_block", "C43_no_wrong_bytes", "C43_total"],
  "Files shorter than 2^63 bytes; failure to allocate the buffer is the subject of C95.")
c("C44", "proved", ["C44_results_in_order", "C44_prefix_in_order", "C44_at_most_two", "C44_ends", "C44_any_reads"],
  "About the model of futures' buffered() described in DESIGN.md.")
c("C45", "proved", ["C45_write_then_read", "C45_write_then_read_faulty"])
c("C42", "proved", ["C42_index_brackets_blocks", "C42_after_failed_write"],
  "For sinks on which no earlier write failed; C42_after_failed_write shows the condition is needed.")
c("C46", "proved", ["C46_files_framed"], "If no call reported an error and files stay below 2^64 bytes.")
c("C47", "proved", ["C47_data_is_columns", "C47_index_is_own"])
c("C48", "proved", ["C48_metadata_lists_closed"])
c("C51", "proved", ["C51_encoder_selection"])
c("C52", "partial", ["C52_stored_data_violated", "C52_stored_data_partial", "C52_stored_data_exact"],
  "False of the code: the Snappy encoder writes one constant block, and the raw blocks of different buffers can coincide. Proved for raw columns, nullable or not, on the histories C31 to C35 are proved for: the blocks and row ids determine the values, and the rows when no buffer ends with a null. For raw columns without nulls the exact condition is proved, among the histories the encoder handles and for any reader.")
c("C53", "partial", ["C53_index_locates_blocks_violated"],
  "False of the code for every column: BlockIndex::flush writes nothing and the layout is always 0..0.")
c("C54", "partial", ["C54_synced_survives_partial", "C54_index_implies_data_violated", "C54_between_fsyncs_violated"],
  "The first half is proved. The second half is false of the code for every segment: sync() syncs the index file before the data file.")
c("C49", "proved", ["C49_metadata_roundtrip", "C49_index_file_metadata"],
  "About the model of prost's encoding described in DESIGN.md, read by an independent reader of the wire format.")
c("C50", "proved", ["C50_names_safe", "C50_names_unique", "C50_names_differ_by_case"],
  "C50_names_differ_by_case: names can coincide on a file system that ignores case.")
c("C55", "partial", ["C55_seeds_given_partial", "C55_seeds_determined_partial", "C55_seeds_absent_violated"],
  "Proved when the option is given; false of the code when it is absent: the list is then one empty string.")
c("C58", "proved", ["C58_no_silent_failure"], "About the model of tokio::fs::File described in DESIGN.md.")
c("C59", "partial", ["C59_sync_after_close_partial", "C59_sync_exact", "C59_sync_reports_failures_violated"],
  "False of the code when the segment was not closed before sync(): tokio keeps the error of the pending write for a later call, and sync() consumes the writer. Proved when sync() follows a successful close(). Exactly: with or without close(), at most the one write pending on each file when sync() is called can be lost, and nothing is lost if and only if it succeeds.")
c("C60", "partial", ["C60_column_recovered_exact", "C60_nullable_recovered_exact", "C60_blocks_recovered", "C60_column_recovered_partial", "C60_nullable_recovered_partial", "C60_column_recovered_violated"],
  "False of the code: different columns can leave the same data file and index. Proved: the blocks of every column are recovered; exactly which raw columns can be decoded from them: the histories of C32 (C35 for nullable columns, where the reader is given the number of items of each block, which the index does not store; by C69 the bytes of a well-written column determine it).")
c("C61", "proved", ["C61_segments_do_not_interfere"],
  "About the model of a directory in Model/Store.lean (File::create truncates; each open file writes at its own offset).")
c("C62", "partial", ["C62_create_keeps_others_partial", "C62_create_destroys_violated"],
  "False of the code when the id is in use: File::create empties both files and new() succeeds. Proved for all other files.")
c("C63", "partial", ["C63_lifecycle_partial", "C63_second_start_panics_violated"],
  "False of the code: the calls panic if and only if two of them are starts, because the global subscriber can be set only once.")
c("C64", "proved", ["C64_main", "C64_version_text"],
  "Parsing of the command line is not modelled. The seeds are those of C55 when the option is given.")
c("C65", "partial", ["C65_retry_violated", "C65_binary_stuck_violated", "C65_primitive_flush_partial", "C65_binary_flush_partial", "C65_primitive_encode_partial", "C65_primitive_held_partial", "C65_binary_encode_partial", "C65_binary_held_partial", "C65_binary_full", "C65_binary_overfull"],
  "False of the code: rows are counted before the block is offered, and encode() keeps no record of how far it got. Proved instead: what exactly a repeated flush() offers, and a repeated encode(), whether or not it started with rows held back (a primitive encode() that does offers nothing at all).")
c("C66", "partial", ["C66_block_sizes_violated", "C66_block_sizes_partial", "C66_binary_sizes"],
  "False of the code: BLOCK_SIZE is 1 << 7, 128 bytes. Proved with 128 bytes instead, and for the binary encoder with any block size.")
c("C67", "partial", ["C67_dropped_call_violated", "C67_dropped_call_partial", "C67_position_exact", "C67_index_after_cut", "C67_column_cut", "C67_unnoticed"],
  "False of the code: write_block() moves the position before it awaits the write. Proved exactly: the position is the end of the file if and only if no write was dropped (dropped flushes are harmless), and what the file and the index hold otherwise.")
c("C68", "partial", ["C68_metadata_counts_violated", "C68_counts_exact"],
  "False of the code: the counts are always 0. Proved exactly: they are right if and only if the column has no rows; num_rows of the segment is whatever the caller announced.")
c("C69", "partial", ["C69_files_determine_columns_violated", "C69_blocks_determine_column", "C69_files_determine_columns_partial"],
  "False of the code: the block index is not written, and the counts are 0. Proved for segments with one raw column of any size, written as it "
  "should be (the histories of C35) and with lengths that lose no bit (C23): the data file determines the values of a nullable column, "
  "and those of another one but for empty values at its end. The counterexamples show that each of these restrictions is needed.")

c("C70", "partial", ["C70_primitive_overhead", "C70_binary_overhead_partial", "C70_binary_overhead_violated", "C70_binary_overhead_amplified", "C70_binary_overhead_bounded"],
  "Proved for primitive columns. False of the code for binary columns: a chunk that starts behind the beginning of its buffer is followed by one that starts too early, so bytes are written again and again. Proved for the histories of C32. C70_binary_overhead_amplified: at block size 2^d, one buffer of (d+1)*2^d bytes gives at least 2^d blocks of at least 2^d bytes (but the last). C70_binary_overhead_bounded, for every column whose calls return: at most as many blocks as values, and at most that many times the block size and the longest value in data bytes.")
c("C71", "partial", ["C71_after_flush_violated", "C71_primitive_after_flush_exact", "C71_binary_after_flush_exact",
  "C71_primitive_calls_exact", "C71_binary_calls_exact"],
  "False of the code: flush() does not clear the rows it wrote. Proved exactly: what is encoded later is written, block for block, as if the flush() had not been called, with row ids moved on by the rows it wrote; and for any calls after it and any sink, whether or not the sink refuses a block and the count of rows overflows.")
c("C72", "proved", ["C72_primitive", "C72_binary", "C72_bitmap", "C72_read_block", "C72_segment", "C72_store", "C72_functions",
  "C72_primitive_calls", "C72_binary_calls"],
  "About the arithmetic the model checks; sums and products the model takes on Nat cannot overflow (DESIGN.md, simplifications).")
c("C73", "partial", ["C73_batching_violated", "C73_primitive_same_rows", "C73_primitive_batching_iff", "C73_binary_batching_partial", "C73_binary_same_rows"],
  "False of the code: values are lost (C26) or written twice (C32) depending on where buffers end. Proved exactly for primitive columns (block sizes as in C26): blocks with the same rows are the same blocks, and several buffers are written like one exactly when nothing is lost. For binary columns: proved for the buffers the encoder writes correctly (exactly those of C35).")

c("C74", "partial", ["C74_rle_frames_partial", "C74_rle_malformed_panics", "C74_rle_too_long_debug", "C74_rle_debug_exact", "C74_rle_release_exact", "C74_rle_debug_wrong_iff", "C74_cut_frames", "C74_cut_frames_unique", "C74_encoder_frames", "C74_frames_unique", "C74_rle_long_runs_violated"],
  "False of the code: len << 3 drops bits silently, so after a run of 2^29 bytes all positions are wrong even with overflow checks; without them positions wrap. Proved for every byte string whose positions fit and for every malformed one. What the decoder does is stated exactly for every byte string in both builds: it reads the format with runs of 0x00 and 0xFF cut modulo 2^29 bytes; with overflow checks, exactly the inputs it gets wrong are characterised. The encoder writes such frames.")

c("C75", "partial", ["C75_primitive_lookup_exact", "C75_primitive_lookup_partial", "C75_primitive_lookup_violated", "C75_binary_lookup_exact", "C75_binary_lookup_violated", "C75_segment_lookup_partial", "C75_segment_nullable_partial"],
  "False of the code: trailing nulls of a buffer are not counted, and the second and later blocks of a nullable buffer count its rows again, so the wrong row is found or none. Proved exactly when every row is found, for both encoders (for the binary one, among the readings of the blocks that give the column back); for primitive columns that are not nullable, that exactly the rows written are found; and on the disk, for raw columns, that after a crash one read of the range given by the index finds the row: the rows as numbered without the trailing nulls of buffers if the column is nullable, and then by a reader that is told the number of items of the block, which the index does not say.")

c("C76", "partial", ["C76_footer_violated", "C76_index_violated", "C76_position_exact", "C76_index_exact", "C76_footer_exact"],
  "False of the code: write_block() moves the position before it writes and does not move it back when the write fails. Proved exactly, for every history: what is written with success is in the file entire and in order, but offsets and footer are too large by the number of bytes lost, which is 0 if and only if no write of that file has failed.")

c("C77", "partial", ["C77_primitive_violated", "C77_primitive_exact", "C77_primitive_partial", "C77_binary"],
  "Proved for the binary encoder, and for the primitive encoder with block sizes that are multiples of the element size or without overflow checks. False of the code otherwise: more than a block can be held back, and the room left underflows (C77_primitive_exact: then and only then). The theorems count values: they hold of buffers with nothing but nulls too, which are lost (C27, C35).")

c("C78", "proved", ["C78_compressed", "C78_one_form", "C78_same_iff"], "")

c("C79", "partial", ["C79_primitive_leftovers_partial", "C79_whole_block_held_violated", "C79_many_blocks_held_violated"],
  "False of the code: the number of values held back is compared with a number of bytes. Proved instead: at most one block for block sizes that are multiples of the element size, less than one value more with overflow checks, and always fewer values than a block has bytes. The first and the last of these bounds are shown to be reached, for every block size.")

c("C80", "partial", ["C80_footer_violated", "C80_index_violated", "C80_footer_exact", "C80_index_exact", "C80_footer_partial"],
  "False of the code: write_block() moves the position before it awaits the write. Proved exactly, for every history in which calls may be dropped and others may fail: offsets and footer are too large by the number of bytes lost, which is 0 if and only if no write of the file has failed and no call was dropped while it wrote to it; dropping a flush is harmless. For dropped futures of SegmentWriter::new and sync, after which there is no writer any more, see C92 and C93.")

c("C81", "partial", ["C81_whole_accepted", "C81_unsynced_recognised_violated", "C81_cut_recognised_violated", "C81_cut_recognised_partial",
  "C81_long_cut_recognised_partial"],
  "False of the code: the format has no checksum. For every segment with an id that is not all zeros a crash can leave an index file that looks complete and has another id; and there are segments whose index file looks complete when it is cut. Proved: the whole file looks complete; if a crash can only cut the file, and it is shorter than 3080 bytes and has no five zero bytes in a row before its footer, a file that is cut anywhere is recognised; the same up to 16 MiB, if the position of the metadata is not a multiple of 256 nor too early in the file, but for a cut by one byte (C81_long_cut_recognised_partial). That nothing is lost after a successful sync is C54.")

c("C82", "partial", ["C82_flush_twice_violated", "C82_flush_iff", "C82_second_flush_exact"],
  "False of the code: flush() writes the last piece and the byte that is not whole but does not forget them. Proved exactly: the result is right if and only if no bit was put before the last flush but one; and, for two flushes, what is written. The block encoders call clear() before each block (C20), so they are not affected.")

c("C83", "proved", ["C83_live_reads", "C83_reads_are_kept", "C83_within_len", "C83_live_stream", "C83_stream_within_len"],
  "Files shorter than 2^63 bytes. About the model of tokio::fs::File described in DESIGN.md.")
c("C84", "partial", ["C84_readable_at_once_violated", "C84_readable_exact", "C84_readable_later_partial"],
  "False of the code: write_block() returns while the last write of the block is in the background. Proved exactly: a block is certain to be read if and only if it ends before the pending write, which is of one buffer at most; and it can be read once a later block that is not empty, or flush(), has succeeded.")

c("C85", "partial", ["C85_inverted_violated", "C85_inverted_exact", "C85_primitive_partial"],
  "Proved for primitive buffers. False of the code for binary buffers: proved exactly that an inverted range is accepted if and only if overflow checks are off, neither buffer is nullable, the range is inside the source and its items are empty (sources of fewer than 2^63 items); the buffer is not changed, the length returned is wrapped.")

c("C86", "partial", ["C86_listed_violated", "C86_index_ignores_data", "C86_not_closed_partial", "C86_listed_partial"],
  "False of the code: close() completes the index file before it flushes the data file, and a failed background write is reported to whichever call comes next, which may belong to another column. Proved: exactly which columns the index lists whatever happens to the data file, that no index looks complete before close(), and that of a column whose calls all succeeded at most the one write then pending (one buffer) can be missing, whatever comes before and after.")

c("C87", "partial", ["C87_row_total_violated", "C87_told_is_counter", "C87_binary_nonnull_partial", "C87_two_columns", "C87_binary_exact", "C87_primitive_exact", "C87_primitive_release_exact", "C87_binary_total"],
  "False of the code: nulls at the end of a buffer are not counted, a nullable buffer of several blocks is counted several times, values the primitive encoder loses are not counted. Proved for binary columns that are not nullable whenever the calls return; exactly what is told for primitive columns (C87_primitive_exact for block sizes that are multiples of the element size and for debug builds, C87_primitive_release_exact for all release builds) and for every binary column whose calls return (C87_binary_total), with the exact condition for manageable histories.")

c("C88", "proved", ["C88_without_index", "C88_write_succeeds_iff", "C88_index_gets_stored_buffers", "C88_close"])

c("C89", "partial", ["C89_declared_index_violated", "C89_declared_index_exact"],
  "False of the code: every index type is accepted and written to the metadata, and no index is ever made. Proved exactly: the entries of a column agree if and only if its index type is NoIndex.")

c("C90", "partial", ["C90_same_files_violated", "C90_same_files_exact", "C90_same_files_partial"],
  "False of the code: the index file depends on the order in which HashMap iterates. Proved exactly: the data files are the same, the index files have the same length, and they are the same if and only if the maps were iterated in the same order; so the files are the same when only one name of a column is closed.")

c("C91", "proved", ["C91_memory"], "For capacities of at least 8; smaller ones give bitmaps that cannot be used (C04).")

c("C92", "partial", ["C92_stopped_creation_violated", "C92_stopped_creation_exact", "C92_failed_creation", "C92_stopped_creation_partial"],
  "False of the code: the index file is created, or emptied, before the data file is opened, and nothing removes it. Exactly: a file that was opened is there with a part of its signature at most, whatever it held before, and everything else is as before. Proved: what is left of the index file does not look complete, and a later successful creation with the same id leaves the same directory as if there had been no attempt.")
c("C93", "proved", ["C93_dropped_sync", "C93_whole_sync"],
  "No harm, but no promise either: see C54_between_fsyncs_violated.")

c("C94", "partial", ["C94_comments_violated", "C94_comments_exact", "C94_len_partial"],
  "False of the code: PrimitiveBuffer::len() does not count nulls, and validity() of primitive and binary buffers returns None where its comment says that it panics. Exactly: PrimitiveBuffer::len() is the number of rows if and only if there are no nulls; all other accessors do what their comments say.")

c("C95", "partial", ["C95_bad_range_violated", "C95_bad_range_exact", "C95_bad_range_partial", "C95_total"],
  "False of the code: read_block() allocates the whole range before it reads, so that a range longer than the memory ends the process; in release builds a reversed range can do so too. Proved exactly for which ranges that happens, and that all others give what C43 says.")
c("C96", "partial", ["C96_damage_violated", "C96_damage_exact", "C96_damage_partial", "C96_primitive_violated", "C96_primitive_exact", "C96_primitive_release_exact", "C96_elements"],
  "False of the code: nothing in a block protects the values. For every column that the encoder handles and whose values have a byte, another one is written with a single byte changed. Exactly: for columns with the same nulls and lengths the blocks differ in as many bytes as the values; for primitive columns the same (the values that get into blocks, for every block size: C96_primitive_exact without the wrapping subtraction, C96_primitive_release_exact for all release builds). Proved that lost bytes at the end of a file are noticed.")
c("C97", "partial", ["C97_same_id_violated", "C97_same_id_exact", "C97_last_prevails", "C97_last_decides", "C97_same_id_partial"],
  "False of the code: File::create empties the files that the first segment has open, and the first goes on writing behind what it wrote before. Exactly, for any history: the file is as long as the farther of the two got, each byte is what one of them wrote there after the second creation, and what neither wrote reads as 0. Proved that the second is alone if the first was synced before or has no more calls. At a place both wrote, the one who wrote last prevails (C97_last_prevails; C97_last_decides: there is always one).")
c("C98", "partial", ["C98_unchanged_violated", "C98_unchanged_partial", "C98_primitive_exact", "C98_binary_append_exact", "C98_binary_exact", "C98_binary_inverted_exact", "C98_binary_stuck", "C98_refused_values", "C98_refused_flush"],
  "False of the code: append_from() copies values, offsets and bytes before it checks anything, and BinaryBuffer::append() copies the bytes first. Proved: append_null() of every buffer and append() of bitmaps leave everything as it was; for the other calls exactly what is left. A BinaryBuffer with too many bytes refuses every value until clear(). An encoder that refused a buffer of the other nullability keeps its values: without nulls they are written by the next flush (C98_refused_values), with nulls flush panics (C98_refused_flush). append() of filled primitive and boolean buffers never panics (C05, C07). Reversed ranges of byte strings: C98_binary_inverted_exact.")
c("C99", "partial", ["C99_refused_violated", "C99_refused_partial", "C99_refused_exact", "C99_refused_encode", "C99_refused_small", "C99_refused_held", "C99_refused_flush", "C99_nullable_stuck", "C99_overfull"],
  "False of the code: the encoder copies the values before it finds that the nullability differs. Proved: a buffer without values leaves everything as it was (C99_refused_partial). In a column without nulls the state after the panic is the one after a write of the same values (C99_refused_exact), so they are stored. In a nullable column close() panics from then on and the rows held back are lost (C99_nullable_stuck). A debug build that holds back more than a block refuses every later buffer (C99_overfull). What is left of a buffer that would complete the block is C99_refused_held; what is offered for a larger one with nothing held back is C56.")
c("C100", "proved", ["C100_primitive_alike", "C100_binary_alike", "C100_primitive_calls", "C100_binary_calls"],
  "Both encoders, for columns that are encoded and flushed, and for calls in any order even after failures. The relation between the values of the two columns is arbitrary and is handed on to the values of the blocks.")

c("C101", "partial", ["C101_byte_order_violated", "C101_byte_order_partial", "C101_byte_order_exact", "C101_byte_order_blocks"],
  "False of the code: to_byte_slice takes the bytes from memory, so 1 is written as 0 0 0 1 on a big endian machine and read elsewhere as 16777216. Proved: the blocks are those a little endian machine writes for the column with the bytes of every value swapped (C101_byte_order_exact); number, row ids and lengths agree and a block is the same if and only if all its values have the same bytes from either end (C101_byte_order_blocks), which gives the property for such values (C101_byte_order_partial). Primitive columns only: what the bitpacking crate writes on a big endian machine is not in the repository.")
c("C102", "partial", ["C102_word_violated", "C102_reversed_violated", "C102_word_partial", "C102_word_exact", "C102_word_iff", "C102_total"],
  "False of the code: buf_len as usize keeps the low 32 bits, so of a range of 2^32 + n bytes the first n are returned without an error, and in release builds even a reversed range can be read. Proved: ranges of fewer than 2^31 bytes are read as on a 64-bit machine (C102_word_partial); of the ranges that the file has, those are read and no others (C102_word_iff); what is read of any range (C102_word_exact).")
c("C103", "partial", ["C103_found_violated", "C103_found_partial", "C103_found_exact"],
  "False of the code for every segment: only the files are synced and never the directory, so either name may be missing, or both. Proved: what may be found, exactly (C103_found_exact); on a file system that keeps the names of synced files both files are there and complete (C103_found_partial). C54 and the other properties about crashes take the names to survive.")
c("C104", "partial", ["C104_output_violated", "C104_output_partial", "C104_output_exact"],
  "False of the code: println! panics when the write fails, for instance on a pipe nobody reads from, before the server is made. Proved: otherwise, and if the descriptor is not open, the server is started (C104_output_partial), and which of the two happens (C104_output_exact).")
c("C105", "proved", ["C105_decode_steps", "C105_decode_stores"],
  "At most 8 * (input bytes + output entries + 1) iterations of the loops, for any input; the counting decoder returns what the decoder returns.")
c("C106", "partial", ["C106_empty_values_violated", "C106_binary_nulls_violated", "C106_primitive_nulls_violated",
  "C106_binary_held_partial", "C106_primitive_held_partial"],
  "False of the code: only bytes of values are counted, so any number of empty strings, or of nulls before a small value, is held back. Proved: columns without nulls and, for byte strings, without empty values.")

c("C107", "partial", ["C107_all_listed_violated", "C107_all_listed_partial", "C107_all_listed_exact"],
  "False of the code: a second column of the same name replaces the entry of the first, whose blocks stay in the data file. Proved: as many columns are listed as were closed exactly if their names differ, and then each as declared.")

c("C108", "partial", ["C108_declarations_violated", "C108_declarations_partial", "C108_declarations_exact"],
  "False of the code: nothing is checked. Proved: what is stored is what was declared, and until the segment is closed no call depends on declared types or the announced number of rows.")
c("C109", "partial", ["C109_primitive_with_validity_violated", "C109_binary_with_validity_violated",
  "C109_primitive_with_validity_partial", "C109_binary_with_validity_partial", "C109_primitive_calls_partial",
  "C109_binary_calls_partial", "C109_primitive_row_ids_iff", "C109_binary_row_ids_iff"],
  "False of the code as to the row ids of columns without nulls, because the position in the validity is counted again for every block of a call (C28, C34). Proved: all the rest, for both encoders and every positive block size, also for encode() and flush() in any order, the validity being the one compressed form (C78) of some rows; and, for primitive columns all of whose values are written and for all binary columns that are encoded, exactly when the row ids are the same.")
c("C110", "proved", ["C110_segment_close_again"],
  "For index files shorter than 2^64 bytes, as C46.")
c("C111", "partial", ["C111_column_close_again_violated", "C111_column_close_again_exact"],
  "False of the code: flush keeps the rows it writes (C37), so each further close writes the last block again as if it held new rows. Proved exactly: the metadata stay the same; nothing is added if the first close wrote nothing; otherwise each further close adds that block, with the row id moved on by its number of rows.")
c("C112", "proved", ["C112_primitive_column_steps", "C112_primitive_call_steps", "C112_block_steps_exact", "C112_append_steps_exact"],
  "For block sizes above 0 (the code uses 128; with 0 the loop does not end, encode_zero_diverges). Not counted: the time the sink takes and the zero bytes a full bitmap grows by, which C91 bounds. Nothing like it holds of binary columns with a constant for all block sizes: C70_binary_overhead_amplified.")
c("C113", "partial", ["C113_writer_fails_partial", "C113_writer_fails_violated", "C113_writer_fails_exact", "C113_snappy_writer"],
  "False of the code for every raw column with a buffer of more than 33024 values or of 8320 bytes in values of at most 128 bytes, whatever the file does. Proved exactly which raw columns a file without faults takes (those of C33), and that for these every first failure is one of the file. Files of 2^64 bytes and columns of 2^32 rows are left out.")
c("C114", "partial", ["C114_binary_column_linear_partial", "C114_binary_column_linear_violated", "C114_binary_steps_amplified", "C114_binary_column_steps", "C114_binary_call_steps", "C114_bytes_counted", "C114_append_steps_exact", "C114_block_steps_exact", "C114_chunk_steps_exact"],
  "False of the code: a call that completes several blocks goes through the same values again for each of them (the end of a chunk is counted from its start), so that a buffer of (d + 1) * 2^d bytes in fewer than 2 * 2^d values takes at least (2^d - 1) * 2^d steps at block size 2^d; at 4096 bytes that is more than the bound. Proved for the histories with Spec.Manageable, in which a call completes at most one block, and for all others, all sinks and however the calls end with the buffer's weight once more for each block offered to the sink.")
c("C115", "partial", ["C115_dropped_close_violated", "C115_dropped_close_exact", "C115_dropped_write_exact", "C115_dropped_write_held_partial", "C115_dropped_snappy"],
  "False of the code: rows are counted before the block is written. Proved exactly what a repeated close() offers (the same bytes, with a row id too large by the rows of the block, after the piece of it that was written) and what a repeated write() with nothing held back offers (all blocks of the buffer, with moved row ids). With rows held back, either the same or the held block is offered by close() with a moved row id; what a repeated write() does then is C65_binary_held_partial, with the dropped call as the sink that refuses.")
c("C116", "proved", ["C116_primitive", "C116_binary", "C116_bool", "C116_rows_passed"],
  "Steps are counted in Model/FillSteps: calls, bits, values and bytes copied, and every byte of a bitmap that is resized. Vec::push and extend_from_slice are taken to need constant time for each element.")
c("C117", "proved", ["C117_primitive", "C117_binary", "C117_primitive_calls", "C117_binary_calls"],
  "The row ids of the two may differ (C109).")
c("C118", "partial", ["C118_primitive_one_block", "C118_binary_one_block_partial", "C118_one_block_violated"],
  "False of the code for binary columns, because bytes are written again in the next block (C32). Proved for the histories of C32, and for primitive columns with fewer than 2^32 - 8 rows; in release builds only for block sizes that are multiples of the size of a value, as the 128 bytes of the code are.")
c("C119", "proved", ["C119_primitive", "C119_binary", "C119_primitive_from", "C119_binary_from", "C119_column", "C119_data_file"],
  "The theorems named _from start with any encoder, whatever it holds; C119_data_file says it of the data files of two segments.")
c("C120", "proved", ["C120_primitive", "C120_binary", "C120_column", "C120_column_calls", "C120_files", "C120_primitive_calls", "C120_binary_calls"],
  "Equality of the calls as functions of the encoder and the sink; what a panic leaves behind is included. C120_files: any history of segments in a directory leaves the same files.")
c("C121", "proved", ["C121_cut", "C121_cut_exact", "C121_unflushed", "C121_join"],
  "C121_cut_exact is about every sequence of frames whose positions fit, not only those the encoder writes.")
c("C122", "proved", ["C122_bitmap", "C122_put_from", "C122_primitive", "C122_binary", "C122_binary_ordered"],
  "Without a validity the position append_from() returns is the number of values of the last call; nothing reads it then.")
c("C123", "proved", ["C123_metadata", "C123_index_file"],
  "That the file does not grow with the blocks is also a symptom of C53: the block index is not written.")
c("C124", "proved", ["C124_metadata", "C124_any_order"],
  "Columns of the same name do not commute: the one closed last is listed (C107).")
c("C125", "proved", ["C125_idle"],
  "Only the block index is cleared, and nothing reads it before it is cleared again.")

if __name__ == "__main__":
    out = os.path.join(os.path.dirname(os.path.dirname(os.path.abspath(__file__))), "MANIFEST.json")
    with open(out, "w") as f:
        json.dump({"claims": C}, f, indent=1); f.write("\n")
