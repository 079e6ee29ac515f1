{"claims": [
 {"property": "C01", "status": "proved", "theorems": ["Divans.Ans.ans_round_trip", "Divans.Ans.ans_round_trip_split"], "note": ""},
 {"property": "C02", "status": "proved", "theorems": ["Divans.Ans.ans_round_trip_split", "Divans.Ans.ans_decode_split_independent"], "note": ""},
 {"property": "C03", "status": "proved", "theorems": ["Divans.Ans.ans_encode_total", "Divans.Ans.ans_state_bounds", "Divans.Ans.ans_no_wrap"], "note": ""},
 {"property": "C04", "status": "proved", "theorems": ["Divans.Ans.ans_bits_round_trip"], "note": ""},
 {"property": "C05", "status": "proved", "theorems": ["Divans.Cdf.cdf_slots_exact", "Divans.Cdf.opt_slots_exact"], "note": ""},
 {"property": "C06", "status": "proved", "theorems": ["Divans.Cdf.cdf_history_valid", "Divans.Cdf.builtin_speeds_safe"], "note": "Safe range: increment 0..5445, limit at most 2^14; it contains every built-in speed. For speeds beyond it see C39."},
 {"property": "C07", "status": "proved", "theorems": ["Divans.Cdf.opt_equals_plain"], "note": ""},
 {"property": "C08", "status": "partial", "theorems": ["Divans.Num.fast_divide_exact", "Divans.Num.table_eq_compute", "Divans.Num.fast_divide8_cast", "Divans.Num.fast_divide8_exact_partial", "Divans.Num.fast_divide8_not_exact"], "note": "16-bit divisors: proved in full. 8-bit variant: exact except divisor 1 with numerators from 32768 on, where the result is negative (proved by counterexample)."},
 {"property": "C09", "status": "proved", "theorems": ["Divans.Mux.mux_round_trip", "Divans.Mux.mux_round_trip_tail", "Divans.Mux.close_finishes", "Divans.Mux.serialize_bounded"], "note": "Every legal history: no push after the end was reported."},
 {"property": "C10", "status": "proved", "theorems": ["Divans.Mux.demux_split_independent", "Divans.Mux.demux_stops_at_end", "Divans.Mux.demux_stuck"], "note": "Input is offered again until nothing more is accepted, as the decoder does. demux_stuck shows a malformed stream that is neither accepted nor reported."},
 {"property": "C11", "status": "proved", "theorems": ["Divans.Mux.mux_cursors", "Divans.Mux.demux_cursors", "Divans.Mux.prep_keeps_unread", "Divans.Mux.prealloc_then_close_fails"], "note": "The unused entry point prealloc is excluded; prealloc_then_close_fails shows why."},
 {"property": "C12", "status": "proved", "theorems": ["Divans.Recode.recode_is_lz77", "Divans.Recode.recode_is_lz77_ring", "Divans.Recode.recode_many_is_lz77"], "note": "Distances from 1 to the ring size minus 1. Dictionary words are given after their transform: dictionary and transforms are in the brotli crate."},
 {"property": "C13", "status": "proved", "theorems": ["Divans.Recode.recode_split_independent", "Divans.Recode.recode_finishes", "Divans.Recode.recode_many_is_lz77"], "note": ""},
 {"property": "C14", "status": "partial", "theorems": ["Divans.Recode.copy_ends_partial", "Divans.Recode.encodeCmd_ends", "Divans.Recode.encodeCmd_bounds", "Divans.Recode.copy_too_far_fails", "Divans.Recode.copy_distance_zero_panics", "Divans.Recode.copy_ring_size_never_ends", "Divans.Recode.copy_beyond_ring_panics", "Divans.Recode.copy_beyond_ring_reads_elsewhere"], "note": "False as stated: distance 0 panics, a distance equal to the ring size loops forever, distances just above it panic or read elsewhere (all proved). True for 1 to ring size minus 1 and for distances beyond decode index plus ring size."},
 {"property": "C15", "status": "partial", "theorems": ["Divans.Codec.short_code_round_trip", "Divans.Codec.distance_cache_in_step", "Divans.Codec.short_code_never_zero", "Divans.Codec.cache_nonzero", "Divans.Codec.escape_code_zero_distance"], "note": "Codes and caches: proved for every history of valid commands. The last clause holds for the 15 short codes; the escape code can be decoded to distance zero from a stream no encoder produces (proved by witness)."},
 {"property": "C16", "status": "proved", "theorems": ["Divans.Codec.copy_round_trip"], "note": ""},
 {"property": "C17", "status": "proved", "theorems": ["Divans.Codec.literal_length_round_trip"], "note": "Length and flag; the bytes themselves are in the literal stream."},
 {"property": "C18", "status": "partial", "theorems": ["Divans.Codec.dict_round_trip", "Divans.Codec.dict_accepts_only_partial", "Divans.Codec.dict_accepts_missing_word", "Divans.Codec.dictionary_size"], "note": "Round trip proved; other word lengths and transforms are rejected on any input. False for the index: it is accepted up to the rounded-up number of nibbles, beyond the words of the dictionary (proved by witness)."},
 {"property": "C19", "status": "proved", "theorems": ["Divans.Codec.block_switch_round_trip", "Divans.Codec.command_stream_round_trip"], "note": "A stride forced by the options replaces the stride of the command, as intended."},
 {"property": "C20", "status": "proved", "theorems": ["Divans.Codec.context_map_round_trip", "Divans.Codec.command_stream_round_trip"], "note": ""},
 {"property": "C21", "status": "proved", "theorems": ["Divans.Crc.crc_correct", "Divans.Crc.crc_incremental"], "note": ""},
 {"property": "C22", "status": "proved", "theorems": ["Divans.Crc.crc_detects_window", "Divans.Crc.crc_detects_byte"], "note": ""},
 {"property": "C23", "status": "proved", "theorems": ["Divans.Frame.container_layout", "Divans.Frame.flush_finishes", "Divans.File.success_means_checked", "Divans.File.sumOk_spec", "Divans.File.whole_file"], "note": "Writing: container_layout, flush_finishes. Reading: success only with the right trailer for arbitrary input (success_means_checked), and a right trailer is never rejected (whole_file, sumOk_spec)."},
 {"property": "C24", "status": "proved", "theorems": ["Divans.Frame.container_layout", "Divans.Frame.window_clamped", "Divans.Frame.parseHeader_iff", "Divans.Frame.header_any_split", "Divans.Frame.own_header_good"], "note": ""},
 {"property": "C38", "status": "proved", "theorems": ["Divans.EndToEnd.coder_and_mux"], "note": ""},
 {"property": "C45", "status": "proved", "theorems": ["Divans.File.whole_file", "Divans.File.file_exists"], "note": "Dictionary words and their transforms are a parameter; the prediction mode speeds of the commands are in the safe range."},
 {"property": "C32", "status": "proved", "theorems": ["Divans.Cdf.average_usable", "Divans.Cdf.average_slots_exact", "Divans.Weights.weights_history", "Divans.Weights.weights_update_exact", "Divans.Cdf.average_arbitrary_fails"], "note": "Valid = reachable by adaptation with safe speeds. For arbitrary strictly increasing distributions it is false (average_arbitrary_fails)."},
 {"property": "C33", "status": "partial", "theorems": ["Divans.Weights.speed_nearest_partial", "Divans.Weights.builtin_speeds_exact", "Divans.Weights.speed_12288_lost"], "note": "True below 12288 and for all built-in speeds; false from 12288 on (counterexample proved)."},
 {"property": "C34", "status": "proved", "theorems": ["Divans.Adaptive.adaptive_round_trip", "Divans.Adaptive.adaptive_encode_total"], "note": ""},
 {"property": "C35", "status": "proved", "theorems": ["Divans.Codec.command_stream_round_trip", "Divans.Codec.not_finished_early", "Divans.Codec.command_stream_models", "Divans.Codec.command_stream_through_coder"], "note": ""},
 {"property": "C39", "status": "partial", "theorems": ["Divans.Cdf.cdf_history_valid", "Divans.Cdf.accepted_speed_overflows", "Divans.Weights.stream_speed_breaks", "Divans.Weights.stream_speed_negative"], "note": "The claim is false; the negation is proved with witnesses and the safe range is proved as cdf_history_valid."},
 {"property": "C41", "status": "partial", "theorems": ["Divans.Codec.decoder_no_panic_partial", "Divans.Codec.decoder_panics_iff", "Divans.Codec.malformed_length_panics", "Divans.Codec.malformed_distance_panics"], "note": "False: a copy length of more than 32 bits and a short code next to 2^31 overflow (proved by witness). decoder_panics_iff says exactly when, for every reachable state."},
 {"property": "C42", "status": "proved", "theorems": ["Divans.Codec.decoded_commands_bounded", "Divans.Codec.decoder_panics_iff", "Divans.Codec.distance_map_entries"], "note": "Lookups: the only one that can fail is the first of a copy after a literal announced with 2^32 bytes."},
 {"property": "C43", "status": "proved", "theorems": ["Divans.Pipe.any_schedule"], "note": "Dictionary words and their transforms are a parameter; the prediction mode speeds of the commands are in the safe range. The bytes arrive per stream here; the container around them is separate."},
 {"property": "C44", "status": "proved", "theorems": ["Divans.Lit.nibChoice_total", "Divans.Lit.sendBytes_total", "Divans.Lit.obsPm_ok"], "note": ""},
 {"property": "C25", "status": "partial", "theorems": ["Divans.Io.reader_orderly", "Divans.Io.reader_output", "Divans.Io.reader_eof_all_fed", "Divans.Io.reader_eof_partial", "Divans.Io.second_eof_is_real", "Divans.Io.premature_eof", "Divans.Io.read_returns", "Divans.Io.read_empty_never_returns", "Divans.Io.source_error_reported", "Divans.Io.error_loses_output"], "note": "Feeding in order, once, and finalising after the end of the source: proved for every codec, source and history. End of file only after the codec has finished: proved for codecs that take all their input, and for the second end of file in a row; false in general (premature_eof). After an error of the source the codec is finalised too and its last output is lost."},
 {"property": "C26", "status": "partial", "theorems": ["Divans.Io.writer_forwards", "Divans.Io.write_takes_all", "Divans.Io.flush_finishes_partial", "Divans.Io.decompressor_writer_never_closes", "Divans.Io.truncation_unreported", "Divans.Io.trailing_ignored", "Divans.Io.second_flush_does_nothing"], "note": "Forwarding: proved for every history. Flush finalises: proved for the compressing writers, false for the decompressing writer, which never closes its codec."},
 {"property": "C27", "status": "partial", "theorems": ["Divans.RawCmd.raw_lossless_partial", "Divans.RawCmd.raw_lossless_iff", "Divans.RawCmd.raw_not_lossless", "Divans.RawCmd.bytes_sent", "Divans.RawCmd.never_panics", "Divans.RawCmd.flush_completes", "Divans.RawCmd.stream_asks", "Divans.RawCmd.mode_first"], "note": "False: an input of three ring sizes less one byte, offered in one piece, is sent with one byte too many (raw_not_lossless). raw_lossless_iff says exactly for which histories it holds; raw_lossless_partial: for every input up to the ring size."},
 {"property": "C28", "status": "partial", "theorems": ["Divans.Hand.data_in_order", "Divans.Hand.data_all", "Divans.Hand.rejected_kept", "Divans.Hand.commands_in_order", "Divans.Hand.commands_all", "Divans.Hand.pull_never_panics", "Divans.Hand.refused_command_kept", "Divans.Hand.blocks_in_order", "Divans.Hand.maps_not_lost", "Divans.Hand.reported_was_broadcast_partial", "Divans.Hand.worker_sees_error", "Divans.Hand.later_error_wins", "Divans.Hand.main_error_not_in_pull", "Divans.Threads.two_threads_in_order"], "note": "Order, nothing lost or twice, bounded number pending: proved for every sequence of calls of the two sides, and for every interleaving of the two threads (two_threads_in_order). Errors: every reported error was broadcast; but with several the last one is reported, not the first (later_error_wins)."},
 {"property": "C29", "status": "proved", "theorems": ["Divans.Alloc.freed_exactly_once", "Divans.Alloc.never_twice", "Divans.Alloc.no_panic", "Divans.Alloc.large_enough", "Divans.Alloc.cleared", "Divans.Alloc.reuse", "Divans.Alloc.long_cell_cut"], "note": "For every underlying allocator and every history of allocations, frees, writes, disassembly and reassembly. Requests of 2^32 elements or more are outside what a prefix can express: their length is cut to 32 bits (long_cell_cut)."},
 {"property": "C30", "status": "partial", "theorems": ["Divans.Grow.committed_kept", "Divans.Grow.checkout_total", "Divans.Grow.one_more_honoured", "Divans.Grow.request_honoured_partial", "Divans.Grow.requests_honoured_iff", "Divans.Grow.request_gets_nothing"], "note": "Committed bytes: proved for every history. Requested space: honoured exactly for requests up to 33000 elements (requests_honoured_iff); false beyond."},
 {"property": "C31", "status": "partial", "theorems": ["Divans.Reg.register_fifo_partial", "Divans.Reg.spec_is_fifo", "Divans.Reg.pop_eight_panics", "Divans.Reg.pop_eight_corrupts", "Divans.Reg.register_not_fifo"], "note": "True unless one pop takes all eight bytes; then it panics (debug) or leaves stale bits (release), both proved."},
 {"property": "C36", "status": "proved", "theorems": ["Divans.Opt.optimised_same_bytes", "Divans.Opt.offset_pair_breaks"], "note": "For every outcome of the estimates. The two pieces of the input are adjacent with the first at offset 0, as the brotli crate provides them; otherwise false (offset_pair_breaks)."},
 {"property": "C37", "status": "partial", "theorems": ["Divans.Text.literal_text", "Divans.Text.literal_line", "Divans.Text.commands_parse", "Divans.Text.accepted_says", "Divans.Text.parseNat_iff", "Divans.Text.crash_only_partial", "Divans.Text.ltype_without_stride_crashes", "Divans.Text.block_type_cut", "Divans.Text.probabilities_rejected"], "note": "Literal data and whole commands: proved, in both directions for literals. Rejection without a crash: true except for the line 'ltype' with one number, which panics (crash_only_partial says exactly when, ltype_without_stride_crashes is the witness)."},
 {"property": "C40", "status": "partial", "theorems": ["Divans.Recode.context_is_last_eight_partial", "Divans.Recode.context_reversed_at_ring_start"], "note": "False at the first eight positions of the ring, where the order is reversed (proved)."},
 {"property": "C46", "status": "partial", "theorems": ["Divans.Threads.main_sleeps_only_if_blocked", "Divans.Threads.worker_sleeps_only_if_blocked", "Divans.Threads.no_panic", "Divans.Threads.deadlock_only_without_input_partial", "Divans.Threads.no_deadlock_in_flight", "Divans.Threads.deadlock_reachable", "Divans.Threads.deadlock_forever", "Divans.Threads.error_does_not_wake", "Divans.Threads.error_frees_force"], "note": "No lost wake-up, no failed assertion: proved. Deadlock: impossible while a buffer is in flight; reachable with a file whose command stream ends early (deadlock_reachable, deadlock_forever). Freeing part-way hangs when the worker waits for data (error_does_not_wake)."},
 {"property": "C47", "status": "partial", "theorems": ["Divans.Opt.optimiser_no_crash_partial", "Divans.Opt.optimiser_answers_partial", "Divans.Opt.optimiser_crashes"], "note": "True when arithmetic wraps or no distance is below 3; false of builds that check arithmetic (optimiser_crashes)."},
 {"property": "C48", "status": "partial", "theorems": ["Divans.Lit.literal_context_partial", "Divans.Lit.coded_in", "Divans.Lit.stride_byte", "Divans.Lit.literal_context_reversed"], "note": "True except for the first two bytes of a literal that begins at the first eight positions of the ring, where the order of the bytes is reversed (literal_context_reversed, see C40). Which context map entries are in force is C20."},
 {"property": "C49", "status": "proved", "theorems": ["Divans.Compressor.command_calls", "Divans.Compressor.command_calls_end", "Divans.Compressor.flush_in_command"], "note": "flush_in_command: flush with a command half taken reports a failure. A call with an empty list of commands panics and is excluded."},
 {"property": "C50", "status": "partial", "theorems": ["Divans.Compressor.raw_calls_partial", "Divans.Compressor.raw_calls_end", "Divans.Compressor.rawPm_valid"], "note": "No panic, no failure, progress: proved for every history. The bytes: proved as long as not more than two windows less two bytes are taken (C94 has the exact lengths); beyond that bytes can come back twice (C27), never fewer, and if the length is right then so are the bytes."},
 {"property": "C51", "status": "partial", "theorems": ["Divans.Fast.fast_any_schedule_partial", "Divans.Fast.fast_path_starves"], "note": "Proved for everything the compressor produces. False of other input: a refill note survives the chunk boundary, so the fast path can read from a state that waits for input (fast_path_starves); a debug build panics."},
 {"property": "C52", "status": "proved", "theorems": ["Divans.Damage.accepted_end", "Divans.Damage.truncated_never_accepted", "Divans.Damage.rest_untouched"], "note": ""},
 {"property": "C53", "status": "proved", "theorems": ["Divans.Damage.damage_detected", "Divans.Damage.crc_detects_burst"], "note": "Damage that moves the end of the streams can in principle be accepted with bytes left over; the claim is about files accepted to their last byte."},
 {"property": "C54", "status": "partial", "theorems": ["Divans.File.success_once_partial", "Divans.Pipe.streams_once_partial", "Divans.File.success_depends_on_buffers", "Divans.Call.success_depends_on_rooms"], "note": "Proved for runs in which every copy has a positive distance below the window. False without that: a copy from a little more than a window back works or panics depending on the output buffers (success_depends_on_buffers; success_depends_on_rooms shows it with the calls of decode)."},
 {"property": "C55", "status": "proved", "theorems": ["Divans.Call.decode_protocol"], "note": "Without the fast path for literals (C51) and without a thread for the worker (C28, C46)."},
 {"property": "C56", "status": "partial", "theorems": ["Divans.Compressor.round_trip_commands", "Divans.Compressor.round_trip_raw_partial"], "note": "Commands: proved for lists of any length. Raw input: proved up to two windows less two bytes; beyond that false for some lengths and cuts (C27, C94)."},
 {"property": "C57", "status": "partial", "theorems": ["Divans.Io.decompressor_reader", "Divans.Io.decompressor_reader_truncated", "Divans.Io.decompressor_reader_hangs", "Divans.Io.reader_round_trip_partial"], "note": "Proved for sources that hold exactly a file, and for truncated files. False when the source goes on behind the file: after the data read never returns (decompressor_reader_hangs, for every file and every bytes behind it)."},
 {"property": "C58", "status": "partial", "theorems": ["Divans.Io.compressor_reader_partial", "Divans.Io.compressor_writer_any", "Divans.Io.compressor_writer_partial", "Divans.Io.compressor_writer_wrong", "Divans.Io.writer_round_trip_partial"], "note": "The reader: proved for input up to a window full; beyond that it may report the end of the file early (C25). The writer: always ends and reports success; the bytes come back up to two windows less two bytes; beyond that some can come back twice (C27), for some lengths always (compressor_writer_wrong)."},
 {"property": "C59", "status": "partial", "theorems": ["Divans.Io.decompressor_writer", "Divans.Io.decompressor_writer_accepts_truncated"], "note": "Whole files: proved. False of truncated files: all writes and the flush report success for every beginning of every file (decompressor_writer_accepts_truncated)."},
 {"property": "C60", "status": "partial", "theorems": ["Divans.Simd.builds_send_same", "Divans.Simd.builds_receive_same", "Divans.Simd.builds_interoperate", "Divans.Simd.builds_send_total", "Divans.Simd.simd_crc_same", "Divans.Simd.builds_differ_unsafe"], "note": "Proved for speeds in the safe range (which has all built-in ones). False beyond it: with a speed the option parser accepts, the default build and the vector builds write different bytes (builds_differ_unsafe). The instructions are modelled after their documentation."},
 {"property": "C61", "status": "proved", "theorems": ["Divans.Call.call_success_means_checked", "Divans.Call.call_accepted_end", "Divans.Call.call_truncated", "Divans.Call.call_rest", "Divans.Call.call_damage_detected"], "note": "Without the fast path for literals (C51) and without a thread for the worker (C28, C46)."},
 {"property": "C62", "status": "partial", "theorems": ["Divans.Call.every_call_ends", "Divans.Call.every_call_bounded", "Divans.Call.success_stays", "Divans.Call.success_last", "Divans.Call.rest_is_never_taken", "Divans.Call.endless_loop_needs_window_copy", "Divans.Call.endless_loop_on_a_file", "Divans.Call.broken_end_marker_asks_forever"], "note": "Proved except for one loop inside the recoder, which the model counts as a panic: it runs forever on a copy from a distance of exactly the window, and only then (or with a dictionary word of 1024 bytes or more); endless_loop_on_a_file is a file of 46 bytes that does it. Without the fast path for literals and without a thread."},
 {"property": "C63", "status": "partial", "theorems": ["Divans.Ffi.setting_accepted_iff", "Divans.Ffi.settings_order", "Divans.Ffi.speeds_order_matters", "Divans.Ffi.late_settings_do_nothing", "Divans.Ffi.null_pointers", "Divans.Ffi.c_session_partial", "Divans.Ffi.example_exact", "Divans.Ffi.example_round_trip_partial", "Divans.Ffi.mixing_accepted_then_panics"], "note": "Settings, late settings and null pointers for any compressor behind the interface; sessions and the example program for the internal choice of commands (the brotli-driven one is C93), mixing below 8 (from 8 on it panics, proved), prior depth below 16, restoring for at most two windows less two bytes in any calls; the example program for exactly the lengths of C94."},
 {"property": "C64", "status": "partial", "theorems": ["Divans.Io.reader_end_means_complete_partial", "Divans.Io.end_of_file_without_file"], "note": "For all bytes without a broken end marker (`ff` not followed by `fe ff` where a block should begin). For bytes with one it is false: 18 bytes that are no file are read to the end without an error."},
 {"property": "C65", "status": "partial", "theorems": ["Divans.Call.crash_has_a_cause_partial", "Divans.Call.words_are_not_the_cause", "Divans.Call.no_cause_no_crash", "Divans.Call.crash_on_a_file"], "note": "False: a file of 65 bytes crashes the decompressor (crash_on_a_file: a copy from beyond the window). Proved for all bytes and all calls: every crash happens in one of five situations (length or distance of a copy leaves its type, a speed above 0x4000, a copy by the recoder from distance 0 or from a window or more back). The first four are failures only of builds that check arithmetic and debug assertions. Without the fast path for literals (C51) and without a thread; the counters of the distributions wrap in the model."},
 {"property": "C66", "status": "partial", "theorems": ["Divans.Cli.decompress_tool", "Divans.Cli.decompress_tool_cut", "Divans.Cli.decompress_tool_any", "Divans.Cli.decompress_tool_hangs"], "note": "Proved, except that it need not end on bytes that are no file: a broken end marker and a buffer full of bytes make it run forever (decompress_tool_hangs). On which other bytes it ends is C69."},
 {"property": "C67", "status": "partial", "theorems": ["Divans.Cli.compress_tool_partial", "Divans.Cli.compress_tool_interrupted", "Divans.Cli.interrupted_read_doubles", "Divans.Cli.compress_tool_detects", "Divans.Cli.tools_round_trip_partial"], "note": "Proved for sources without interruptions, up to three windows less two bytes of data (C94). With an interrupted read it is false: the bytes of the last read are compressed once more (interrupted_read_doubles); compress_tool_interrupted says what is compressed in general. With the internal choice of commands (-nobrotli); with brotli's see C72."},
 {"property": "C68", "status": "proved", "theorems": ["Divans.Call.output_bounded", "Divans.Call.asks_for_room_bounded"], "note": "The bound is 65537 nibbles per byte times 2^32 + 15 bytes per nibble: no sharp one. Without the fast path for literals (C51) and without a thread for the worker (C28, C46)."},
 {"property": "C69", "status": "partial", "theorems": ["Divans.Cli.decompress_tool_ends_partial", "Divans.Cli.decompress_tool_hangs", "Divans.Io.every_write_returns", "Divans.Io.successful_writes", "Divans.Io.reader_ends_partial", "Divans.Io.decompressor_reader_hangs"], "note": "The program: proved except for input of at least a buffer full that has a broken end marker or the end of a file with something behind it; false for the first (decompress_tool_hangs). The writer: proved, with what it means that all writes succeed. The reader: proved for sources without errors, except for bytes with a broken end marker or with something behind the end of a file; false for the latter (decompressor_reader_hangs, C57)."},
 {"property": "C70", "status": "partial", "theorems": ["Divans.Hybrid.hybrid_round_trip_partial", "Divans.Hybrid.hybrid_ends_partial", "Divans.Hybrid.optimiser_error_unreported", "Divans.Hybrid.optimiser_error_then_panic", "Divans.Hybrid.optimiser_error_then_success"], "note": "Brotli's encoder is any machine that keeps the contract Meets; proved as long as the optimiser between brotli and the codec does not give up on a metablock. When it does, encode reports nothing and the compressor panics later, or flush fails once and then reports success with a file that lacks the metablock and the end (proved)."},
 {"property": "C71", "status": "partial", "theorems": ["Divans.Hybrid.hybrid_reader_partial", "Divans.Hybrid.hybrid_writer_partial", "Divans.Hybrid.hybrid_writer_rejects", "Divans.Hybrid.hybrid_reader_empty"], "note": "Proved for encoders that take all the input of every call. Otherwise it is false: a write is rejected with TrailingInput, and a reader whose source ends while input is left gives an empty file without an error (proved for every encoder that keeps the contract and leaves input in its first call)."},
 {"property": "C72", "status": "partial", "theorems": ["Divans.Hybrid.hybrid_tool_partial", "Divans.Hybrid.hybrid_tools_round_trip_partial", "Divans.Hybrid.hybrid_tool_doubles", "Divans.Cli.compress_tool_detects"], "note": "Brotli's encoder is any machine that keeps the contract Meets, with an optimiser that does not give up (C70). Proved for sources without interruptions, without a limit on the length. With an interrupted read it is false: the bytes of the last read are compressed once more (hybrid_tool_doubles)."},
 {"property": "C73", "status": "partial", "theorems": ["Divans.Ir.ir_tools_agree_partial", "Divans.Ir.compress_ir_tool_partial", "Divans.Ir.recode_tool_partial", "Divans.Ir.printed_parse"], "note": "For commands that are valid (copies within the window and within what has been produced, dictionary words with the right announced size) and the windows from 10 to 24 bits; options with which the compressor's own prediction mode can be coded (speeds in the safe range, mixing below 8, prior depth below 16). How the brotli crate packs prediction modes is a parameter."},
 {"property": "C74", "status": "partial", "theorems": ["Divans.Ir.no_line_passed_over", "Divans.Ir.wrong_line_partial", "Divans.Ir.blank_line_wrong", "Divans.Text.crash_only_partial"], "note": "Never passed over: proved for all sources, sinks and commands. Reported as an error of the text: proved of -i (except for the line 'ltype N', C37); false of -recode, which panics, on a blank line for instance (wrong_line_partial)."},
 {"property": "C75", "status": "partial", "theorems": ["Divans.Ir.trait_flush_loses"], "note": "False: flush of the trait does nothing and reports success; whenever the output is full at the last command, the rest of the bytes is lost (proved for all command lists). The method flush of the type itself is right (C12, C73)."},
 {"property": "C76", "status": "partial", "theorems": ["Divans.Blend.blend_history_usable", "Divans.Blend.blend_round_trip", "Divans.Blend.blend_encodes", "Divans.Blend.avoid_divide_disagrees", "Divans.Blend.avoid_divide_garbles"], "note": "Proved for all histories in builds without avoid-divide. Together with avoid-divide it is false: the receiver finds a slot for symbol 15 that is one larger than the sender's, whatever has been learnt, and what follows is garbled (proved)."},
 {"property": "C77", "status": "partial", "theorems": ["Divans.Blend.average_usable_partial", "Divans.Blend.average_loses_symbol", "Divans.Blend.average_weight_reversed"], "note": "False: four and six times symbol 0, mixed with the initial weight, leave symbol 8 without a slot, and coding it divides by zero. Proved unless the last entry of the mixture is from 21824 to 21833. The weight is that of the second distribution, where the default build gives it to the first (proved)."},
 {"property": "C78", "status": "partial", "theorems": ["Divans.Args.setting_understood", "Divans.Args.arguments_understood", "Divans.Args.third_name_crashes", "Divans.Args.after_dashes", "Divans.Args.last_number_counts", "Divans.Args.last_program_counts", "Divans.Args.speeds_in_order", "Divans.Args.surprises"], "note": "Proved: every setting with every value in range and up to two names, in any order, are understood; the last number counts; a third name is rejected. False in part (surprises): an unknown option is taken for a file name, --recode has no effect without -d, -nobrotli overrides an earlier -i or -d, -mixing and -priordepth are cut to 8 bits, and speeds depend on their order (speeds_in_order)."},
 {"property": "C79", "status": "partial", "theorems": ["Divans.Main.compress_file", "Divans.Main.decompress_file", "Divans.Main.files_round_trip", "Divans.Main.internal_files_round_trip_partial", "Divans.Main.brotli_files_round_trip_partial", "Divans.Main.pipe_round_trip", "Divans.Main.only_output_changes", "Divans.Main.no_input", "Divans.Main.cut_input", "Divans.Main.success_is_checked", "Divans.Main.same_name_loses", "Divans.Main.same_name_destroys", "Divans.Main.no_runs_empty"], "note": "Proved for different names, at least one run, and compressors that are faithful: with -nobrotli up to three windows less two bytes of data (C94), mixing below 8, prior depth below 16 and speeds in the safe range; with brotli's encoder under the contract of C70. False when input and output have the same name (the data is lost, without an error when compressing) and with -benchmark=0 (an empty output, without an error). Threads are in C89."},
 {"property": "C80", "status": "partial", "theorems": ["Divans.Bits.bit_never_fails", "Divans.Bits.bit_counts", "Divans.Bits.adaptive_bits_round_trip", "Divans.Bits.bit_table_partial", "Divans.Bits.bit_table_loses_false", "Divans.Bits.bit_ranges_disagree"], "note": "Proved for the coding of bits by the entropy coder. False of the distribution's own tables: after 255 times true no offset means false and the range of true does not fit 16 bits (bit_table_loses_false), and the range given to an encoder is never the one given to a decoder (bit_ranges_disagree)."},
 {"property": "C81", "status": "proved", "theorems": ["Divans.Bits.nibble_bits", "Divans.Bits.nibbles_bits", "Divans.Bits.nibble_chances", "Divans.Bits.nibbles_coded", "Divans.Bits.nibbles_by_bits_round_trip", "Divans.Bits.certain_bit_costs_most"], "note": "nibble_bits is for any coder of bits and any distribution. certain_bit_costs_most shows that the condition of nibble_chances is needed: a certain bit wraps to the least likely one, and a nibble without a share divides by zero."},
 {"property": "C82", "status": "partial", "theorems": ["Divans.Bits.debug_encoder", "Divans.Bits.debug_serves", "Divans.Bits.debug_nibble", "Divans.Bits.debug_decoder_waits"], "note": "Proved of the encoder (in runs that no check stops: a full register taken at once is C31) and of the decoder while bytes are in its register. False of the end of the input (debug_decoder_waits): the decoder waits for eight bytes although four are left and enough."},
 {"property": "C83", "status": "partial", "theorems": ["Divans.Main.text_file_partial", "Divans.Main.recode_file_partial", "Divans.Main.text_ways_agree_partial", "Divans.Main.wrong_text_file_partial", "Divans.Main.text_success_understood"], "note": "For commands that are valid (C73), windows from 10 to 24 bits, mixing below 8, prior depth below 16, speeds in the safe range, and systems whose writes take something. That success means that every line was understood is proved for all settings, inputs and sinks. A wrong line is assumed to come after commands that are valid."},
 {"property": "C84", "status": "proved", "theorems": ["Divans.Par.threaded_decode_protocol", "Divans.Par.made_serves", "Divans.Par.always_iff"], "note": "Every operation under the mutex is one step; that a sleeping thread is woken is C46. always_iff spells out what holds under every schedule. What the compressor and the tools write is served too: Restores in CompProps contains Par.Serves."},
 {"property": "C85", "status": "proved", "theorems": ["Divans.Par.threaded_success_means_checked", "Divans.Par.threaded_accepted_end", "Divans.Par.threaded_truncated", "Divans.Par.threaded_rest", "Divans.Par.threaded_damage_detected", "Divans.Par.threaded_same_output"], "note": "Histories in which every call returned; that calls return on any bytes is a different matter. Without the condition on the window the output depends on the buffers already without threads (C54)."},
 {"property": "C86", "status": "partial", "theorems": ["Divans.Par.threaded_call_stops", "Divans.Par.threaded_call_waits_partial", "Divans.Par.threaded_call_bounded", "Divans.Par.early_file_hangs", "Divans.Par.panic_hangs"], "note": "False: a file whose streams end before its commands makes both threads wait for ever, and a panic of the worker is told to nobody, so the caller waits for ever; witnesses are early_file_hangs and panic_hangs. Proved: no infinite sequence of steps, and those are the only reasons to wait."},
 {"property": "C87", "status": "proved", "theorems": ["Divans.Par.threaded_reader", "Divans.Par.threaded_reader_truncated", "Divans.Par.threaded_reader_hangs", "Divans.Par.threaded_writer", "Divans.Par.threaded_writer_accepts_truncated", "Divans.Par.threaded_tool", "Divans.Par.threaded_tool_cut", "Divans.Par.threaded_tool_any", "Divans.Par.threaded_tools_round_trip_partial", "Divans.Par.threaded_example", "Divans.Par.every_interleaving"], "note": "As without a thread, threaded_reader_hangs and threaded_writer_accepts_truncated record what the reader does with bytes behind the file and the writer with a file that is cut off. every_interleaving: quantifying over schedulers is quantifying over interleavings. threaded_tools_round_trip_partial inherits the window limit of C67."},
 {"property": "C88", "status": "proved", "theorems": ["Divans.Par.free_settles", "Divans.Par.free_after_success", "Divans.Par.free_reason", "Divans.Par.free_hangs", "Divans.Par.free_header_hangs", "Divans.Par.tool_frees", "Divans.Par.tool_header_hangs"], "note": "free_hangs, free_header_hangs and tool_header_hangs are the negative part: freeing need not return. A worker whose thread has not begun when the lock is taken is not modelled."},
 {"property": "C89", "status": "partial", "theorems": ["Divans.Main.compress_file_threads", "Divans.Main.decompress_file_threads", "Divans.Main.compress_unpacks_threads", "Divans.Main.files_round_trip_threads", "Divans.Main.internal_files_round_trip_threads_partial", "Divans.Main.pipe_round_trip_threads", "Divans.Main.serial_same", "Divans.Main.only_output_changes_threads", "Divans.Main.cut_input_threads", "Divans.Main.success_is_checked_threads", "Divans.Main.unpacked_is_checked_threads", "Divans.Main.refused_threads", "Divans.Main.header_hangs_threads"], "note": "Partial as C79: -nobrotli up to three windows less two bytes, or a compressor that is faithful. header_hangs_threads is the negative part: a cut file may make the program hang. What free does after a call of decode has failed or panicked is not modelled; the program is taken to end with that error."},
 {"property": "C90", "status": "proved", "theorems": ["Divans.Prior.has_model", "Divans.Prior.own_model", "Divans.Prior.all_used", "Divans.Prior.raw_models", "Divans.Prior.refused", "Divans.Prior.learns_own", "Divans.Prior.unlisted_shares", "Divans.Prior.unchecked_shares", "Divans.Prior.command_models", "Divans.Prior.settings_share", "Divans.Prior.nibble_models", "Divans.Prior.mixed_models"], "note": "For every table the macro can make. unlisted_shares, unchecked_shares and settings_share say where models are shared."},
 {"property": "C91", "status": "proved", "theorems": ["Divans.Meter.same_slots", "Divans.Meter.same_nibbles", "Divans.Meter.interchange", "Divans.Meter.findspeed_shows", "Divans.Meter.entropy_shows", "Divans.Meter.findspeed_measures", "Divans.Meter.findspeed_healthy", "Divans.Meter.entropy_measures", "Divans.Meter.billing_same", "Divans.Meter.billing_measures", "Divans.Meter.moved_not_billed"], "note": "Floating point costs are any arithmetic; virtual bits are whole numbers (exact below 2^53). moved_not_billed is the negative part."},
 {"property": "C92", "status": "proved", "theorems": ["Divans.CAlloc.proper", "Divans.CAlloc.inner_proper", "Divans.CAlloc.all_returned", "Divans.CAlloc.freed_all", "Divans.CAlloc.only_empty_left", "Divans.CAlloc.held_is_live", "Divans.CAlloc.one_heap", "Divans.CAlloc.cell_asks", "Divans.CAlloc.malloc_asks", "Divans.CAlloc.malloc_wraps", "Divans.CAlloc.alloc_alone_improper", "Divans.CAlloc.free_alone_improper", "Divans.CAlloc.alloc_alone_keeps", "Divans.CAlloc.empty_block_left", "Divans.CAlloc.dropped_left"], "note": "alloc_alone_improper, free_alone_improper, malloc_wraps, empty_block_left and dropped_left are the negative parts. Ownership of blocks (each in one hand) is Rust's and is built into the model."},
 {"property": "C93", "status": "proved", "theorems": ["Divans.Ffi.default_session", "Divans.Ffi.default_example", "Divans.Ffi.default_mixing_panics"], "note": "Brotli's encoder is outside of the repository: any machine that keeps the contract Hybrid.Meets of C70, which includes that the codec's options are valid and that the optimiser does not give up. Restoring without a bound on the length."},
 {"property": "C94", "status": "proved", "theorems": ["Divans.Compressor.any_caller", "Divans.Compressor.feeds_exact", "Divans.Compressor.pieces_exact", "Divans.Compressor.enough_rest", "Divans.Compressor.enough_blocks", "Divans.Ffi.c_session_lengths", "Divans.Ffi.example_exact", "Divans.Cli.compress_tool_loses", "Divans.RawCmd.fair_three"], "note": "That brotli's choice has no such limit is C70, C93. Other cuts of more than 3L-2 bytes are decided by raw_lossless_iff of C27."},
 {"property": "C95", "status": "proved", "theorems": ["Divans.CVec.roundUp_spec", "Divans.CVec.collects", "Divans.CVec.push_too_much", "Divans.CVec.atoi_spec", "Divans.CVec.atoi_length", "Divans.CVec.printed_spec", "Divans.CVec.report_spec", "Divans.CVec.report_wrong"], "note": "The percentage is right except for a carry, which is characterised; the exception is a finding with a witness. malloc is taken to succeed."},
 {"property": "C96", "status": "proved", "theorems": ["Divans.ExMain.settings_spec", "Divans.ExMain.without_brotli", "Divans.ExMain.with_brotli", "Divans.ExMain.not_begun", "Divans.ExMain.misspelt", "Divans.ExMain.text_fair", "Divans.ExMain.adaptive_stride", "Divans.ExMain.context_map", "Divans.ExMain.example_aborts"], "note": "brotli's encoder enters by its contract, as in C70 and C93. Mixings from 8 (with -l) and from 15 (without) are accepted and panic: mixing_accepted_then_panics of C63, default_mixing_panics of C93."},
 {"property": "C97", "status": "proved", "theorems": ["Divans.CMem.malloc_place", "Divans.CMem.malloc_free", "Divans.CMem.any_history", "Divans.CMem.amount_spec", "Divans.CMem.bump_apart", "Divans.CMem.bump_runs_out", "Divans.CMem.bump_leaks"], "note": "The system's malloc enters by its contract: a block apart from those in use, and it is taken to succeed (NULL is not checked in the code)."},
 {"property": "C98", "status": "partial", "theorems": ["Divans.Filters.compress_ok_iff", "Divans.Filters.compress_ok_done", "Divans.Filters.compress_partial", "Divans.Filters.compress_panics", "Divans.Filters.decompress_ok", "Divans.Filters.decompress_file", "Divans.Filters.decompress_any_sink", "Divans.Filters.decompress_truncated", "Divans.Filters.decompress_hangs", "Divans.Filters.filters_round_trip_partial"], "note": "What success means is proved for every codec. That compress succeeds is proved for encoders that take all their input in every call and is false otherwise (compress_panics); that decompress ends is false when something follows the file (decompress_hangs). io::copy enters by its documentation."},
 {"property": "C99", "status": "partial", "theorems": ["Divans.Estimate.lines_round_trip", "Divans.Estimate.parseHex_iff", "Divans.Estimate.speedArg_iff", "Divans.Estimate.groups_spec", "Divans.Estimate.track_spec", "Divans.Estimate.estimate_spec", "Divans.Estimate.estimate_mixed", "Divans.Estimate.estimate_trial", "Divans.Estimate.empty_line_ends", "Divans.Estimate.accepted_speed_no_number"], "note": "With real numbers in place of f64, so rounding is left out, and for safe speeds (those of C06; all named ones are). False for input behind an empty line (empty_line_ends) and for other speeds that are accepted (accepted_speed_no_number)."},
 {"property": "C100", "status": "partial", "theorems": ["Divans.External.external_slots_exact", "Divans.External.literal_slots_exact", "Divans.External.bytes_spec", "Divans.External.outside_spec", "Divans.External.counts_spec", "Divans.External.checks_default", "Divans.External.literal_round_trip", "Divans.External.freq_ge", "Divans.External.literal_size", "Divans.External.zero_is_likely", "Divans.External.not_the_average", "Divans.External.empty_has_no_slots"], "note": "With rational numbers in place of f64, so rounding is left out. The weight of the nibble 0 is not the mean that is meant (zero_is_likely, not_the_average), and the distribution used without bytes has no slots (empty_has_no_slots)."},
 {"property": "C101", "status": "partial", "theorems": ["Divans.Tally.weigh_spec", "Divans.Tally.delta_spec", "Divans.Tally.total_spec", "Divans.Tally.new_total", "Divans.Tally.bits_nonneg", "Divans.Tally.trial_reset", "Divans.Tally.bit_swapped", "Divans.Tally.bit_below_zero"], "note": "With real numbers in place of f32 and the logarithm in place of its table, so rounding is left out. False for single bits (bit_swapped, bit_below_zero), which no command uses."},
 {"property": "C102", "status": "proved", "theorems": ["Divans.Ans.size_bounds", "Divans.Ans.size_in_bits", "Divans.Ans.size_max", "Divans.Ans.size_max_of", "Divans.Ans.odds_eq_chance", "Divans.Adaptive.adaptive_size"], "note": ""},
 {"property": "C103", "status": "proved", "theorems": ["Divans.Mux.mux_overhead", "Divans.Mux.mux_complete", "Divans.Frame.container_overhead", "Divans.Frame.container_complete", "Divans.Frame.total_coded"], "note": "Every legal history, as in C09."}
]}
