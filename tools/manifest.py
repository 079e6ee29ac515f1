#!/usr/bin/env python3
"""Writes MANIFEST.json from the table below."""
import json, os
A, N, C, W, D = "Divans.Ans.", "Divans.Num.", "Divans.Cdf.", "Divans.Weights.", "Divans.Adaptive."
R, M, E = "Divans.Crc.", "Divans.Mux.", "Divans.Recode."
K = "Divans.Codec."
P, T = "Divans.Pipe.", "Divans.Lit."
F, L = "Divans.Frame.", "Divans.File."
G, Q, B, I = "Divans.Grow.", "Divans.Reg.", "Divans.RawCmd.", "Divans.Io."
H, Y, O = "Divans.Hand.", "Divans.Threads.", "Divans.Alloc."
X, Z = "Divans.Opt.", "Divans.Text."
V = "Divans.Compressor."
CV = "Divans.CVec."
EM = "Divans.ExMain."
CM = "Divans.CMem."
FI = "Divans.Filters."
ES = "Divans.Estimate."
EX = "Divans.External."
TY = "Divans.Tally."
FF = "Divans.Ffi."
S = "Divans.Fast."
U = "Divans.Damage."
J = "Divans.Call."
SI = "Divans.Simd."
CL = "Divans.Cli."
IR = "Divans.Ir."
BL = "Divans.Blend."
AR = "Divans.Args."
MA = "Divans.Main."
PA = "Divans.Par."
BI = "Divans.Bits."
PR = "Divans.Prior."
ME = "Divans.Meter."
CA = "Divans.CAlloc."
HY = "Divans.Hybrid."
claims = [
 ("C01", "proved", [A+"ans_round_trip", A+"ans_round_trip_split"], ""),
 ("C02", "proved", [A+"ans_round_trip_split", A+"ans_decode_split_independent"], ""),
 ("C03", "proved", [A+"ans_encode_total", A+"ans_state_bounds", A+"ans_no_wrap"], ""),
 ("C04", "proved", [A+"ans_bits_round_trip"], ""),
 ("C05", "proved", [C+"cdf_slots_exact", C+"opt_slots_exact"], ""),
 ("C06", "proved", [C+"cdf_history_valid", C+"builtin_speeds_safe"], "Safe range: increment 0..5445, limit at most 2^14; it contains every built-in speed. For speeds beyond it see C39."),
 ("C07", "proved", [C+"opt_equals_plain"], ""),
 ("C08", "partial", [N+"fast_divide_exact", N+"table_eq_compute", N+"fast_divide8_cast", N+"fast_divide8_exact_partial", N+"fast_divide8_not_exact"], "16-bit divisors: proved in full. 8-bit variant: exact except divisor 1 with numerators from 32768 on, where the result is negative (proved by counterexample)."),
 ("C09", "proved", [M+"mux_round_trip", M+"mux_round_trip_tail", M+"close_finishes", M+"serialize_bounded"], "Every legal history: no push after the end was reported."),
 ("C10", "proved", [M+"demux_split_independent", M+"demux_stops_at_end", M+"demux_stuck"], "Input is offered again until nothing more is accepted, as the decoder does. demux_stuck shows a malformed stream that is neither accepted nor reported."),
 ("C11", "proved", [M+"mux_cursors", M+"demux_cursors", M+"prep_keeps_unread", M+"prealloc_then_close_fails"], "The unused entry point prealloc is excluded; prealloc_then_close_fails shows why."),
 ("C12", "proved", [E+"recode_is_lz77", E+"recode_is_lz77_ring", E+"recode_many_is_lz77"], "Distances from 1 to the ring size minus 1. Dictionary words are given after their transform: dictionary and transforms are in the brotli crate."),
 ("C13", "proved", [E+"recode_split_independent", E+"recode_finishes", E+"recode_many_is_lz77"], ""),
 ("C14", "partial", [E+"copy_ends_partial", E+"encodeCmd_ends", E+"encodeCmd_bounds", E+"copy_too_far_fails", E+"copy_distance_zero_panics", E+"copy_ring_size_never_ends", E+"copy_beyond_ring_panics", E+"copy_beyond_ring_reads_elsewhere"], "False as stated: distance 0 panics, a distance equal to the ring size loops forever, distances just above it panic or read elsewhere (all proved). True for 1 to ring size minus 1 and for distances beyond decode index plus ring size."),
 ("C15", "partial", [K+"short_code_round_trip", K+"distance_cache_in_step", K+"short_code_never_zero", K+"cache_nonzero", K+"escape_code_zero_distance"], "Codes and caches: proved for every history of valid commands. The last clause holds for the 15 short codes; the escape code can be decoded to distance zero from a stream no encoder produces (proved by witness)."),
 ("C16", "proved", [K+"copy_round_trip"], ""),
 ("C17", "proved", [K+"literal_length_round_trip"], "Length and flag; the bytes themselves are in the literal stream."),
 ("C18", "partial", [K+"dict_round_trip", K+"dict_accepts_only_partial", K+"dict_accepts_missing_word", K+"dictionary_size"], "Round trip proved; other word lengths and transforms are rejected on any input. False for the index: it is accepted up to the rounded-up number of nibbles, beyond the words of the dictionary (proved by witness)."),
 ("C19", "proved", [K+"block_switch_round_trip", K+"command_stream_round_trip"], "A stride forced by the options replaces the stride of the command, as intended."),
 ("C20", "proved", [K+"context_map_round_trip", K+"command_stream_round_trip"], ""),
 ("C21", "proved", [R+"crc_correct", R+"crc_incremental"], ""),
 ("C22", "proved", [R+"crc_detects_window", R+"crc_detects_byte"], ""),
 ("C23", "proved", [F+"container_layout", F+"flush_finishes", L+"success_means_checked", L+"sumOk_spec", L+"whole_file"], "Writing: container_layout, flush_finishes. Reading: success only with the right trailer for arbitrary input (success_means_checked), and a right trailer is never rejected (whole_file, sumOk_spec)."),
 ("C24", "proved", [F+"container_layout", F+"window_clamped", F+"parseHeader_iff", F+"header_any_split", F+"own_header_good"], ""),
 ("C38", "proved", ["Divans.EndToEnd.coder_and_mux"], ""),
 ("C45", "proved", [L+"whole_file", L+"file_exists"], "Dictionary words and their transforms are a parameter; the prediction mode speeds of the commands are in the safe range."),
 ("C32", "proved", [C+"average_usable", C+"average_slots_exact", W+"weights_history", W+"weights_update_exact", C+"average_arbitrary_fails"], "Valid = reachable by adaptation with safe speeds. For arbitrary strictly increasing distributions it is false (average_arbitrary_fails)."),
 ("C33", "partial", [W+"speed_nearest_partial", W+"builtin_speeds_exact", W+"speed_12288_lost"], "True below 12288 and for all built-in speeds; false from 12288 on (counterexample proved)."),
 ("C34", "proved", [D+"adaptive_round_trip", D+"adaptive_encode_total"], ""),
 ("C35", "proved", [K+"command_stream_round_trip", K+"not_finished_early", K+"command_stream_models", K+"command_stream_through_coder"], ""),
 ("C39", "partial", [C+"cdf_history_valid", C+"accepted_speed_overflows", W+"stream_speed_breaks", W+"stream_speed_negative"], "The claim is false; the negation is proved with witnesses and the safe range is proved as cdf_history_valid."),
 ("C41", "partial", [K+"decoder_no_panic_partial", K+"decoder_panics_iff", K+"malformed_length_panics", K+"malformed_distance_panics"], "False: a copy length of more than 32 bits and a short code next to 2^31 overflow (proved by witness). decoder_panics_iff says exactly when, for every reachable state."),
 ("C42", "proved", [K+"decoded_commands_bounded", K+"decoder_panics_iff", K+"distance_map_entries"], "Lookups: the only one that can fail is the first of a copy after a literal announced with 2^32 bytes."),
 ("C43", "proved", [P+"any_schedule"], "Dictionary words and their transforms are a parameter; the prediction mode speeds of the commands are in the safe range. The bytes arrive per stream here; the container around them is separate."),
 ("C44", "proved", [T+"nibChoice_total", T+"sendBytes_total", T+"obsPm_ok"], ""),
 ("C25", "partial", [I+"reader_orderly", I+"reader_output", I+"reader_eof_all_fed", I+"reader_eof_partial", I+"second_eof_is_real", I+"premature_eof", I+"read_returns", I+"read_empty_never_returns", I+"source_error_reported", I+"error_loses_output"], "Feeding in order, once, and finalising after the end of the source: proved for every codec, source and history. End of file only after the codec has finished: proved for codecs that take all their input, and for the second end of file in a row; false in general (premature_eof). After an error of the source the codec is finalised too and its last output is lost."),
 ("C26", "partial", [I+"writer_forwards", I+"write_takes_all", I+"flush_finishes_partial", I+"decompressor_writer_never_closes", I+"truncation_unreported", I+"trailing_ignored", I+"second_flush_does_nothing"], "Forwarding: proved for every history. Flush finalises: proved for the compressing writers, false for the decompressing writer, which never closes its codec."),
 ("C27", "partial", [B+"raw_lossless_partial", B+"raw_lossless_iff", B+"raw_not_lossless", B+"bytes_sent", B+"never_panics", B+"flush_completes", B+"stream_asks", B+"mode_first"], "False: an input of three ring sizes less one byte, offered in one piece, is sent with one byte too many (raw_not_lossless). raw_lossless_iff says exactly for which histories it holds; raw_lossless_partial: for every input up to the ring size."),
 ("C28", "partial", [H+"data_in_order", H+"data_all", H+"rejected_kept", H+"commands_in_order", H+"commands_all", H+"pull_never_panics", H+"refused_command_kept", H+"blocks_in_order", H+"maps_not_lost", H+"reported_was_broadcast_partial", H+"worker_sees_error", H+"later_error_wins", H+"main_error_not_in_pull", Y+"two_threads_in_order"], "Order, nothing lost or twice, bounded number pending: proved for every sequence of calls of the two sides, and for every interleaving of the two threads (two_threads_in_order). Errors: every reported error was broadcast; but with several the last one is reported, not the first (later_error_wins)."),
 ("C29", "proved", [O+"freed_exactly_once", O+"never_twice", O+"no_panic", O+"large_enough", O+"cleared", O+"reuse", O+"long_cell_cut"], "For every underlying allocator and every history of allocations, frees, writes, disassembly and reassembly. Requests of 2^32 elements or more are outside what a prefix can express: their length is cut to 32 bits (long_cell_cut)."),
 ("C30", "partial", [G+"committed_kept", G+"checkout_total", G+"one_more_honoured", G+"request_honoured_partial", G+"requests_honoured_iff", G+"request_gets_nothing"], "Committed bytes: proved for every history. Requested space: honoured exactly for requests up to 33000 elements (requests_honoured_iff); false beyond."),
 ("C31", "partial", [Q+"register_fifo_partial", Q+"spec_is_fifo", Q+"pop_eight_panics", Q+"pop_eight_corrupts", Q+"register_not_fifo"], "True unless one pop takes all eight bytes; then it panics (debug) or leaves stale bits (release), both proved."),
 ("C36", "proved", [X+"optimised_same_bytes", X+"offset_pair_breaks"], "For every outcome of the estimates. The two pieces of the input are adjacent with the first at offset 0, as the brotli crate provides them; otherwise false (offset_pair_breaks)."),
 ("C37", "partial", [Z+"literal_text", Z+"literal_line", Z+"commands_parse", Z+"accepted_says", Z+"parseNat_iff", Z+"crash_only_partial", Z+"ltype_without_stride_crashes", Z+"block_type_cut", Z+"probabilities_rejected"], "Literal data and whole commands: proved, in both directions for literals. Rejection without a crash: true except for the line 'ltype' with one number, which panics (crash_only_partial says exactly when, ltype_without_stride_crashes is the witness)."),
 ("C40", "partial", [E+"context_is_last_eight_partial", E+"context_reversed_at_ring_start"], "False at the first eight positions of the ring, where the order is reversed (proved)."),
 ("C46", "partial", [Y+"main_sleeps_only_if_blocked", Y+"worker_sleeps_only_if_blocked", Y+"no_panic", Y+"deadlock_only_without_input_partial", Y+"no_deadlock_in_flight", Y+"deadlock_reachable", Y+"deadlock_forever", Y+"error_does_not_wake", Y+"error_frees_force"], "No lost wake-up, no failed assertion: proved. Deadlock: impossible while a buffer is in flight; reachable with a file whose command stream ends early (deadlock_reachable, deadlock_forever). Freeing part-way hangs when the worker waits for data (error_does_not_wake)."),
 ("C47", "partial", [X+"optimiser_no_crash_partial", X+"optimiser_answers_partial", X+"optimiser_crashes"], "True when arithmetic wraps or no distance is below 3; false of builds that check arithmetic (optimiser_crashes)."),
 ("C48", "partial", [T+"literal_context_partial", T+"coded_in", T+"stride_byte", T+"literal_context_reversed"], "True except for the first two bytes of a literal that begins at the first eight positions of the ring, where the order of the bytes is reversed (literal_context_reversed, see C40). Which context map entries are in force is C20."),
 ("C49", "proved", [V+"command_calls", V+"command_calls_end", V+"flush_in_command"], "flush_in_command: flush with a command half taken reports a failure. A call with an empty list of commands panics and is excluded."),
 ("C50", "partial", [V+"raw_calls_partial", V+"raw_calls_end", V+"rawPm_valid"], "No panic, no failure, progress: proved for every history. The bytes: proved as long as not more than two windows less two bytes are taken (C94 has the exact lengths); beyond that bytes can come back twice (C27), never fewer, and if the length is right then so are the bytes."),
 ("C51", "partial", [S+"fast_any_schedule_partial", S+"fast_path_starves"], "Proved for everything the compressor produces. False of other input: a refill note survives the chunk boundary, so the fast path can read from a state that waits for input (fast_path_starves); a debug build panics."),
 ("C52", "proved", [U+"accepted_end", U+"truncated_never_accepted", U+"rest_untouched"], ""),
 ("C53", "proved", [U+"damage_detected", U+"crc_detects_burst"], "Damage that moves the end of the streams can in principle be accepted with bytes left over; the claim is about files accepted to their last byte."),
 ("C54", "partial", [L+"success_once_partial", P+"streams_once_partial", L+"success_depends_on_buffers", J+"success_depends_on_rooms"], "Proved for runs in which every copy has a positive distance below the window. False without that: a copy from a little more than a window back works or panics depending on the output buffers (success_depends_on_buffers; success_depends_on_rooms shows it with the calls of decode)."),
 ("C55", "proved", [J+"decode_protocol"], "Without the fast path for literals (C51) and without a thread for the worker (C28, C46)."),
 ("C56", "partial", [V+"round_trip_commands", V+"round_trip_raw_partial"], "Commands: proved for lists of any length. Raw input: proved up to two windows less two bytes; beyond that false for some lengths and cuts (C27, C94)."),
 ("C57", "partial", [I+"decompressor_reader", I+"decompressor_reader_truncated", I+"decompressor_reader_hangs", I+"reader_round_trip_partial"], "Proved for sources that hold exactly a file, and for truncated files. False when the source goes on behind the file: after the data read never returns (decompressor_reader_hangs, for every file and every bytes behind it)."),
 ("C58", "partial", [I+"compressor_reader_partial", I+"compressor_writer_any", I+"compressor_writer_partial", I+"compressor_writer_wrong", I+"writer_round_trip_partial"], "The reader: proved for input up to a window full; beyond that it may report the end of the file early (C25). The writer: always ends and reports success; the bytes come back up to two windows less two bytes; beyond that some can come back twice (C27), for some lengths always (compressor_writer_wrong)."),
 ("C59", "partial", [I+"decompressor_writer", I+"decompressor_writer_accepts_truncated"], "Whole files: proved. False of truncated files: all writes and the flush report success for every beginning of every file (decompressor_writer_accepts_truncated)."),
 ("C60", "partial", [SI+"builds_send_same", SI+"builds_receive_same", SI+"builds_interoperate", SI+"builds_send_total", SI+"simd_crc_same", SI+"builds_differ_unsafe"], "Proved for speeds in the safe range (which has all built-in ones). False beyond it: with a speed the option parser accepts, the default build and the vector builds write different bytes (builds_differ_unsafe). The instructions are modelled after their documentation."),
 ("C61", "proved", [J+"call_success_means_checked", J+"call_accepted_end", J+"call_truncated", J+"call_rest", J+"call_damage_detected"], "Without the fast path for literals (C51) and without a thread for the worker (C28, C46)."),
 ("C62", "partial", [J+"every_call_ends", J+"every_call_bounded", J+"success_stays", J+"success_last", J+"rest_is_never_taken", J+"endless_loop_needs_window_copy", J+"endless_loop_on_a_file", J+"broken_end_marker_asks_forever"], "Proved except for one loop inside the recoder, which the model counts as a panic: it runs forever on a copy from a distance of exactly the window, and only then (or with a dictionary word of 1024 bytes or more); endless_loop_on_a_file is a file of 46 bytes that does it. Without the fast path for literals and without a thread."),
 ("C63", "partial", [FF+"setting_accepted_iff", FF+"settings_order", FF+"speeds_order_matters", FF+"late_settings_do_nothing", FF+"null_pointers", FF+"c_session_partial", FF+"example_exact", FF+"example_round_trip_partial", FF+"mixing_accepted_then_panics"], "Settings, late settings and null pointers for any compressor behind the interface; sessions and the example program for the internal choice of commands (the brotli-driven one is C93), mixing below 8 (from 8 on it panics, proved), prior depth below 16, restoring for at most two windows less two bytes in any calls; the example program for exactly the lengths of C94."),
 ("C64", "partial", [I+"reader_end_means_complete_partial", I+"end_of_file_without_file"], "For all bytes without a broken end marker (`ff` not followed by `fe ff` where a block should begin). For bytes with one it is false: 18 bytes that are no file are read to the end without an error."),
 ("C65", "partial", [J+"crash_has_a_cause_partial", J+"words_are_not_the_cause", J+"no_cause_no_crash", J+"crash_on_a_file"], "False: a file of 65 bytes crashes the decompressor (crash_on_a_file: a copy from beyond the window). Proved for all bytes and all calls: every crash happens in one of five situations (length or distance of a copy leaves its type, a speed above 0x4000, a copy by the recoder from distance 0 or from a window or more back). The first four are failures only of builds that check arithmetic and debug assertions. Without the fast path for literals (C51) and without a thread; the counters of the distributions wrap in the model."),
 ("C66", "partial", [CL+"decompress_tool", CL+"decompress_tool_cut", CL+"decompress_tool_any", CL+"decompress_tool_hangs"], "Proved, except that it need not end on bytes that are no file: a broken end marker and a buffer full of bytes make it run forever (decompress_tool_hangs). On which other bytes it ends is C69."),
 ("C67", "partial", [CL+"compress_tool_partial", CL+"compress_tool_interrupted", CL+"interrupted_read_doubles", CL+"compress_tool_detects", CL+"tools_round_trip_partial"], "Proved for sources without interruptions, up to three windows less two bytes of data (C94). With an interrupted read it is false: the bytes of the last read are compressed once more (interrupted_read_doubles); compress_tool_interrupted says what is compressed in general. With the internal choice of commands (-nobrotli); with brotli's see C72."),
 ("C68", "proved", [J+"output_bounded", J+"asks_for_room_bounded"], "The bound is 65537 nibbles per byte times 2^32 + 15 bytes per nibble: no sharp one. Without the fast path for literals (C51) and without a thread for the worker (C28, C46)."),
 ("C69", "partial", [CL+"decompress_tool_ends_partial", CL+"decompress_tool_hangs", I+"every_write_returns", I+"successful_writes", I+"reader_ends_partial", I+"decompressor_reader_hangs"], "The program: proved except for input of at least a buffer full that has a broken end marker or the end of a file with something behind it; false for the first (decompress_tool_hangs). The writer: proved, with what it means that all writes succeed. The reader: proved for sources without errors, except for bytes with a broken end marker or with something behind the end of a file; false for the latter (decompressor_reader_hangs, C57)."),
 ("C70", "partial", [HY+"hybrid_round_trip_partial", HY+"hybrid_ends_partial", HY+"optimiser_error_unreported", HY+"optimiser_error_then_panic", HY+"optimiser_error_then_success"], "Brotli's encoder is any machine that keeps the contract Meets; proved as long as the optimiser between brotli and the codec does not give up on a metablock. When it does, encode reports nothing and the compressor panics later, or flush fails once and then reports success with a file that lacks the metablock and the end (proved)."),
 ("C71", "partial", [HY+"hybrid_reader_partial", HY+"hybrid_writer_partial", HY+"hybrid_writer_rejects", HY+"hybrid_reader_empty"], "Proved for encoders that take all the input of every call. Otherwise it is false: a write is rejected with TrailingInput, and a reader whose source ends while input is left gives an empty file without an error (proved for every encoder that keeps the contract and leaves input in its first call)."),
 ("C72", "partial", [HY+"hybrid_tool_partial", HY+"hybrid_tools_round_trip_partial", HY+"hybrid_tool_doubles", CL+"compress_tool_detects"], "Brotli's encoder is any machine that keeps the contract Meets, with an optimiser that does not give up (C70). Proved for sources without interruptions, without a limit on the length. With an interrupted read it is false: the bytes of the last read are compressed once more (hybrid_tool_doubles)."),
 ("C73", "partial", [IR+"ir_tools_agree_partial", IR+"compress_ir_tool_partial", IR+"recode_tool_partial", IR+"printed_parse"], "For commands that are valid (copies within the window and within what has been produced, dictionary words with the right announced size) and the windows from 10 to 24 bits; options with which the compressor's own prediction mode can be coded (speeds in the safe range, mixing below 8, prior depth below 16). How the brotli crate packs prediction modes is a parameter."),
 ("C74", "partial", [IR+"no_line_passed_over", IR+"wrong_line_partial", IR+"blank_line_wrong", Z+"crash_only_partial"], "Never passed over: proved for all sources, sinks and commands. Reported as an error of the text: proved of -i (except for the line 'ltype N', C37); false of -recode, which panics, on a blank line for instance (wrong_line_partial)."),
 ("C75", "partial", [IR+"trait_flush_loses"], "False: flush of the trait does nothing and reports success; whenever the output is full at the last command, the rest of the bytes is lost (proved for all command lists). The method flush of the type itself is right (C12, C73)."),
 ("C76", "partial", [BL+"blend_history_usable", BL+"blend_round_trip", BL+"blend_encodes", BL+"avoid_divide_disagrees", BL+"avoid_divide_garbles"], "Proved for all histories in builds without avoid-divide. Together with avoid-divide it is false: the receiver finds a slot for symbol 15 that is one larger than the sender's, whatever has been learnt, and what follows is garbled (proved)."),
 ("C77", "partial", [BL+"average_usable_partial", BL+"average_loses_symbol", BL+"average_weight_reversed"], "False: four and six times symbol 0, mixed with the initial weight, leave symbol 8 without a slot, and coding it divides by zero. Proved unless the last entry of the mixture is from 21824 to 21833. The weight is that of the second distribution, where the default build gives it to the first (proved)."),
 ("C78", "partial", [AR+"setting_understood", AR+"arguments_understood", AR+"third_name_crashes", AR+"after_dashes", AR+"last_number_counts", AR+"last_program_counts", AR+"speeds_in_order", AR+"surprises"], "Proved: every setting with every value in range and up to two names, in any order, are understood; the last number counts; a third name is rejected. False in part (surprises): an unknown option is taken for a file name, --recode has no effect without -d, -nobrotli overrides an earlier -i or -d, -mixing and -priordepth are cut to 8 bits, and speeds depend on their order (speeds_in_order)."),
 ("C79", "partial", [MA+"compress_file", MA+"decompress_file", MA+"files_round_trip", MA+"internal_files_round_trip_partial", MA+"brotli_files_round_trip_partial", MA+"pipe_round_trip", MA+"only_output_changes", MA+"no_input", MA+"cut_input", MA+"success_is_checked", MA+"same_name_loses", MA+"same_name_destroys", MA+"no_runs_empty"], "Proved for different names, at least one run, and compressors that are faithful: with -nobrotli up to three windows less two bytes of data (C94), mixing below 8, prior depth below 16 and speeds in the safe range; with brotli's encoder under the contract of C70. False when input and output have the same name (the data is lost, without an error when compressing) and with -benchmark=0 (an empty output, without an error). Threads are in C89."),
 ("C80", "partial", [BI+"bit_never_fails", BI+"bit_counts", BI+"adaptive_bits_round_trip", BI+"bit_table_partial", BI+"bit_table_loses_false", BI+"bit_ranges_disagree"], "Proved for the coding of bits by the entropy coder. False of the distribution's own tables: after 255 times true no offset means false and the range of true does not fit 16 bits (bit_table_loses_false), and the range given to an encoder is never the one given to a decoder (bit_ranges_disagree)."),
 ("C81", "proved", [BI+"nibble_bits", BI+"nibbles_bits", BI+"nibble_chances", BI+"nibbles_coded", BI+"nibbles_by_bits_round_trip", BI+"certain_bit_costs_most"], "nibble_bits is for any coder of bits and any distribution. certain_bit_costs_most shows that the condition of nibble_chances is needed: a certain bit wraps to the least likely one, and a nibble without a share divides by zero."),
 ("C82", "partial", [BI+"debug_encoder", BI+"debug_serves", BI+"debug_nibble", BI+"debug_decoder_waits"], "Proved of the encoder (in runs that no check stops: a full register taken at once is C31) and of the decoder while bytes are in its register. False of the end of the input (debug_decoder_waits): the decoder waits for eight bytes although four are left and enough."),
 ("C83", "partial", [MA+"text_file_partial", MA+"recode_file_partial", MA+"text_ways_agree_partial", MA+"wrong_text_file_partial", MA+"text_success_understood"], "For commands that are valid (C73), windows from 10 to 24 bits, mixing below 8, prior depth below 16, speeds in the safe range, and systems whose writes take something. That success means that every line was understood is proved for all settings, inputs and sinks. A wrong line is assumed to come after commands that are valid."),
 ("C84", "proved", [PA+"threaded_decode_protocol", PA+"made_serves", PA+"always_iff"], "Every operation under the mutex is one step; that a sleeping thread is woken is C46. always_iff spells out what holds under every schedule. What the compressor and the tools write is served too: Restores in CompProps contains Par.Serves."),
 ("C85", "proved", [PA+"threaded_success_means_checked", PA+"threaded_accepted_end", PA+"threaded_truncated", PA+"threaded_rest", PA+"threaded_damage_detected", PA+"threaded_same_output"], "Histories in which every call returned; that calls return on any bytes is a different matter. Without the condition on the window the output depends on the buffers already without threads (C54)."),
 ("C86", "partial", [PA+"threaded_call_stops", PA+"threaded_call_waits_partial", PA+"threaded_call_bounded", PA+"early_file_hangs", PA+"panic_hangs"], "False: a file whose streams end before its commands makes both threads wait for ever, and a panic of the worker is told to nobody, so the caller waits for ever; witnesses are early_file_hangs and panic_hangs. Proved: no infinite sequence of steps, and those are the only reasons to wait."),
 ("C87", "proved", [PA+"threaded_reader", PA+"threaded_reader_truncated", PA+"threaded_reader_hangs", PA+"threaded_writer", PA+"threaded_writer_accepts_truncated", PA+"threaded_tool", PA+"threaded_tool_cut", PA+"threaded_tool_any", PA+"threaded_tools_round_trip_partial", PA+"threaded_example", PA+"every_interleaving"], "As without a thread, threaded_reader_hangs and threaded_writer_accepts_truncated record what the reader does with bytes behind the file and the writer with a file that is cut off. every_interleaving: quantifying over schedulers is quantifying over interleavings. threaded_tools_round_trip_partial inherits the window limit of C67."),
 ("C88", "proved", [PA+"free_settles", PA+"free_after_success", PA+"free_reason", PA+"free_hangs", PA+"free_header_hangs", PA+"tool_frees", PA+"tool_header_hangs"], "free_hangs, free_header_hangs and tool_header_hangs are the negative part: freeing need not return. A worker whose thread has not begun when the lock is taken is not modelled."),
 ("C89", "partial", [MA+"compress_file_threads", MA+"decompress_file_threads", MA+"compress_unpacks_threads", MA+"files_round_trip_threads", MA+"internal_files_round_trip_threads_partial", MA+"pipe_round_trip_threads", MA+"serial_same", MA+"only_output_changes_threads", MA+"cut_input_threads", MA+"success_is_checked_threads", MA+"unpacked_is_checked_threads", MA+"refused_threads", MA+"header_hangs_threads"], "Partial as C79: -nobrotli up to three windows less two bytes, or a compressor that is faithful. header_hangs_threads is the negative part: a cut file may make the program hang. What free does after a call of decode has failed or panicked is not modelled; the program is taken to end with that error."),
 ("C90", "proved", [PR+"has_model", PR+"own_model", PR+"all_used", PR+"raw_models", PR+"refused", PR+"learns_own", PR+"unlisted_shares", PR+"unchecked_shares", PR+"command_models", PR+"settings_share", PR+"nibble_models", PR+"mixed_models"], "For every table the macro can make. unlisted_shares, unchecked_shares and settings_share say where models are shared."),
 ("C91", "proved", [ME+"same_slots", ME+"same_nibbles", ME+"interchange", ME+"findspeed_shows", ME+"entropy_shows", ME+"findspeed_measures", ME+"findspeed_healthy", ME+"entropy_measures", ME+"billing_same", ME+"billing_measures", ME+"moved_not_billed"], "Floating point costs are any arithmetic; virtual bits are whole numbers (exact below 2^53). moved_not_billed is the negative part."),
 ("C92", "proved", [CA+"proper", CA+"inner_proper", CA+"all_returned", CA+"freed_all", CA+"only_empty_left", CA+"held_is_live", CA+"one_heap", CA+"cell_asks", CA+"malloc_asks", CA+"malloc_wraps", CA+"alloc_alone_improper", CA+"free_alone_improper", CA+"alloc_alone_keeps", CA+"empty_block_left", CA+"dropped_left"], "alloc_alone_improper, free_alone_improper, malloc_wraps, empty_block_left and dropped_left are the negative parts. Ownership of blocks (each in one hand) is Rust's and is built into the model."),
 ("C93", "proved", [FF+"default_session", FF+"default_example", FF+"default_mixing_panics"], "Brotli's encoder is outside of the repository: any machine that keeps the contract Hybrid.Meets of C70, which includes that the codec's options are valid and that the optimiser does not give up. Restoring without a bound on the length."),
 ("C94", "proved", [V+"any_caller", V+"feeds_exact", V+"pieces_exact", V+"enough_rest", V+"enough_blocks", FF+"c_session_lengths", FF+"example_exact", CL+"compress_tool_loses", B+"fair_three"], "That brotli's choice has no such limit is C70, C93. Other cuts of more than 3L-2 bytes are decided by raw_lossless_iff of C27."),
 ("C95", "proved", [CV+"roundUp_spec", CV+"collects", CV+"push_too_much", CV+"atoi_spec", CV+"atoi_length", CV+"printed_spec", CV+"report_spec", CV+"report_wrong"], "The percentage is right except for a carry, which is characterised; the exception is a finding with a witness. malloc is taken to succeed."),
 ("C96", "proved", [EM+"settings_spec", EM+"without_brotli", EM+"with_brotli", EM+"not_begun", EM+"misspelt", EM+"text_fair", EM+"adaptive_stride", EM+"context_map", EM+"example_aborts"], "brotli's encoder enters by its contract, as in C70 and C93. Mixings from 8 (with -l) and from 15 (without) are accepted and panic: mixing_accepted_then_panics of C63, default_mixing_panics of C93."),
 ("C97", "proved", [CM+"malloc_place", CM+"malloc_free", CM+"any_history", CM+"amount_spec", CM+"bump_apart", CM+"bump_runs_out", CM+"bump_leaks"], "The system's malloc enters by its contract: a block apart from those in use, and it is taken to succeed (NULL is not checked in the code)."),
 ("C98", "partial", [FI+"compress_ok_iff", FI+"compress_ok_done", FI+"compress_partial", FI+"compress_panics", FI+"decompress_ok", FI+"decompress_file", FI+"decompress_any_sink", FI+"decompress_truncated", FI+"decompress_hangs", FI+"filters_round_trip_partial"], "What success means is proved for every codec. That compress succeeds is proved for encoders that take all their input in every call and is false otherwise (compress_panics); that decompress ends is false when something follows the file (decompress_hangs). io::copy enters by its documentation."),
 ("C99", "partial", [ES+"lines_round_trip", ES+"parseHex_iff", ES+"speedArg_iff", ES+"groups_spec", ES+"track_spec", ES+"estimate_spec", ES+"estimate_mixed", ES+"estimate_trial", ES+"empty_line_ends", ES+"accepted_speed_no_number"], "With real numbers in place of f64, so rounding is left out, and for safe speeds (those of C06; all named ones are). False for input behind an empty line (empty_line_ends) and for other speeds that are accepted (accepted_speed_no_number)."),
 ("C100", "partial", [EX+"external_slots_exact", EX+"literal_slots_exact", EX+"bytes_spec", EX+"outside_spec", EX+"counts_spec", EX+"checks_default", EX+"literal_round_trip", EX+"freq_ge", EX+"literal_size", EX+"zero_is_likely", EX+"not_the_average", EX+"empty_has_no_slots"], "With rational numbers in place of f64, so rounding is left out. The weight of the nibble 0 is not the mean that is meant (zero_is_likely, not_the_average), and the distribution used without bytes has no slots (empty_has_no_slots)."),
 ("C101", "partial", [TY+"weigh_spec", TY+"delta_spec", TY+"total_spec", TY+"new_total", TY+"bits_nonneg", TY+"trial_reset", TY+"bit_swapped", TY+"bit_below_zero"], "With real numbers in place of f32 and the logarithm in place of its table, so rounding is left out. False for single bits (bit_swapped, bit_below_zero), which no command uses."),
 ("C102", "proved", [A+"size_bounds", A+"size_in_bits", A+"size_max", A+"size_max_of", A+"odds_eq_chance", "Divans.Adaptive.adaptive_size"], ""),
 ("C103", "proved", [M+"mux_overhead", M+"mux_complete", F+"container_overhead", F+"container_complete", F+"total_coded"], "Every legal history, as in C09."),
]
p = os.path.join(os.path.dirname(os.path.abspath(__file__)), "..", "MANIFEST.json")
with open(p, "w") as f:
    f.write('{"claims": [\n' + ",\n".join(" " + json.dumps({"property": a, "status": b, "theorems": c, "note": d}) for a, b, c, d in claims) + "\n]}\n")
