{"id": "C01", "title": "Entropy coder round trip", "statement": "If a caller encodes a sequence of symbols with the ANS coder, giving each symbol a (start, freq) slot inside [0, 2^15) with freq >= 1, then closes the coder, a fresh ANS decoder that is fed the produced bytes and asks for one slot after another sees, for every position, an offset inside the slot that was encoded there, and so recovers the whole sequence in order.", "quantifier": "every finite symbol sequence (including ones much longer than one 65536-symbol chunk) and every valid assignment of slots to its symbols", "why_tests_cant": "The state is a 64-bit number whose value depends on the whole history, and the decoder interleaves two states with chunk restarts; tests reach only a few histories.", "anchors": ["src/ans.rs: ANSEncoder::put_start_freq, reverse_put_sym, flush_chunk, close", "src/ans.rs: ANSDecoder::helper_get_cdf_value_of_sym, helper_advance_sym, push_data"]}
{"id": "C02", "title": "Entropy decoder does not depend on how its input is split", "statement": "Splitting the compressed bytes into arbitrary consecutive pieces and offering them to the ANS decoder one piece at a time (draining the decoder between pieces) gives the same decoded symbols as offering everything at once; the decoder consumes exactly the bytes the encoder produced and never reads past them.", "quantifier": "every byte string produced by the encoder and every way of cutting it into pieces, including empty pieces and one-byte pieces", "why_tests_cant": "The partial-refill logic has one case per number of missing bytes and per state; the number of cut patterns is exponential.", "anchors": ["src/ans.rs: ANSDecoder::push_data, drain_or_fill_internal_buffer, needs_input"]}
{"id": "C03", "title": "Entropy coder never overruns its buffers or its 64-bit state", "statement": "While encoding, the 64-bit coder state never exceeds 64 bits and is at least 2^31 after every symbol, and one chunk of at most 65536 symbols never produces more bytes than the coder's fixed-size byte stack holds.", "quantifier": "every symbol sequence and every valid slot assignment", "why_tests_cant": "The worst case is a joint property of 65536 slots; a test cannot choose the worst one among 2^30 slots per symbol.", "anchors": ["src/ans.rs: ByteStack, MAX_BUFFER_SIZE, ANSEncoder::reverse_put_sym, flush_chunk"]}
{"id": "C04", "title": "Binary decisions round trip through the entropy coder", "statement": "A sequence of bits, each coded with its own 8-bit probability of false (0 is treated as 1), is recovered exactly by the decoder using the same probabilities, also when bits and 16-ary symbols are mixed.", "quantifier": "every bit sequence and every probability sequence", "why_tests_cant": "Needs all probabilities at all positions and histories.", "anchors": ["src/ans.rs: put_bit, get_bit", "src/arithmetic_coder.rs: default put_nibble/get_nibble"]}
{"id": "C05", "title": "Every distribution yields disjoint slots and an exact symbol lookup", "statement": "For a 16-symbol cumulative distribution that is strictly increasing with total at most 2^14, the sixteen slots handed to the entropy coder are non-empty, lie inside [0, 2^15), are pairwise disjoint, and looking up any offset inside the slot of symbol s returns s and the very same slot the encoder used.", "quantifier": "every strictly increasing cumulative distribution with total up to 2^14, every symbol, every offset", "why_tests_cant": "There are astronomically many distributions; rounding in the scaled division must be right for all of them.", "anchors": ["src/probability/interface.rs: CDF16::sym_to_start_and_freq, cdf_offset_to_sym_start_and_freq, rational_probability"]}
{"id": "C06", "title": "Adaptive distribution stays usable for every history", "statement": "Starting from the default distribution and updating it with any sequence of symbols and any adaptation rates the stream format can express within the documented limits, the distribution stays strictly increasing with total at most 2^14 + max increment, so every symbol stays encodable and no 16-bit counter overflows.", "quantifier": "every symbol history and every per-step adaptation speed with increment and limit in the safe range", "why_tests_cant": "Histories are unbounded; a failure appears only after particular update sequences.", "anchors": ["src/probability/frequentist_cdf.rs: FrequentistCDF16::blend, default", "src/probability/interface.rs: Speed"]}
{"id": "C07", "title": "The table-accelerated distribution equals the plain one", "statement": "The production distribution type, which replaces division by a precomputed reciprocal, returns the same slots, lookups and updates as the reference type with exact division, for every history.", "quantifier": "every symbol history, symbol and offset", "why_tests_cant": "One wrong reciprocal out of 65536, or a stale reciprocal after an update, breaks only some histories.", "anchors": ["src/probability/opt_frequentist_cdf.rs: OptFrequentistCDF16", "src/probability/numeric.rs"]}
{"id": "C08", "title": "Reciprocal division is exact", "statement": "Dividing with the precomputed multiplier and shift gives the exact integer quotient for every 16-bit divisor and every numerator below 2^31; likewise for the 8-bit variant and every 16-bit numerator.", "quantifier": "every divisor 1..65535 and every numerator 0..2^31-1 (and 1..255 with 0..65535)", "why_tests_cant": "About 10^14 pairs.", "anchors": ["src/probability/numeric.rs: compute_divisor, fast_divide_30bit_by_16bit, compute_divisor8, fast_divide_16bit_by_8bit"]}
{"id": "C09", "title": "Multiplexed streams come back unchanged", "statement": "Bytes pushed onto the two logical streams in any interleaving, serialised, flushed or closed at any moments, and read back by a demultiplexer, come out of each logical stream in the order they went in, nothing lost, duplicated or moved to the other stream; after close the reader reports end of stream.", "quantifier": "every interleaving of pushes, serialise calls with any output sizes, flushes and a final close", "why_tests_cant": "The header form depends on the pending byte counts at the time of each call; interleavings are unbounded.", "anchors": ["src/mux.rs: Mux::push, serialize, flush, serialize_close, get_code, chunk_size, deserialize"]}
{"id": "C10", "title": "Demultiplexing does not depend on how the input is split", "statement": "Feeding the multiplexed bytes in arbitrary pieces to the demultiplexer yields the same two streams and the same end-of-stream report as feeding them at once, and bytes after the end marker are never consumed.", "quantifier": "every byte string (well-formed or not) and every way of cutting it", "why_tests_cant": "Headers of one to three bytes can be cut at any position in any state.", "anchors": ["src/mux.rs: Mux::deserialize, deserialize_eof, is_eof"]}
{"id": "C11", "title": "Multiplexer cursors stay inside their buffers", "statement": "For every sequence of operations the read and write cursors of each logical stream satisfy read <= write <= buffer length, and growing or compacting the buffer keeps the unread bytes.", "quantifier": "every sequence of push, consume, serialise and deserialise operations", "why_tests_cant": "Memory-safety style invariant over unbounded histories.", "anchors": ["src/mux.rs: StreamMuxer push_data, prep_push_for_n_bytes"]}
{"id": "C12", "title": "Command execution reproduces LZ77 semantics", "statement": "Executing literal, copy and dictionary commands through the ring-buffer recoder outputs exactly the bytes of the obvious unbounded-history semantics (literal appends its bytes, copy (d,n) appends n bytes each equal to the byte d positions back), as long as distances do not reach beyond the window and the produced history.", "quantifier": "every command sequence, ring-buffer size and window position", "why_tests_cant": "Overlapping copies and wrap-around at every offset.", "anchors": ["src/cmd_to_raw/mod.rs: DivansRecodeState::encode_cmd, parse_copy, parse_copy_simplified, parse_literal, parse_dictionary, copy_to_ring_buffer, flush"]}
{"id": "C13", "title": "Decoder output does not depend on the caller's output buffer sizes", "statement": "Draining the recoder with output buffers of arbitrary sizes, resuming each time it reports that more output is needed, produces the same total bytes as one big buffer.", "quantifier": "every command sequence and every sequence of output buffer sizes", "why_tests_cant": "Suspension can happen at any byte of any command.", "anchors": ["src/cmd_to_raw/mod.rs: encode_commands, encode_cmd, flush, copy_decoded_from_ring_buffer"]}
{"id": "C14", "title": "Copy commands always terminate or fail cleanly", "statement": "Executing a copy command with any distance and length given a non-empty output buffer makes progress or reports failure; it neither panics nor loops forever.", "quantifier": "every distance and length a command can carry and every recoder state", "why_tests_cant": "The bad distances are isolated values in a 2^32 range.", "anchors": ["src/cmd_to_raw/mod.rs: parse_copy, parse_copy_simplified"]}
{"id": "C15", "title": "Short distance codes round trip and the distance cache stays in step", "statement": "When the encoder replaces a copy distance by a short code into the cache of recent distances, the decoder expanding that code against its own cache obtains the same distance, and both caches are equal after every command; no short code ever decodes to distance zero as success.", "quantifier": "every history of copy distances and lengths", "why_tests_cant": "The cache content depends on the whole history.", "anchors": ["src/codec/interface.rs: distance_mnemonic_code, obs_distance, get_distance_from_mnemonic_code"]}
{"id": "C16", "title": "Copy command serialisation round trip", "statement": "For every copy command with non-zero distance below 2^30 and length below 2^32, the sequence of nibbles the encoder emits is decoded back to the same distance and length, consuming exactly those nibbles, whatever follows.", "quantifier": "every length, every distance, every state of the distance cache", "why_tests_cant": "2^62 pairs, with several escape levels in the code.", "anchors": ["src/codec/copy.rs: CopyState::encode_or_decode"]}
{"id": "C17", "title": "Literal length serialisation round trip", "statement": "For every literal command of non-zero length the nibbles announcing its length and its entropy flag decode to the same length and flag, consuming exactly those nibbles; the literal bytes follow as two nibbles each.", "quantifier": "every literal length from 1 to 2^28 and both flags", "why_tests_cant": "Multi-level escape code; boundaries at 14/15/16 and each power of two.", "anchors": ["src/codec/literal.rs: LiteralState::encode_or_decode"]}
{"id": "C18", "title": "Dictionary command serialisation round trip", "statement": "For every dictionary reference with word length 4..24, word index valid for that length and transform 0..120, the emitted nibbles decode to the same reference; any other decoded reference is rejected.", "quantifier": "every word length, index and transform", "why_tests_cant": "Joint bound between word length, index width and transform.", "anchors": ["src/codec/dict.rs: DictState::encode_or_decode"]}
{"id": "C19", "title": "Block switch serialisation round trip", "statement": "Every block-type switch (literal, command or distance; any of 256 types; any stride) decodes to the same switch, whatever switches preceded it, and the remembered recent types on both sides stay equal.", "quantifier": "every history of block types", "why_tests_cant": "The code refers to recent types and to the maximum type, so it depends on the whole history.", "anchors": ["src/codec/block_type.rs", "src/codec/interface.rs: obs_btypel, get_*_block_type, BlockSwitch LRU"]}
{"id": "C20", "title": "Context map serialisation round trip", "statement": "Any literal and distance context map up to the supported sizes is decoded to the same bytes from the move-to-front/escape nibbles the encoder emits, and the recency list on both sides stays equal.", "quantifier": "every context map content", "why_tests_cant": "256^n maps, and the code of each entry depends on all previous ones.", "anchors": ["src/codec/context_map.rs: PredictionModeState", "src/codec/interface.rs: obs_context_map_for_lru"]}
{"id": "C21", "title": "Checksum equals CRC-32C and is incremental", "statement": "The running checksum of the container equals the bitwise CRC-32C of all bytes hashed so far, regardless of how the bytes were split between calls.", "quantifier": "every byte string and every way of cutting it", "why_tests_cant": "The implementation works 16 bytes at a time with 4096 table entries; each wrong entry affects only some inputs.", "anchors": ["src/codec/crc32.rs: fallback_crc32c_update, crc32c_update", "src/codec/crc32_table.rs: TABLE16"]}
{"id": "C22", "title": "Checksum detects local corruption", "statement": "Changing the hashed bytes inside any window of at most four consecutive bytes (in particular any single bit or byte) changes the checksum, for messages of any length.", "quantifier": "every message, position and non-trivial change within the window", "why_tests_cant": "Unbounded messages and positions.", "anchors": ["src/codec/crc32.rs", "src/codec/decoder.rs: process_eof"]}
{"id": "C23", "title": "Checksum trailer is written and verified exactly once", "statement": "The 8-byte trailer (4 checksum bytes little endian, then the end magic) is emitted completely and in order for any output buffer sizes, and the decoder accepts iff the trailer matches (when checking is on), for any way its bytes arrive; with checking off the four checksum bytes are ignored but the end magic is still required.", "quantifier": "every checksum value, every output and input split, both modes", "why_tests_cant": "Splits in the middle of the trailer.", "anchors": ["src/codec/mod.rs: EncodeOrDecodeState::WriteChecksum, decoder verify", "src/codec/decoder.rs: decode_process_input, process_eof"]}
{"id": "C24", "title": "Header is written and parsed independently of buffering", "statement": "The 16 header bytes are emitted once and in order for any output buffer sizes; parsing accepts exactly the headers with the right magic and window size 10..24 and recovers the window size, for any way the header bytes arrive; every window option the user passes is clamped to that range, so every produced header is accepted.", "quantifier": "every window option, every split of the 16 bytes on both sides, every 16-byte header", "why_tests_cant": "Splits and 2^128 headers.", "anchors": ["src/divans_compressor.rs: make_header, write_header", "src/divans_decompressor.rs: HeaderParser::parse_header, decode"]}
{"id": "C25", "title": "Reader adaptor delivers the whole stream", "statement": "Reading through the Read adaptor feeds the codec exactly the bytes of the underlying source in order, each once, finalises the codec only after the source reported end of file, and reports end of file to its caller only after the codec has finished.", "quantifier": "every source chunking, every caller buffer size, every codec behaviour", "why_tests_cant": "Interaction of two buffers and three status codes.", "anchors": ["src/reader.rs: GenReader::read, copy_to_front"]}
{"id": "C26", "title": "Writer adaptor passes everything through", "statement": "Writing through the Write adaptor forwards every byte the codec produces to the sink in order and, when flush succeeds, the codec has been finalised, so a truncated compressed stream is reported as an error.", "quantifier": "every sequence of writes, buffer sizes and codec behaviours", "why_tests_cant": "As above.", "anchors": ["src/writer.rs: GenWriter::write, flush, DivansDecompressorWriter::new"]}
{"id": "C27", "title": "Raw input is turned into commands without loss", "statement": "When raw bytes are pushed into the built-in command assembler in any pieces, the literals of the commands it emits (with the final flush) concatenate to exactly the input.", "quantifier": "every input, every way of cutting it into calls, every ring-buffer size and command-buffer size", "why_tests_cant": "Errors show only for particular cuts after the ring buffer has wrapped several times.", "anchors": ["src/raw_to_cmd/mod.rs: RawToCmdState::stream, flush", "src/divans_compressor.rs: DivansCompressor::encode, flush"]}
{"id": "C28", "title": "Worker hand-off keeps data and commands in order", "statement": "Data buffers pushed by the main side are pulled by the worker in the same order, commands pushed by the worker are pulled by main in the same order, at most the advertised number is pending, nothing is dropped or duplicated, and after an error is broadcast the first error is the one reported.", "quantifier": "every interleaving of main and worker operations", "why_tests_cant": "Interleavings of two threads.", "anchors": ["src/threading.rs: SerialWorker", "src/multithreading.rs: MultiWorker, BufferedMultiWorker"]}
{"id": "C29", "title": "Allocation reuse never loses or double-frees memory", "statement": "With the repurposing allocator every block obtained from the underlying allocator is freed exactly once when its users have freed their cells and the allocator is freed; a reused block is always at least as large as requested, and with clearing enabled contains only default values.", "quantifier": "every sequence of allocations and frees of any sizes", "why_tests_cant": "Histories.", "anchors": ["src/alloc_util.rs: RepurposingAlloc, CachedAllocator"]}
{"id": "C30", "title": "Growable byte buffer honours requested space", "statement": "Asking the growable byte buffer for at least n free bytes returns at least n bytes, and bytes committed earlier keep their value and order.", "quantifier": "every history of checkouts and commits", "why_tests_cant": "Sizes beyond the default allocation.", "anchors": ["src/resizable_buffer.rs: ResizableByteBuffer::checkout_next_buffer, commit_next_buffer"]}
{"id": "C31", "title": "Byte register queue is a FIFO", "statement": "The small register queue used between arithmetic coder and stream returns pushed bytes in order and never holds more than eight bytes.", "quantifier": "every sequence of pushes and pops of any sizes", "why_tests_cant": "Shift amounts up to the word size.", "anchors": ["src/arithmetic_coder.rs: RegisterQueue"]}
{"id": "C32", "title": "Mixing two models keeps probabilities usable", "statement": "Combining two valid distributions with any mixing weight yields a valid distribution, and the adaptive weights stay within their representable positive range for every history.", "quantifier": "every pair of valid distributions, weight and update history", "why_tests_cant": "Histories and joint values.", "anchors": ["src/probability/frequentist_cdf.rs: average", "src/codec/weights.rs: Weights::update"]}
{"id": "C33", "title": "Adaptation speeds survive the stream format", "statement": "A speed written to the stream is read back as the nearest representable speed not above it, and every speed of the encoder's palette is representable exactly.", "quantifier": "every 16-bit speed value", "why_tests_cant": "Rounding for 2^16 values and both fields.", "anchors": ["src/probability/interface.rs: speed_to_u8, u8_to_speed, Speed::to_f8_tuple, from_f8_tuple, ENCODER_DEFAULT_PALETTE"]}
{"id": "C34", "title": "Adaptive symbol coding round trip", "statement": "If encoder and decoder start from the same adaptive models and choose the model of each symbol by the same rule from what has been coded so far, the decoder recovers every symbol and ends with identical models.", "quantifier": "every symbol sequence, every model-selection rule that is a function of the past, every adaptation rule that keeps models valid", "why_tests_cant": "Desynchronisation can appear after any prefix.", "anchors": ["src/ans.rs", "src/probability/*", "src/codec/*: get_or_put_nibble"]}
{"id": "C35", "title": "Whole command stream round trip", "statement": "Encoding a list of valid commands and decoding the nibbles gives back the same list of commands and the end marker, whatever the adaptive models are.", "quantifier": "every list of valid commands", "why_tests_cant": "Composition of all command codes with shared history.", "anchors": ["src/codec/mod.rs: encode_or_decode_one_command", "src/codec/*.rs"]}
{"id": "C36", "title": "Optimising the command stream does not change the bytes it stands for", "statement": "Merging a literal with a following copy or literal, and dropping empty copies, leaves the bytes reproduced by the command list unchanged, whichever merges the cost estimate selects.", "quantifier": "every command list describing a buffer, every outcome of the cost estimate", "why_tests_cant": "Cost outcomes are arbitrary.", "anchors": ["src/ir_optimize/mod.rs: ir_optimize"]}
{"id": "C37", "title": "Textual commands parse back", "statement": "The hexadecimal and quoted forms of literal data in the textual command format are parsed back to the bytes they were printed from, and malformed text is rejected without a crash.", "quantifier": "every byte string and every text line", "why_tests_cant": "All byte values and positions, all lines.", "anchors": ["src/bin/util.rs", "src/bin/divans.rs: command_parse"]}
{"id": "C38", "title": "End to end: stream of symbols through coder and multiplexer", "statement": "Coding two symbol streams with two entropy coders, multiplexing their bytes in any schedule into one byte stream, splitting that arbitrarily, demultiplexing and decoding recovers both symbol streams.", "quantifier": "every pair of symbol streams, every serialisation schedule, every input split", "why_tests_cant": "Composition over unbounded schedules.", "anchors": ["src/mux.rs", "src/ans.rs", "src/codec/io.rs"]}
{"id": "C39", "title": "Every adaptation speed that options or a stream can name is safe", "statement": "Any adaptation speed accepted by the option parser, or decodable from a compressed stream, leaves every adaptive distribution valid after every history.", "quantifier": "every accepted speed and every symbol history", "why_tests_cant": "Only rare speed values combined with particular histories overflow the counters.", "anchors": ["src/probability/interface.rs: Speed::from_str, u8_to_speed, Speed::from_f8_tuple", "src/probability/frequentist_cdf.rs: blend", "src/codec/context_map.rs: AdaptationSpeed"]}
{"id": "C40", "title": "Literal context is the last eight output bytes", "statement": "The eight bytes from which the next literal is predicted are the eight most recently produced bytes in order, wherever the output happens to be in the ring buffer, so that compression does not depend on ring position.", "quantifier": "every ring size, every history of commands and every ring position", "why_tests_cant": "The wrong order occurs only for the few bytes after each wrap of the ring and does not break decompression.", "anchors": ["src/cmd_to_raw/mod.rs: last_8_literals, fallback_last_8_literals", "src/codec/mod.rs: literal context set-up"]}
{"id": "C41", "title": "Malformed command streams never crash the decoder", "statement": "Whatever bytes are given to the decompressor, decoding the command stream either yields a command, asks for more input or reports failure; it never panics.", "quantifier": "every sequence of nibbles, valid or not, in every state the decoder can reach on any input", "why_tests_cant": "The input space is unbounded and the bad inputs are a vanishing fraction of it; the state depends on the whole history.", "anchors": ["src/codec/copy.rs: CopyState::encode_or_decode", "src/codec/interface.rs: get_distance_from_mnemonic_code", "src/codec/literal.rs: LiteralState"]}
{"id": "C42", "title": "Everything accepted from a stream is within the ranges of the format", "statement": "Whatever bytes are given to the decompressor, every command it accepts has a word length of 4 to 24, a transform of at most 120, a literal of at least one byte, a stride below 16, a prediction mode of at most 3, and tables of the fixed sizes, and every adaptive model it looks up exists.", "quantifier": "every sequence of nibbles and every reachable decoder state", "why_tests_cant": "Must hold for inputs no encoder produces, after any history.", "anchors": ["src/codec/mod.rs: encode_or_decode_one_command", "src/codec/priors.rs", "src/codec/context_map.rs: PredictionModeState"]}
{"id": "C43", "title": "Decompression gives the original data under every schedule", "statement": "Compressing any list of valid commands and decompressing the two resulting streams gives exactly the data the commands stand for. This holds however the work is divided between the worker thread that decodes commands and the main thread that decodes literals and fills the ring, however the bytes of the streams arrive, and whatever output buffers the caller provides: nothing fails, the bytes given out are always a beginning of the original data, they are all of it when the end is reported, and the end is reported once all bytes have arrived and both sides keep running.", "quantifier": "every list of valid commands, every interleaving of worker and main steps and arrivals, every output buffer size", "why_tests_cant": "The number of schedules and of command histories is unbounded, and the adaptive models depend on the whole history.", "anchors": ["src/codec/mod.rs: DivansCodec::encode_or_decode", "src/codec/decoder.rs: DivansDecoderCodec::decode_process_output", "src/codec/literal.rs", "src/codec/interface.rs", "src/divans_to_raw/mod.rs"]}
{"id": "C44", "title": "Every model lookup for a literal nibble is in bounds", "statement": "For every history of accepted block switches, prediction modes and literal bytes, choosing the model of the next literal nibble finds an entry in every table it consults, and the adaptation speed used cannot overflow the counters.", "quantifier": "every state of the literal bookkeeping reachable with accepted commands, both nibbles, every prior", "why_tests_cant": "The indices combine block type, two previous bytes, context map contents, mixing values and half-decoded nibbles.", "anchors": ["src/codec/literal.rs: LiteralState::code_nibble", "src/codec/interface.rs: LiteralBookKeeping", "src/codec/priors.rs"]}
{"id": "C45", "title": "Every file the compressor writes is decompressed to the original data", "statement": "Take any list of valid commands and the file a compressor writes for it, with any window option and any output buffer sizes. Decompressing the file gives exactly the data the commands stand for, with checksums on or off, in whatever pieces the file arrives, whatever bytes follow it, however the steps of the two decoders interleave, and whatever output buffers are provided: nothing fails, the output is always a beginning of the original data, the checksum is never rejected, success is reported only when the output is complete and exactly the bytes of the file have been taken, and it is reported once the file has arrived and the caller keeps calling.", "quantifier": "every list of valid commands, window option, coder and multiplexer schedule, input split, trailing bytes, decoder schedule and output buffer sizes", "why_tests_cant": "Composition of header, multiplexer, entropy coders, adaptive models, command and literal coders, ring buffer and trailer over unbounded schedules.", "anchors": ["src/divans_compressor.rs", "src/divans_decompressor.rs", "src/codec/mod.rs", "src/codec/decoder.rs", "src/codec/literal.rs", "src/mux.rs", "src/ans.rs"]}
{"id": "C46", "title": "The two decompressor threads never lose a wake-up or wait for each other forever", "statement": "In the multithreaded decompressor a thread that waits is woken whenever what it waits for is there; its internal assertions never fail; the two threads never both wait forever, so each decode call returns; and freeing a decompressor part-way returns.", "quantifier": "every interleaving of the two threads, with spurious wake-ups, every division of the input into calls, every file", "why_tests_cant": "Interleavings of two threads and a condition variable; malformed files.", "anchors": ["src/multithreading.rs: MultiWorker, BufferedMultiWorker", "src/parallel_decompressor.rs: ParallelDivansProcess"]}
{"id": "C47", "title": "Optimising the command stream never crashes", "statement": "The optimiser of command lists returns for every command list that describes its input, whatever the cost estimates answer, in builds with and without checked arithmetic.", "quantifier": "every command list describing a buffer, every previous distance cache, every outcome of the cost estimate", "why_tests_cant": "The crash needs a particular sequence of distances relative to the distance cache and a literal before it.", "anchors": ["src/ir_optimize/mod.rs: should_merge, ir_optimize", "src/ir_optimize/cache.rs: Cache"]}
{"id": "C48", "title": "Literals are predicted in the context the brotli format defines", "statement": "Each byte of a literal is coded in the context that the brotli format (RFC 7932, section 7.1) selects from the two bytes of output before it, the prediction mode and the literal block type last set, through the context map; the strided byte is the one the stride says.", "quantifier": "every list of valid commands, every literal after it and every byte of it, all modes", "why_tests_cant": "A wrong context is invisible in round trips, because both sides make the same mistake; it only costs compression.", "anchors": ["src/codec/literal.rs: get_prev_word_context", "src/codec/interface.rs: get_lut0, get_lut1, push_literal_byte", "src/constants.rs"]}
{"id": "C49", "title": "Compressing commands works with output buffers of any sizes", "statement": "Commands offered to encode_commands in any pieces, with output buffers of any sizes including empty ones, followed by flush calls with buffers of any sizes: no call panics or fails as long as flush is only called when all offered commands were taken; once flush reports success, the concatenated output is a file that every decompressor run turns back into the data of the commands; and with nonempty buffers all commands are taken and flush succeeds after finitely many calls.", "quantifier": "every list of valid commands, every way to cut it into calls, every sequence of buffer sizes", "why_tests_cant": "The buffer sizes decide at which of the many internal points each call is interrupted and resumed; they and the commands are unbounded.", "anchors": ["src/divans_compressor.rs: encode_commands, flush", "src/codec/mod.rs: encode_or_decode, internal_flush", "src/codec/io.rs: drain_or_fill_internal_buffer"]}
{"id": "C50", "title": "Compressing raw bytes works with input and output buffers of any sizes", "statement": "Bytes offered to encode in any pieces, with output buffers of any sizes including empty ones, followed by flush calls with buffers of any sizes: no call panics or fails; once flush reports success, the concatenated output is a file that every decompressor run turns back into the bytes taken; and with nonempty buffers all input is taken and flush succeeds after finitely many calls.", "quantifier": "every input, every way to cut it into calls, every sequence of buffer sizes, every window size", "why_tests_cant": "Commands that do not fit are kept as references into a ring buffer that is refilled by later calls; whether they are still intact depends on the whole history of sizes.", "anchors": ["src/divans_compressor.rs: encode, flush, flush_freeze_dried_cmds, freeze_dry", "src/raw_to_cmd/mod.rs", "src/codec/mod.rs: encode_or_decode, internal_flush"]}
{"id": "C51", "title": "The fast path for literals is invisible", "statement": "While at least 16 bytes of the literal stream are ready the decompressor reads literals without checking whether the entropy decoder is short of input. Whatever amounts of input are ready at any time, the output is the original data, no debug assertion fails, and no byte is decoded from an entropy decoder that still waits for input.", "quantifier": "every list of valid commands, every way to cut the streams and output buffers, debug and release builds", "why_tests_cant": "The path taken depends on how many bytes happen to be ready at each byte of each literal; the critical case is a chunk boundary of the entropy coder with few bytes left, once in 32768 bytes.", "anchors": ["src/codec/literal.rs: code_nibble_array, encode_or_decode_content_bytes, state_literal_nibble_index", "src/codec/decoder.rs: decode_process_input", "src/ans.rs: ANSDecoder"]}
{"id": "C52", "title": "Truncated files are never accepted, and bytes behind a file are left alone", "statement": "For any bytes at all: how many of them a decompressor has accepted when it reports success does not depend on the schedule, the buffers or the options. Hence if a file is accepted to its last byte, no proper beginning of it is ever accepted, and with more bytes behind it exactly those are left unread.", "quantifier": "every sequence of bytes, every way to offer it, every schedule, with and without checksums", "why_tests_cant": "Every file has as many truncations as bytes and each can arrive in exponentially many ways; malformed files are not enumerable.", "anchors": ["src/codec/decoder.rs: decode_process_input, process_eof", "src/mux.rs: deserialize", "src/divans_decompressor.rs"]}
{"id": "C53", "title": "A file damaged in one place is never accepted in full", "statement": "If a decompressor that checks checksums accepts a file to its last byte, it does not accept to its last byte any other file of the same length whose differences lie within 32 consecutive bits, wherever they are: header, streams, trailer or across.", "quantifier": "every accepted file, every damage within 32 consecutive bits, every schedule", "why_tests_cant": "There are more than 2^32 damages per position and the property must hold for every file length.", "anchors": ["src/codec/crc32.rs", "src/codec/decoder.rs: process_eof", "src/codec/mod.rs: trailer"]}
{"id": "C54", "title": "The result of decompression is determined by the bytes", "statement": "For any bytes at all, well-formed or not: if a decompressor reports success on them with some output, then a decompressor given the same bytes in any other pieces, with any other output buffers and thread timing (and anything behind them), never fails, gives out a beginning of the same output, reports success only with exactly that output and the same bytes taken, and reports it after finitely many calls.", "quantifier": "every sequence of bytes on which some schedule succeeds, every other schedule, every bytes behind, with or without checksums", "why_tests_cant": "Fuzzing compares a handful of buffer sizes; the property ranges over all pairs of schedules of all malformed files.", "anchors": ["src/divans_decompressor.rs: decode", "src/codec/decoder.rs: decode_process_input, process_eof", "src/cmd_to_raw/mod.rs: encode_cmd, copy_some_decoded_from_ring_buffer_to_decoded", "src/codec/mod.rs"]}
{"id": "C55", "title": "Every call of the decompressor returns, and for a reason the caller can act on", "statement": "On a file the compressor wrote, followed by anything, with checksums or without, and whatever numbers of bytes are offered and whatever output buffers are given: every call of decode returns, without failure or panic; it takes no more than it was offered and writes no more than there is room; what has been given out is always a beginning of the original data. When it asks for input it has taken everything it was offered and the file has not been offered to its end; when it asks for output space it has filled the buffer; when it reports success the data is complete and exactly the file has been taken. A caller who offers something and has room each time sees success within as many calls as file and data have bytes, and one more; a caller who offers all there is sees it once the buffers together have more room than the data needs.", "quantifier": "every list of valid commands, every sequence of (offer, output room) pairs, every bytes behind the file, with or without checksums", "why_tests_cant": "Which of three parts runs and when a call returns depends on how bytes, buffers, commands and output room line up; a loop that spins or a request for input that cannot be met appears only at particular alignments.", "anchors": ["src/divans_decompressor.rs: decode", "src/codec/decoder.rs: decode_process_input, decode_process_output, process_eof", "src/threading.rs: SerialWorker, ThreadToMainDemuxer", "src/codec/mod.rs: encode_or_decode"]}
{"id": "C56", "title": "Compressing and decompressing through the calls gives the input back", "statement": "A caller who offers the input piece by piece to encode (raw bytes up to a window, or any valid commands to encode_commands), at least one element and a nonempty output buffer each time, then calls flush with nonempty output buffers until it reports success, and then offers the bytes written, followed by anything, piece by piece to decode with nonempty output buffers, comes to the end of each of the three, gets exactly the input back, and the bytes behind the file are left alone. The calls of decode are at most as many as file and input have bytes, and one more.", "quantifier": "every input, every infinite sequence of buffer sizes for the three loops, every bytes behind the file", "why_tests_cant": "Round-trip tests use a few files and a few buffer sizes; the property is about every combination of the sizes on both sides.", "anchors": ["src/divans_compressor.rs: encode, encode_commands, flush", "src/divans_decompressor.rs: decode"]}
{"id": "C57", "title": "Reading from a decompressor around a source gives the data, and only the data", "statement": "A caller wraps a source that holds a file of the compressor in DivansDecompressorReader, with an input buffer of any size and the source giving its bytes in any pieces, and calls read with nonempty buffers of any sizes until it returns 0. Every read returns, none fails, the bytes read are exactly the data, and there are at most as many reads as the data has bytes, and one more. If the source ends before the file does, the caller gets a beginning of the data and then an error, never an end of file. If the source goes on behind the file, the caller gets the data and the end of file all the same.", "quantifier": "every file of the compressor, every way its bytes arrive, every input buffer size, every sequence of read buffer sizes, every truncation, every bytes behind", "why_tests_cant": "Whether the adaptor loops for ever, or reports an end of file too early, depends on how source pieces, input buffer, read buffers and the decoder's calls line up.", "anchors": ["src/reader.rs: GenReader, DivansDecompressorReader", "src/divans_decompressor.rs: decode"]}
{"id": "C58", "title": "The compressor as a reader or a writer makes a file of what goes in", "statement": "A caller who reads from a compressor wrapped around a source until read returns 0, with an input buffer of any size and nonempty read buffers of any sizes, gets there after finitely many reads, without an error, and has read a file from which the bytes of the source come back. A caller who writes bytes in any pieces to a compressor wrapped around a sink and then flushes sees every write take everything and the flush succeed, and the sink has received a file from which exactly these bytes come back.", "quantifier": "every input, every way it arrives, every buffer size of the adaptors, every sequence of read buffer sizes", "why_tests_cant": "The header, the kept commands and the adaptor's own end-of-file logic interact at particular buffer sizes only.", "anchors": ["src/reader.rs: GenReader, DivansExperimentalCompressorReader", "src/writer.rs: GenWriter, DivansExperimentalCompressorWriter", "src/divans_compressor.rs: encode, flush"]}
{"id": "C59", "title": "Writing a file to a decompressor around a sink delivers the data, or an error", "statement": "A caller who writes a file of the compressor in any pieces to DivansDecompressorWriter around a sink that works, and flushes, sees every write take everything and the flush succeed, and the sink has received exactly the data. If the file is truncated, the flush reports an error.", "quantifier": "every file of the compressor, every way of cutting it into writes, every buffer size, every truncation", "why_tests_cant": "Every cut point of every file is a different run of the adaptor and the decoder.", "anchors": ["src/writer.rs: GenWriter, DivansDecompressorWriter", "src/divans_decompressor.rs: decode"]}
{"id": "C60", "title": "Builds with and without vector instructions or division tables are interchangeable", "statement": "The default build (division by table), the build with plain division and the builds with vector instructions (portable, AVX2 or SSE lookup, with or without floating point division) hand the same probabilities to the entropy coder for the same symbols, read the same symbols out of the same bytes, valid or not, and compute the same checksum; so a file written by one is read by any other.", "quantifier": "every pair of builds, every sequence of nibbles, every rule by which models, mixtures and adaptation speeds are chosen, every input of the decoder, every buffer", "why_tests_cant": "The vector code uses biased unsigned compares, byte shuffles, masks and a double division; a rare value of a counter can take another path in one build only.", "anchors": ["src/probability/simd_frequentist_cdf.rs: SIMDFrequentistCDF16", "src/probability/opt_frequentist_cdf.rs: OptFrequentistCDF16", "src/probability/frequentist_cdf.rs: FrequentistCDF16", "src/codec/crc32.rs: sse_crc32c_update"]}
{"id": "C61", "title": "A success reported by a call means a checked file, on any input", "statement": "Whatever bytes a caller offers, in whatever pieces and with whatever output buffers: when a call of the decompressor reports success, the bytes taken so far are a valid header, complete streams and a trailer with the right mark and, unless checking is off, the right checksum; how many they are depends on the bytes alone. A proper beginning of an accepted file is never accepted, bytes behind a file are left to the caller, and a file damaged within 32 consecutive bits is not accepted to its last byte.", "quantifier": "all byte strings, all sequences of calls with any offers and output sizes, checksums checked or skipped", "why_tests_cant": "It ranges over all malformed inputs and all ways to cut them into calls; the checks are spread over a state machine that is suspended and resumed between calls.", "anchors": ["src/divans_decompressor.rs: decode", "src/codec/decoder.rs: decode_process_input, decode_process_output, process_eof", "src/mux.rs: deserialize"]}
{"id": "C62", "title": "No input makes a call of the decompressor run forever", "statement": "Whatever bytes a caller has offered before and offers now, in whatever pieces and with whatever output buffers, a call of decode ends: it returns, reports failure or panics. If it returns it has taken no more than it was offered and written no more than there was room for, and if it asks for output space the buffer is full. Once a call has reported success every further call does, takes nothing and writes nothing.", "quantifier": "all byte strings, all histories of calls with any offers and output sizes, checksums checked or skipped", "why_tests_cant": "Termination on malicious input: three parts that hand work to each other, each of which may have nothing to do; no finite set of inputs rules out a cycle.", "anchors": ["src/divans_decompressor.rs: decode", "src/codec/decoder.rs: decode_process_input, decode_process_output, process_eof", "src/threading.rs: SerialWorker", "src/cmd_to_raw/mod.rs: encode_cmd, parse_copy"]}
{"id": "C63", "title": "The C interface: settings, the caller's memory, return codes, and the round trip of the example program", "statement": "A setting is accepted or refused by its selector and value alone; a refused one, and every one made after the first call of divans_encode or divans_encode_flush, returns the failure code and changes nothing that follows. The order of settings does not matter, except among the speeds and the two selectors for who chooses the commands. A null pointer for a state or an offset gives the failure code and changes nothing. With the internal choice of commands every call returns, moves the offsets forward inside of the buffers, changes only the bytes passed over, asks for input only when all was taken and for output only when the buffer is full; and when the last flush reports success, the bytes written in all calls are a file that gives back the bytes taken. The compress and decompress functions of the example program end and give the input back.", "quantifier": "all lists of settings, all histories of calls, all input, buffers and offsets (settings and late settings: also for whatever compressor is behind the interface)", "why_tests_cant": "Histories of calls and settings and ways to cut input and output into buffers are unbounded, and memory outside of the parts passed over is not looked at by a test of the output.", "anchors": ["src/ffi/mod.rs: divans_set_option, divans_encode, divans_encode_flush, divans_decode", "src/ffi/compressor.rs: CompressorState", "c/example.c: compress, decompress", "c/divans/ffi.h"]}
{"id": "C64", "title": "No error from the decompressing reader means a complete, checked file", "statement": "Whatever bytes the source gives, in whatever pieces, with whatever errors and interruptions: if a caller reads from the decompressing reader with nonempty buffers until a read returns 0 bytes and no read has reported an error, then what was taken from the source is a complete file with the right checksum (unless checking is off), what was read is what the decompressor gives for that file, and if the source had no errors the file is everything it has.", "quantifier": "all byte strings, all ways the source cuts, interrupts or ends them, all sizes of the internal buffer and of the caller's buffers", "why_tests_cant": "It is about every malformed or truncated file and every way the source delivers it: a reported end of file is taken for a complete copy by every caller of read_to_end.", "anchors": ["src/reader.rs: GenReader::read, DivansDecompressorReader", "src/divans_decompressor.rs: decode", "src/mux.rs: deserialize, deserialize_eof"]}
{"id": "C65", "title": "No bytes can crash the decompressor", "statement": "Whatever bytes it is given, in whatever pieces and with whatever output buffers, a call of decode never panics: it returns that it needs input, needs output, has finished or has failed.", "quantifier": "all byte strings, all histories of calls with all sizes of input pieces and output buffers", "why_tests_cant": "Panics on malformed input hide behind particular sequences of compressed commands; every byte string is a possible file.", "anchors": ["src/divans_decompressor.rs: decode", "src/codec/decoder.rs: DivansDecoderCodec", "src/codec/mod.rs: DivansCodec::encode_or_decode_one_command", "src/codec/copy.rs: CopyState", "src/codec/literal.rs: LiteralState", "src/codec/interface.rs: obs_prediction_mode_context_map", "src/cmd_to_raw/mod.rs: DivansRecodeState"]}
{"id": "C66", "title": "The decompressing program writes exactly the data, or reports an error", "statement": "The command line program, run to decompress, ends. If it reports no error, then its input begins with a complete file with the right checksum and its output is exactly the data of that file. If the input is a complete file (with anything behind it) it reports no error unless its input or output has one. If the file is cut off it reports an error.", "quantifier": "all inputs in all pieces with all interruptions and errors, all outputs that take any number of bytes per write with all interruptions and errors, all buffer sizes", "why_tests_cant": "Which bytes are in the buffers when an error, an interruption or the end comes depends on the operating system; a test sees a few of these schedules.", "anchors": ["src/bin/divans.rs: decompress, decompress_generic"]}
{"id": "C67", "title": "The compressing program writes a file of exactly its input, or reports an error", "statement": "The command line program, run to compress, ends. If it reports no error, then its output is a complete file, and decompressing that gives exactly the bytes of the input, however the input came and the output went. Input that is a compressed file already is decompressed instead, unless compression is forced.", "quantifier": "all inputs in all pieces with all interruptions and errors, all outputs that take any number of bytes per write with all interruptions and errors, all buffer sizes and settings", "why_tests_cant": "Interrupted reads come from signals and hardly ever happen in tests; the number of bytes per read and write is up to the operating system.", "anchors": ["src/bin/divans.rs: compress_raw, compress_raw_inner, is_divans"]}
{"id": "C68", "title": "The output of the decompressor is bounded by its input", "statement": "Whatever bytes the decompressor is given, in whatever calls, what it has given out is at most a fixed number of bytes for every byte it has taken; and when every call has room for something, at most that many calls ask for more room. So a caller who gives room whenever asked gets to a call that reports something else, even for malicious input.", "quantifier": "all bytes (files or not), all sequences of calls with all offers and output buffers, both checksum settings, all dictionaries whose words have a greatest length", "why_tests_cant": "Input that makes a decompressor write without end is made by an attacker; no set of test files shows that none exists.", "anchors": ["src/divans_decompressor.rs: decode", "src/codec/decoder.rs", "src/cmd_to_raw/mod.rs"]}
{"id": "C69", "title": "Whatever drives the decompressor comes to an end", "statement": "The command line program, run to decompress, ends on every input, whether it is a file or not: with the data or with an error. Every read of the decompressing reader and every write of the decompressing writer returns, and a caller who reads to the end gets there.", "quantifier": "all bytes in all pieces with all interruptions and errors of source and sink, all buffer sizes, all dictionaries whose words have a greatest length", "why_tests_cant": "A loop without end needs input that is damaged in just the right place, at the right distance from the end of a buffer.", "anchors": ["src/bin/divans.rs: decompress_generic", "src/reader.rs: read", "src/writer.rs: write"]}
{"id": "C70", "title": "The compressor that lets brotli choose the commands is lossless", "statement": "A caller of the compressor with brotli inside who offers data to encode in any pieces, offers again what was not taken, and then calls flush with buffers of any sizes, gets no error, gets all data taken and the end of the file after finitely many calls, and the file decompresses to exactly the data. An error inside is reported by the call in which it happens, and never followed by a success.", "quantifier": "all data, all pieces offered, all output buffers, all behaviours of brotli's encoder that keep its contract (it takes a beginning of its input, hands over metablocks of valid commands that reproduce it, and comes to an end)", "why_tests_cant": "Whether the interplay of four buffers loses data depends on where each of them is full; tests use one encoder on a few inputs.", "anchors": ["src/brotli_ir_gen.rs: internal_encode_stream, encode, flush, divans_encode_commands", "src/resizable_buffer.rs"]}
{"id": "C71", "title": "Reading from and writing to the compressor with brotli inside is lossless", "statement": "A caller who reads to the end from DivansBrotliHybridCompressorReader, or writes all data to DivansBrotliHybridCompressorWriter and flushes, gets no error and a file that decompresses to the data, whatever the buffer sizes and however the source gives its bytes.", "quantifier": "all data, all sources with all interruptions, all sizes of the adaptor's buffer and of the caller's, all pieces written, all behaviours of brotli's encoder that keep its contract", "why_tests_cant": "The failures need an encoder that fills its output buffer at the right moment, that is, large or incompressible data in one write, or a source that ends while input is left.", "anchors": ["src/reader.rs: DivansBrotliHybridCompressorReader, GenReader::read", "src/writer.rs: DivansBrotliHybridCompressorWriter, GenWriter::write, flush", "src/brotli_ir_gen.rs: encode, flush"]}
{"id": "C72", "title": "The command line program with its default settings is lossless for data of any length", "statement": "divans -c, with brotli choosing the commands as it does by default, reads its source to the end and ends; if it reports no error, the sink has received a file from which every decompressor, and divans -d, restores exactly the data of the source. If it reports an error, the source or the sink had one. There is no limit on the length of the data.", "quantifier": "all data of any length, all ways a source gives its bytes, all short writes, interruptions and errors of the sink, all buffer sizes, all behaviours of brotli's encoder that keep its contract", "why_tests_cant": "Where input is left over, where buffers are full and when a read is interrupted vary between runs; tests see a few combinations.", "anchors": ["src/bin/divans.rs: compress_raw, compress_raw_inner", "src/brotli_ir_gen.rs: encode, flush"]}
{"id": "C73", "title": "The programs for textual commands agree", "statement": "divans -i compresses a text of commands and divans -d -recode carries the same text out. Both end, and if the lines are good and the sink has no error, neither reports an error; -recode writes exactly the bytes the commands stand for, and decompressing the file that -i wrote gives the same bytes.", "quantifier": "all texts of commands (any number of lines), all ways a source gives its bytes, with all interruptions, all short writes and interruptions of the sink, all compression options in range", "why_tests_cant": "Lines are cut out of whatever pieces the source gives, sixteen commands are collected at a time, and output buffers fill up anywhere; tests see a few texts read in one piece.", "anchors": ["src/bin/divans.rs: compress_ir, compress_inner, recode, recode_inner", "src/cmd_to_raw/mod.rs: DivansRecodeState::encode_commands, flush", "src/divans_compressor.rs: encode_commands, flush"]}
{"id": "C74", "title": "A wrong line of a textual command file is never passed over", "statement": "If divans -i or divans -d -recode ends without an error, then the source had no error and every line was understood. A wrong line is reported as an error of the text.", "quantifier": "all sources and all bytes they give, all sinks, all compression options", "why_tests_cant": "The claim is about every malformed text, at every position relative to the buffer of sixteen commands.", "anchors": ["src/bin/divans.rs: compress_inner, recode_inner, command_parse, window_parse"]}
{"id": "C75", "title": "Flushing a recoder through the compressor interface completes its output", "statement": "A caller who drives the recoder through the trait Compressor, as any other compressor, and calls flush until it reports success has received all the bytes the commands stand for.", "quantifier": "all command lists, all output buffer sizes", "why_tests_cant": "It depends on how the sizes of the output buffers meet the lengths of the commands.", "anchors": ["src/cmd_to_raw/mod.rs: impl Compressor for DivansRecodeState, flush", "src/interface.rs: Compressor"]}
{"id": "C76", "title": "The distribution of builds with the feature blend codes every history without loss", "statement": "In builds with the feature `blend`, after any number of any symbols each symbol has a slot of at least one, slots do not overlap, and looking up any offset of a slot gives its symbol and slot. Nibbles coded with any number of such distributions, chosen by any rule from the nibbles before, come back exactly; coding never fails. This also holds together with the other features that change the arithmetic (`avoid-divide`).", "quantifier": "all histories of symbols of any length, all rules that choose the distribution, all ways the output is taken and delivered in pieces", "why_tests_cant": "The distribution changes with every symbol, its adaptation rate decays over hundreds of symbols, and the slots of rare symbols shrink to the bound where one would be empty; no finite set of histories covers that.", "anchors": ["src/probability/blend_cdf.rs: BlendCDF16, mul_blend, to_blend_lut", "src/probability/interface.rs: sym_to_start_and_freq, cdf_offset_to_sym_start_and_freq, lookup_divisor", "src/ans.rs: put_nibble, get_nibble"]}
{"id": "C77", "title": "Mixing two distributions of the feature blend leaves every symbol codable", "statement": "In builds with the feature `blend`, the mixture of two distributions with a weight has a nonempty slot for every symbol, and the weight is that of the first distribution, as in other builds.", "quantifier": "all pairs of histories, all weights from 0 to 1", "why_tests_cant": "The failure needs the last entry of the mixture to be one of ten numbers out of 32768.", "anchors": ["src/probability/blend_cdf.rs: average, blend_internal, cdf", "src/probability/frequentist_cdf.rs: average", "src/codec/literal.rs"]}
{"id": "C78", "title": "The command line program takes its arguments as they are written", "statement": "Settings and up to two file names may be given in any order: each setting has its documented effect with the number that is written, the first name is the input and the second the output, and where settings contradict each other the last one counts. A third name, a number out of range or an unknown option is rejected. After `--` everything is a name.", "quantifier": "all lists of arguments of any length, all numbers, all names", "why_tests_cant": "Options are recognised by their beginnings in a fixed order and their values are found by trimming single characters off both ends, so any of the endless combinations of option, value and order could be taken for another one.", "anchors": ["src/bin/divans.rs: main", "src/probability/interface.rs: Speed::from_str"]}
{"id": "C79", "title": "The command line program restores files and leaves others alone", "statement": "`divans [settings] in out` followed by `divans -d [settings] out back` ends without an error both times and leaves in `back` exactly what was in `in`, with any number of benchmark runs; the same as a filter between standard input and output. No file but the named output is ever changed. An exit without an error means that the output holds what the input says: decompression of a cut or wrong file never exits so.", "quantifier": "all lists of settings and names in any order, all contents of files, all ways reads and writes are cut into pieces, all numbers of runs", "why_tests_cant": "It is about every combination of settings with every content, and about names that coincide and numbers of runs nobody thinks of.", "anchors": ["src/bin/divans.rs: main"]}
{"id": "C80", "title": "Adaptive bits can always be coded and come back", "statement": "An adaptive bit (CDF2) never fails and always gives both values a chance, whatever bits it has seen; its probability is the share of false among what it has counted, exactly so until one value was seen 255 times. Bits coded one after another with the probabilities it learns come back from the entropy coder's bytes. The tables it offers an encoder and a decoder agree with each other and with the coding of bits.", "quantifier": "all histories of bits of any length, all ways output is taken and input cut into pieces", "why_tests_cant": "Counts saturate and are halved only after long one-sided histories, which examples seldom reach.", "anchors": ["src/probability/interface.rs: CDF2, CDF2::blend, cdf_offset_to_sym_start_and_freq, sym_to_start_and_freq", "src/ans.rs: put_bit, get_bit"]}
{"id": "C81", "title": "A nibble coded as four bits comes back", "statement": "The provided put_nibble of an entropy encoder, which codes a nibble as four bits, and get_nibble of a decoder agree: the decoder asks with the probabilities the encoder used and returns the nibble. For a distribution that gives something to every symbol nothing is divided by zero and each bit is coded with its exact conditional share. Sequences of nibbles with adaptive distributions come back from the entropy coder's bytes.", "quantifier": "all coders of bits, all distributions, all sequences of nibbles, all ways input arrives", "why_tests_cant": "Sixteen nibbles of one distribution are tested; the claim is about every distribution and every coder of bits.", "anchors": ["src/arithmetic_coder.rs: EntropyEncoder::put_nibble, EntropyDecoder::get_nibble", "src/ans.rs: put_bit, get_bit"]}
{"id": "C82", "title": "The debugging coder writes a byte for each bit and reads it back", "statement": "The coder for debugging writes one byte for each bit, in order, however its output is taken in between. Its decoder reads the same bits and nibbles back and needs no more input than was written.", "quantifier": "all sequences of bits, probabilities and output rooms, all distributions and nibbles", "why_tests_cant": "It is about every interleaving and every fill level of the queue between coder and stream.", "anchors": ["src/debug_encoder.rs: DebugEncoder, DebugDecoder", "src/arithmetic_coder.rs: drain_or_fill_internal_buffer_unchecked"]}
{"id": "C83", "title": "Files of textual commands: compressed, carried out, and rejected", "statement": "divans -i with any settings, in any order, turns a file with a text of commands into a file from which divans -d restores the bytes the commands stand for, and divans -d -recode writes the same bytes from the text itself; all end without an error and change no file but their output. If a line of the text is wrong, both programs end with an error, and a program that ends without an error has understood every line of its input.", "quantifier": "all texts of commands, all settings in any order, all numbers of runs but 0, all ways in which the system delivers and takes bytes", "why_tests_cant": "The statement joins the arguments, the lines, the commands, the codec, the loops and the files; tests run a few texts with a few options.", "anchors": ["src/bin/divans.rs: main, compress_ir, recode"]}
{"id": "C84", "title": "With a thread of its own for the worker, every call still returns and for the same reasons", "statement": "On a file the compressor wrote, followed by anything, with checksums or without, whatever numbers of bytes are offered and whatever output buffers are given, and however the scheduler interleaves the decompressor's two threads: every call of decode comes to an end, without failure or panic of either thread and without a state in which both wait; it takes no more than it was offered and writes no more than there is room; what has been given out is always a beginning of the original data. It asks for input only when it has taken everything it was offered and the file has not been offered to its end, for output space only when it has filled the buffer, and reports success only when the data is complete and exactly the file has been taken. A caller who offers something and has room each time sees success within as many calls as file and data have bytes, and one more.", "quantifier": "every list of valid commands, every sequence of (offer, output room) pairs, every bytes behind the file, with or without checksums, every interleaving of the two threads in and between calls", "why_tests_cant": "The interleavings of two threads that share queues of commands, buffers and context maps cannot be enumerated or forced by tests; that neither waits forever depends on how bytes, batches of commands and used buffers line up.", "anchors": ["src/parallel_decompressor.rs: ParallelDivansProcess", "src/multithreading.rs: MultiWorker, BufferedMultiWorker", "src/threading.rs: SerialWorker, ThreadToMainDemuxer", "src/codec/decoder.rs: decode_process_input, decode_process_output"]}
{"id": "C85", "title": "With a worker thread, a reported success means the same as without, whatever the bytes and the scheduler", "statement": "Any bytes, well-formed or not, are offered to the decompressor with a worker thread in any pieces with any output buffers, under any interleaving of the threads. When a call reports success, the bytes taken are a good header, streams ended by the end marker and a trailer with the right magic and, unless checksums are skipped, the right CRC-32C. Where the file ends depends on its bytes alone, not on the schedule or on whether there is a thread: a file accepted by either kind of decompressor is accepted by the other only to the same byte, never when truncated, never with differences within 32 consecutive bits, and bytes behind it are left alone. If its commands can be carried out by the window, what is given out is the same too.", "quantifier": "every sequence of bytes, every sequence of calls, every interleaving of the two threads, with or without checksums", "why_tests_cant": "Malformed files times interleavings: neither can be enumerated, and a test that passes under one schedule says nothing about another.", "anchors": ["src/parallel_decompressor.rs: ParallelDivansProcess", "src/multithreading.rs: MultiWorker, BufferedMultiWorker", "src/codec/decoder.rs: decode_process_input, decode_process_output", "src/codec/mod.rs"]}
{"id": "C86", "title": "With a worker thread every call comes to an end, whatever the bytes and the scheduler", "statement": "Any bytes, well-formed or not, are offered to the decompressor with a worker thread in any pieces with any output buffers, under any interleaving of the threads. Every call ends after finitely many steps of the two threads: it returns, reports failure or panics. It takes no more than it was offered, writes no more than there is room for, and has filled the output buffer when it asks for more room. No call waits for ever.", "quantifier": "every sequence of bytes, every sequence of calls, every interleaving of the two threads", "why_tests_cant": "A hang needs a particular malformed file and possibly a particular schedule, and a test cannot tell a call that takes long from one that never returns.", "anchors": ["src/parallel_decompressor.rs: ParallelDivansProcess::new, decode", "src/multithreading.rs: MultiWorker::pull, pull_data, BufferedMultiWorker", "src/codec/decoder.rs: decode_process_input, decode_process_output"]}
{"id": "C87", "title": "Reader, writer, program and C interface with a worker thread", "statement": "With multithreading switched on and under any scheduling of the two threads: a file of the compressor read through the decompressing reader, written through the decompressing writer, given to the command line program or decoded by the loop of the C example, in any pieces, with any buffer sizes and interruptions, comes out as the original data without an error; a file that is cut off gives an error and a beginning of the data from the reader and from the program's loop (freeing the decompressor after it is C88); and if the program ends without an error on any bytes then they begin with a complete file with the right checksum and the sink was given exactly what was decoded.", "quantifier": "every file of the compressor (and, for the last part, every sequence of bytes), every division into pieces, all buffer sizes, interruptions and errors of source and sink, every interleaving of the two threads in every call", "why_tests_cant": "The result must not depend on the interplay of two threads, four kinds of loops around them and the sizes of three buffers; a test sees a few schedules of a few files.", "anchors": ["src/reader.rs: DivansDecompressorReader::new (multithread)", "src/writer.rs: DivansDecompressorWriter::new (multithread)", "src/bin/divans.rs: decompress, decompress_generic", "src/ffi/mod.rs: divans_decode", "src/parallel_decompressor.rs: decode", "c/example.c: decompress"]}
{"id": "C88", "title": "Freeing a decompressor with a worker thread", "statement": "With multithreading switched on, giving back a decompressor's memory has exactly one outcome at every moment: it returns, it never returns, or it panics. It returns before the header is complete and once decoding has reported success, on any bytes; so the command line program ends whenever its loop ends without an error. It never returns if the decoding thread has done all it can and has not come to the end of the commands: so a decompressor given just a header can never be freed, and the program, which frees before it reports an error, hangs on such a file instead of reporting that its end is missing.", "quantifier": "every sequence of bytes, every division into calls, every interleaving of the two threads, every moment of the decoding thread; for the last part every good header in any pieces", "why_tests_cant": "Whether the caller gets the lock depends on where another thread is and on which of its waits look at an error flag; a test that hangs shows nothing, and one that does not hang shows one schedule.", "anchors": ["src/parallel_decompressor.rs: free, free_ref", "src/divans_decompressor.rs: free, free_ref", "src/multithreading.rs: broadcast_err_internal, pull_data, pull_context_map, force_push", "src/threading.rs: read_buffer", "src/bin/divans.rs: decompress"]}
{"id": "C89", "title": "The command line program with its worker thread", "statement": "With the worker thread that is the program's default, `divans [settings] in out` followed by `divans -d [settings] out back` ends without an error both times and leaves in `back` exactly what was in `in`, whatever the scheduler does in any of the runs, the freeing of the decompressors included; the same as a filter, and when a compressed file is given to the program without `-d`. With `-serial` the program does exactly what it does without threads. No file but the named output is changed. An exit without an error means that the input begins with a complete, checked file and the output holds its content; a file that is cut off never leads to such an exit. But it may lead to no exit at all: on a file of exactly a good header the program never ends, for every scheduler, while with `-serial` a cut file always leads to an error.", "quantifier": "all lists of settings and names in any order, all contents of files, all ways reads and writes are cut into pieces, all numbers of runs, all schedules and all moments of freeing", "why_tests_cant": "It is about every combination of settings and contents with every interleaving; a program that never ends is not seen by a test that waits for its result.", "anchors": ["src/bin/divans.rs: main, compress_raw, decompress", "src/parallel_decompressor.rs: free"]}
{"id": "C90", "title": "Every context has a model of its own", "statement": "In a table of models, every pair of a listed type and an index within its dimensions has a model, in builds with and without assertions the same; two different pairs never have the same one, and no model is left over. After any history of uses the model of a context holds exactly what was learnt in that context, in order. The raw indices used for reports reach exactly the same models. This holds of every table that can be declared, and so of those of the command coder and of the literals. A type that is not listed is not refused, even with assertions, but shares the models of the last type: so three settings of a prediction mode share one model.", "quantifier": "all tables, with any number of types and dimensions of any sizes; all types and indices; all histories of uses", "why_tests_cant": "The tests look at one small table; that no two of hundreds of thousands of contexts collide, for every table and every history, is beyond them.", "anchors": ["src/priors.rs: define_prior_struct, linearize_index, PriorMultiIndex", "src/codec/priors.rs"]}
{"id": "C91", "title": "Builds that measure code as the others do, and measure what happened", "statement": "A build with the feature findspeed, debug_entropy or billing makes the same stream of the same nibbles as one without, decodes any bytes to the same nibbles, and files go from each to each. The costs findspeed reports for a speed are what the symbols coded would have cost at that speed, and the extra distributions never overflow; the counts of debug_entropy are the numbers of symbols coded; with billing a coder prints one account however often it is moved, with each purpose on it once and each bit and nibble on it once. What is coded with a coder after it was moved away is on no account.", "quantifier": "all sequences of nibbles, all rules for choosing models, speeds and mixtures, all arithmetic of costs; all lives of a coder: requests of any purposes, moves", "why_tests_cant": "That instruments do not disturb what they measure has to hold after every history; a test compares a few.", "anchors": ["src/probability/variant_speed_cdf.rs: VariantSpeedCDF", "src/probability/interface.rs: DebugWrapperCDF16", "src/billing.rs: BillingArithmeticCoder"]}
{"id": "C92", "title": "A C caller's memory functions are used as such functions must be", "statement": "When a C program gives both an allocation and a freeing function, or neither, then over the whole life of a compressor or decompressor memory is given back only to the heap it came from, only while it is taken, at most once, with the size it was taken with where the heap is told one; the caller's pointer is passed to every call; all memory comes from that one heap; and when the codec has given back its blocks and the caller theirs, nothing is left but pieces of 0 bytes, and nothing at all if no block of length 0 was asked for. With one of the functions alone this holds as long as the caller does not use the interface's own malloc and free: those hand the caller's memory to Rust's heap, or the reverse. Blocks of length 0 and blocks that go out of scope are never given back, and a request for 2^61 words asks for 0 bytes.", "quantifier": "all heaps that do not give out what is taken, all sequences of block requests, releases and drops by the codec and of malloc and free by the caller, all choices of functions", "why_tests_cant": "A mismatched or repeated free is undefined behaviour that depends on the order of all allocations before; tests exercise a few orders and often do not notice.", "anchors": ["src/ffi/alloc_util.rs: SubclassableAllocator, MemoryBlock, alloc_stdlib, free_stdlib", "src/ffi/mod.rs: divans_new_compressor_with_custom_alloc, divans_free_compressor, divans_decompressor_malloc_u8, divans_decompressor_free_u8"]}
{"id": "C93", "title": "The C interface is lossless as it comes, with brotli choosing the commands", "statement": "A C program that leaves the choice of commands to brotli, as it does if it sets nothing, and calls divans_encode and then divans_encode_flush any number of times with any buffers and offsets: every call returns; divans_encode takes a part of what is offered, asks for more input, and neither writes a byte nor moves the output offset; divans_encode_flush succeeds or has filled the buffer; nothing outside of the passed part is changed; and if the last flush reports success, what the flushes wrote is a file that restores everything taken, of whatever length. The loops of the example program end with success for every input, and decompressing gives the input back. Brotli's encoder is any that describes in its metablocks what it took. Mixing settings from 15 on are accepted and the first call panics.", "quantifier": "all settings the codec can use, all encoders that keep the contract of C70, all inputs of any length, all sequences of calls with all buffers and offsets", "why_tests_cant": "Tests run a few inputs with a few buffer sizes through the example program; how input and output are cut over calls is unbounded.", "anchors": ["src/ffi/compressor.rs: CompressorState::start, encode, flush", "src/ffi/mod.rs: divans_encode, divans_encode_flush", "src/brotli_ir_gen.rs: BrotliDivansHybridCompressor", "c/example.c: compress, decompress"]}
{"id": "C94", "title": "Without brotli the length of the data decides whether it is kept", "statement": "With the internal choice of commands and a window of L bytes, write the number of bytes compressed in base L. If its last two digits add up to more than L, the file never restores the data, however a caller cuts it into calls, and no call reports it: not through encode and flush, not through the C interface, not with the command line program. If it is at most 3L-2, and no call offers nothing, it is always restored, however it is cut; at most 2L-2, also with calls that offer nothing. A caller who always offers all of the rest, or pieces that are a multiple of L, or pieces that L is a multiple of (up to a limit), gets the data back exactly if the last two digits add up to at most L; so does the C example program, for every input.", "quantifier": "all windows and options the codec can use, all inputs of any length, all ways to cut input and output into calls", "why_tests_cant": "The shortest length that is lost is three windows less one byte; lengths are lost or kept depending on their digits, and on how they are cut; there is no end of them.", "anchors": ["src/raw_to_cmd/mod.rs: RawToCmdState::stream, flush", "src/divans_compressor.rs: DivansCompressor::encode, flush", "c/example.c: compress, decompress", "src/bin/divans.rs: compress_raw"]}
{"id": "C95", "title": "The C example keeps what it collects and prints the right numbers", "statement": "The growing buffer of the C example program, given any pieces of up to 2^63 bytes in all, holds them one behind the other, touches no memory outside of its blocks whatever fresh memory contains, has a block of less than twice the size, gives each block back exactly once and is empty after release. The numbers printed are decimal text without leading zeros that fits the program's text buffer, and the percentage is the size of the file in percent of the length, rounded to four decimals. (Found: the percentage is one percent too little when the rounding carries into the percents, e.g. 99.99996 percent is printed as 99.0000%; with more than 2^63 bytes the program aborts and with 2^64 or more the bytes are dropped without a word.)", "quantifier": "all lists of pieces, all contents of fresh memory, all numbers, all pairs of lengths and sizes", "why_tests_cant": "The block grows at every power of two and the numbers range over 64 bits; the wrong percentages are rare pairs of length and size that need large files.", "anchors": ["c/vec_u8.h: push_vec_u8, release_vec_u8, round_up_to_power_of_two", "c/custom_alloc.h: custom_atoi", "c/example.c: main"]}
{"id": "C96", "title": "The C example program, from its command line to its report", "statement": "For every command line and every file that can be read, the C example program ends in one of the ways its source names: it returns -1 exactly for an empty file; it stops at an assertion exactly when a number behind -a is 15 or more or one behind -s more than 8; otherwise the last -w, the last -m and any -l decide the window, the mixing and whether brotli is asked, and, without -l and with an encoder of brotli that keeps its contract and a mixing below 15, it prints the length of the input and the size of a file that is decompressed to the input; with -l and a mixing below 8 it prints its line exactly for the lengths that C94 keeps and aborts for all others. (Found: -l with some lengths always aborts, e.g. -l -w10 with 3071 bytes; a file that cannot be opened is replaced by the built-in text without a word; -as also sets all adaptation speeds to 0, so that nothing is learnt from literals; -cm without a number forces the literal context mode 0.)", "quantifier": "all command lines, all files, all windows and settings, all contents of the buffers, every encoder of brotli that keeps its contract", "why_tests_cant": "The program is itself the test of the C interface; which of its runs abort depends on the length of the input and on combinations of arguments that are matched by prefix.", "anchors": ["c/example.c: main", "c/arg.h: find_first_arg, set_options"]}
{"id": "C97", "title": "The memory functions of the C example are such functions", "statement": "Whatever a program asks the memory functions of the C example for, writes into what it was given, and frees, in any order: each pointer is a multiple of 32, the memory behind it lies in the block taken for it and is apart from that of every other block in use, nothing else is written, and freeing any block in use passes both assertions and gives back exactly the block that was taken; with another context pointer the assertion fails. The allocator that works in a static buffer also hands out only blocks that are apart. (Found: sizes from 2^64-52 on wrap around and the control area is written past the block; the static buffer loses at least 32 bytes for each request, freed or not, and its end is not checked, so that after at most 8355840 requests blocks lie outside of it.)", "quantifier": "all histories of requests, writes and frees, all addresses and sizes, all earlier contents of the memory", "why_tests_cant": "The offset to the aligned place depends on the address the system happens to return, and the control bytes have to survive every order of writes and frees.", "anchors": ["c/custom_alloc.h: custom_malloc_f, custom_free_f"]}
{"id": "C98", "title": "The example programs compress and decompress are filters that lose nothing silently", "statement": "The example program that compresses its standard input ends without a panic exactly if the input came to its end without an error, every piece of it was taken, and finishing succeeded; then the codec has said that it is done and the standard output has received exactly what it produced. With an encoder of brotli that takes all it is given, an input without errors and an output that works, it does end so, and has written a file of its input. The example program that decompresses, which uses a worker thread, writes the data of every file of a compressor under every schedule and ends without a panic if its output works; if the output fails it panics with a beginning of the data written, and on a file that is cut off it panics as well. One after the other they give back the input. (Found: the first program panics when brotli does not take all of its first read; the second never ends when something follows the file.)", "quantifier": "all inputs in all pieces with interruptions and errors, all outputs with errors, all codecs (first part), all schedulers, all encoders of brotli that keep the contract", "why_tests_cant": "The standard input is cut into pieces by the system, the threads are scheduled by it, and an error can come at any read or write.", "anchors": ["examples/compress.rs: main", "examples/decompress.rs: main"]}
{"id": "C99", "title": "The cost estimator computes the cost of adaptive coding per prior", "statement": "For lines with a prior and a byte in hexadecimal notation, separated by a comma or a space, the example program that estimates costs reads the records as they were written. Apart from rounding, its estimate is the sum, over the priors that occur, of the negative binary logarithm of the probability that an adaptive distribution gives to the upper halves of the bytes of that prior, plus the same for the lower halves with one distribution for each upper half, each with the best of the speeds tried. It is a number, not negative, does not depend on how the lines of different priors are mixed nor on the order of the hash map, and without a speed is not above that of any named speed. (Found: an empty line is taken as the end and the rest is ignored silently; speeds are accepted with which a counter overflows and a probability is below zero.)", "quantifier": "all inputs, all orders of the hash map, all safe speeds", "why_tests_cant": "The order of the hash map is random, and a probability of zero would only show after a long history.", "anchors": ["examples/util_prior_stream_cost.rs: eval_stream, determine_cost, main"]}
{"id": "C100", "title": "Probabilities given from outside always make a distribution that can be coded with", "statement": "When a literal comes with eight bytes of probabilities for each of its bytes, one for each bit, each nibble is coded with a distribution made from four of them and a uniform one. Whatever the bytes are, zeros and 255 included, every nibble has a slot that is not empty, the slots do not overlap, the lookup is exact, and the nibbles of the literal come back for a decoder that has the same probabilities, in whatever pieces the bytes arrive. The counts are those of the weights, each the mean of the product of the bits' probabilities and a sixteenth. (Found: the weight mixed in for the nibble 0 is one in place of a sixteenth, so that it has at least a third of all whatever the bytes say; without bytes the distribution has no slots at all.)", "quantifier": "all bytes of probabilities, all nibbles, all literals, all ways the bytes are split", "why_tests_cant": "There are 2^32 choices of four bytes and any number of them in a row; a slot that is empty for one choice makes the stream undecodable.", "anchors": ["src/probability/external_cdf.rs: ExternalProbCDF16::init, max, div_by_max", "src/codec/literal.rs: ecdf_write_nibble"]}
{"id": "C101", "title": "The optimizer merges a copy into a literal exactly when that is the more probable coding", "statement": "When the compressor considers coding the bytes of a copy as part of the literal before it, it compares two costs. Apart from rounding, the copy is merged exactly when the product of the probabilities of the nibbles of the combined literal is greater than that of the literal and the copy; what was coded before does not matter, the nibbles of commands and of literals count alike in whatever order they come, and afterwards the running cost is as it was. Costs are never negative, and the total is the number of bits of all that was coded. (Found: for single bits, which no command uses, the probabilities are swapped and a cost can be below zero.)", "quantifier": "all histories, all nibbles with all ranges the coder can use", "why_tests_cant": "Costs are sums over arbitrarily long histories; a trial that leaves a trace in them would only shift later decisions slightly.", "anchors": ["src/ir_optimize/statistics_tracking_codec.rs: TallyingArithmeticEncoder, take_billing_snapshot, billing_snapshot_delta, reset_billing_snapshot, total_billing_cost", "src/ir_optimize/mod.rs: should_merge"]}
{"id": "C102", "title": "The entropy coder writes as many bytes as the probabilities of the symbols say", "statement": "However its output is taken, the default entropy coder writes at least the number of bits that the probabilities of the coded symbols amount to (the negative binary logarithm of their product), and at most 130 bits more for each 65536 symbols begun. So its size depends on the probabilities only, up to a bound that is known, and the cost that the optimizer adds up is the size of what is written, up to the same bound.", "quantifier": "all sequences of symbols of any length with all valid probabilities, all ways of taking the output", "why_tests_cant": "Rounding in each of the coder's steps could add up over a chunk for some sequences of probabilities; tests compare the sizes of a few files.", "anchors": ["src/ans.rs: ANSEncoder::put_start_freq, reverse_put_sym, flush_chunk"]}
{"id": "C103", "title": "The framing of the multiplexer costs little, however the outputs are cut", "statement": "At every moment the multiplexer has written at most the bytes stored in it so far on both streams, one more byte for each 4096 of them, three more for each time at least a byte was stored, and three for the end of stream. The sizes of the outputs offered and their number do not matter. Once the end of stream is reported, at least the bytes stored and three more were written, and closing again writes nothing more. The compressor adds 24 bytes to this for the header and the trailer, so what it writes for its two coders is bounded in the same way.", "quantifier": "all histories of pushes, writes through the buffer, serialising and closing, with all data and all sizes of outputs", "why_tests_cant": "A header that is written again when an output was too small for a record shows only for some cuts; tests use few sizes of outputs.", "anchors": ["src/mux.rs: get_code, Mux::serialize_stream_id, Mux::serialize, Mux::flush_internal, Mux::serialize_close"]}
