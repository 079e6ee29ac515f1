# Formal model of dropbox/divans in Lean 4: design

## Layout

* `properties.jsonl` - the English properties, C01 onwards.
* `lean/Verif/X.lean` - the model of one part of the code; every definition cites the Rust file and
  lines it models and says where it simplifies.
* `lean/Verif/XLemmas.lean`, `XRun.lean` and so on - lemmas.
* `lean/Verif/XProps.lean` - a small specification, the property theorems and, beside each, an
  `example` that meets the hypotheses.
* `MANIFEST.json` (written by `tools/manifest.py`) - which theorems establish which property.
* `seeded/LOG.jsonl` (written by `tools/mutate.py`) - wrong programs tried against the theorems. `failed` names the declarations that no
  longer compile; modules above the first failing one are not built. Often that is a lemma below the theorem of the claim, so an entry
  shows that the proof as written does not go through for the edited program. It does not show that the theorem is false of it.

## Trusted base

* The Lean 4.33.0 kernel, and the Lean and Mathlib libraries as installed.
* Axioms: every theorem depends on at most `propext`, `Classical.choice` and `Quot.sound`. No own
  axioms, no `sorry`, no `native_decide`, no `bv_decide`. Finite tables (CRC, division, built-in
  speeds, bytes) are checked in full by `decide +kernel` and lifted by a lemma.
* The reading of the Rust source: the model is written by hand from the text of /repo; nothing was
  compiled or run. Conventions:
  * `&mut` state becomes returned state; slices become lists or functions of a position.
  * Panics (index out of range, failed assertion, overflow that a debug build checks) are explicit
    error values wherever a property depends on them. "Panics" below means: in a debug build for
    overflows, in every build for indices and assertions.
  * Machine integers are `Nat` or `Int` with explicit wrapping or overflow; the CRC uses `BitVec`.
  * Generic parameters (allocator, encoder, reader, writer, oracle for costs) are universally
    quantified parameters of the model.
* Dependencies outside /repo: the brotli crate (dictionary words, transforms, the raw command
  generator, the adler/heuristic code), the allocators and std. Dictionary words after their
  transform are a parameter. Mutex and Condvar are modelled as a monitor with the usual semantics.

## What is modelled

| Code | Model | Properties |
|---|---|---|
| `ans.rs`, the byte queues it uses | `Ans`, `AnsLemmas`, ... | C01-C04 |
| `probability/div_lut.rs`, `numeric.rs` | `DivLut`, `Num` | C08 |
| `probability/interface.rs` (CDF16, Speed), `frequentist_cdf.rs`, `opt_frequentist_cdf.rs` | `Cdf` | C05-C07, C32, C39 |
| `codec/weights.rs`, speed bytes of `codec/interface.rs` and `probability/interface.rs` | `Weights` | C32, C33, C39 |
| adaptive coding (`codec/specializations.rs`, `arithmetic_coder.rs`) | `Adaptive` | C34 |
| `codec/crc32.rs`, `crc32_table.rs` | `Crc`, `CrcTable` | C21, C22 |
| `mux.rs` | `Mux`, `MuxScan`, `MuxSer` | C09-C11 |
| `cmd_to_raw/mod.rs` | `Recode`, `RecodeRun` | C12-C14, C40 |
| `codec/copy.rs`, `dict.rs`, `block_type.rs`, `context_map.rs`, length part of `literal.rs`, command dispatch of `codec/mod.rs`, `codec/priors.rs` | `Codec*` | C15-C20, C35, C41, C42 |
| literal nibbles of `codec/literal.rs`, `codec/interface.rs` (literal bookkeeping), `priors.rs` | `Rx`, `Lit`, `LitTables` | C44, C48 |
| two-stream decoder `codec/decoder.rs`, `codec/mod.rs` | `Pipe` | C43 |
| container: `divans_compressor.rs` (header, flush), `cmd_to_divans`, `codec/io.rs`, `codec/mod.rs` (trailer) | `Frame` | C23, C24 |
| container: `divans_decompressor.rs`, `codec/decoder.rs` (trailer) | `File` | C23, C24, C45 |
| compressor with its buffers: `divans_compressor.rs`, `codec/mod.rs` (encode_or_decode, internal_flush), `codec/io.rs` | `Eng`, `Comp` | C49, C50 |
| one call of `decode`: `divans_decompressor.rs`, `codec/decoder.rs`, `threading.rs` (SerialWorker, ThreadToMainDemuxer) | `Call*`, `RecodeCrash`, `RecodeOwed`, `FrameTidy`, `MuxTidy` | C55, C56, C61, C62, C65, C68 |
| literals in the decompressor, both paths: `codec/literal.rs` (code_nibble_array, encode_or_decode_content_bytes) | `Fast` | C51 |
| composition | `EndToEndProps`, `FileProps`, `DamageProps`, `Once*` | C38, C45, C52, C53, C54 |
| `reader.rs`, `writer.rs` | `Io` | C25, C26 |
| the same with compressor or decompressor inside | `IoCodec`, `IoRun`, `IoDec`, `IoTrail`, `IoWrite`, `IoComp`, `IoAnyProps`, `IoEndProps` | C57-C59, C64, C69 |
| `probability/simd_frequentist_cdf.rs`, `codec/crc32.rs` (vector instructions) | `Simd`, `SimdCrc`, `SimdLemmas` | C60 |
| `ffi/mod.rs`, `ffi/compressor.rs`, loops of `c/example.c` | `Ffi`, `FfiRun`, `FfiBrotli` | C63, C93 |
| `ffi/alloc_util.rs`, memory functions of `ffi/mod.rs` | `CAlloc` | C92 |
| `bin/divans.rs`: `compress_raw`, `compress_raw_inner`, `decompress`, `decompress_generic` | `Cli`, `CliRun` | C66, C67, C69 |
| `brotli_ir_gen.rs`, and its reader and writer | `Hybrid`, `HybridRun`, `HybridIo`; `machine` in `HybridCliProps` | C70, C71, C72 |
| `bin/divans.rs`: `compress_ir`, `compress_inner`, `recode`, `recode_inner`; `cmd_to_raw/mod.rs` (trait flush) | `Ir`, `IrRun`, `IrText` | C73, C74, C75 |
| `probability/blend_cdf.rs` (feature `blend`) | `Blend` | C76, C77 |
| `bin/divans.rs`: the arguments of `main`; `Speed::from_str` | `Args` | C78 |
| `bin/divans.rs`: the rest of `main` | `Main`; with the worker thread `MainPar` | C79, C83; C89 |
| `probability/interface.rs` (CDF2), `arithmetic_coder.rs` (provided methods), `debug_encoder.rs` | `Bits` | C80, C81, C82 |
| `priors.rs` | `Prior` | C90 |
| `probability/variant_speed_cdf.rs`, `probability/interface.rs` (DebugWrapperCDF16), `billing.rs` | `Meter` | C91 |
| `raw_to_cmd/mod.rs` | `RawCmd`, `RawLen` | C27, C94 |
| `c/vec_u8.h`, `custom_atoi`, the report of `c/example.c` | `CVec` | C95 |
| `main` of `c/example.c`, `c/arg.h` | `ExMain` | C96 |
| `custom_malloc_f`, `custom_free_f` of `c/custom_alloc.h` | `CMem` | C97 |
| `examples/compress.rs`, `examples/decompress.rs` | `Filters` | C98 |
| `examples/util_prior_stream_cost.rs` | `Estimate` | C99 |
| `probability/external_cdf.rs`, `ecdf_write_nibble` | `External` | C100 |
| `ir_optimize/statistics_tracking_codec.rs` (the counting coder) | `Tally` | C101 |
| `ans.rs`, the size of its output | `Ans`, `AnsSizeProps` | C102 |
| `mux.rs`, the container, the size of the output | `Mux`, `Frame`, `MuxSizeProps`, `FrameSizeProps` | C103 |
| `threading.rs` (serial worker) | `Hand` | C28 |
| `multithreading.rs`, `parallel_decompressor.rs` | `Threads`; with all that is passed between the threads `Par`, `ParStep`, `ParMain`, `ParRun`, `ParSim`, `ParEnd`, `ParIo`, `ParServe`, `ParFree` | C28, C46; C84, C85, C86, C87, C88 |
| `alloc_util.rs` | `Alloc` | C29 |
| `resizable_buffer.rs` | `Grow` | C30 |
| `slice_util.rs`, register queue of `arithmetic_coder.rs` | `Reg`, `Ans` | C31 |
| `ir_optimize/mod.rs`, `cache.rs` | `Opt` | C36, C47 |
| `bin/divans.rs` (text commands), `bin/util.rs` | `Text` | C37 |

## What is not modelled

* The optimizer's cost estimates: an arbitrary oracle in `Opt`; how they are computed from the ranges of nibbles is C101, with real
  numbers.
* The rounding of `f64` in `probability/external_cdf.rs` (C100), and where the literal coder chooses that way of coding.
* `bin/benchmark.rs`; the rounding of `f64` (C99); `io::copy` of the standard library (by its documentation, C98); of `bin/divans.rs` the texts it prints.
* `ffi/`: what happens when a caller's allocator fails (its result is not looked at).
* The encoder of the brotli crate, which is not in this repository (any machine that keeps a contract, `Meets` in `HybridRun`, C70 and C93).
* Costs: time and memory size. Nothing is claimed about them, and about the size of output only C102 and C103.
* Text built with external probabilities; `findprediction` and research features.

## Simplifications that matter

* Dictionary words after their transform are a parameter: the model says that the right word is
  asked for, not what it is.
* Failure of the header parser is the end of a run; in the code it is not sticky.
* The prediction mode speeds of commands are in the safe range (C39 says what happens outside).
* A kept (freeze-dried) prediction mode command would be thawed with maps read from the ring buffer; the
  model treats it as a panic. Proved unreachable with the ANS coder (C50): it is the first command and has
  fewer nibbles than a chunk, so the coder gives no output during it.
* The flag `high_entropy` of merged literals (optimiser) is not modelled.

## Findings: where the code violates a property

Each is proved as a theorem with a concrete witness unless marked "(read)"; the property then has a
`_partial` theorem or an exact characterisation.

* C08: 8-bit reciprocal division, divisor 1, numerators from 32768 on: negative result.
* C33, C39: speeds accepted by the option parser and by the stream overflow the counters; the byte
  format for speeds breaks from 12288 on; some stream bytes decode to negative speeds.
* C32: mixing arbitrary strictly increasing distributions can give frequency 0 (not reachable ones).
* C10: a malformed stream `ff ff` is neither accepted nor reported. C11: `prealloc` followed by
  serialising panics (unused entry point).
* C14: distance 0 panics; distance equal to the ring size never ends; just above it panics or reads
  elsewhere; reads before the start of the output give zeros.
* C40, C48: the last eight literals are reversed at the first eight ring positions (both sides alike).
* C15, C41: a malformed stream can decode to distance 0, to a copy length over 32 bits or overflow
  next to 2^31. C18: a dictionary index beyond the dictionary is accepted.
* C41, C42: a literal announced with 2^32 bytes makes the next model lookup fail.
* C25: the reader returns end of file too early when the codec leaves input; a read with an empty
  buffer may never return; after an error of the source the codec is closed and its output lost.
* C26: the decompressing writer never closes its codec, so truncation is not reported; input after
  the end is ignored; a second flush after more writes does not finalise.
* C57: `DivansDecompressorReader` around a source that goes on behind the file: after the data `read` never
  returns. C59: `DivansDecompressorWriter` takes every beginning of a file for a whole one.
  C58: `DivansExperimentalCompressorWriter` reports success for files that give back more than was written (lengths of C94).
  (read) C58: with more than a window of input the compressing reader may return 0 in the middle, if a kept
  command happens to be finished without output while the last input is taken (C25).
* C27: raw input of three ring sizes less one byte in one piece is sent with a byte too many.
* C49: `encode_commands` with an empty list panics; `flush` with a command half taken reports a failure.
  C50 inherits C27: with more raw input bytes can come back twice. C94: for some lengths they always do, whoever calls and
  however the input is cut, and nothing is reported; with a window of 1024 that is about half of the lengths around 500000.
* C51: after a chunk boundary the second state of the entropy decoder may still be marked as waiting for
  input; with input the compressor does not produce, the fast path for literals then decodes from a state
  that was not refilled (debug builds stop at an assertion), so the result depends on how many bytes were ready.
* C54: whether a copy from a little more than a window back succeeds depends on the caller's output buffers: a
  file of 73 bytes with a correct checksum is decompressed with small buffers and panics with large ones; shown
  for arbitrary schedules and for the calls of `decode` themselves (`success_depends_on_rooms`).
* C62: a file of 46 bytes with a correct checksum, whose only command is a copy from a distance of exactly the
  window, makes `decode` run forever (`endless_loop_on_a_file`). A header followed by `ff ff` makes every call ask
  for more input and take none, so damage is not reported (`broken_end_marker_asks_forever`).
* C60: with a speed beyond the safe range that the option parser accepts, the default build and the vector
  builds write different bytes.
* C63: mixing values from 8 on are accepted by `divans_set_option` and the compressor then panics, whatever the input
  (`mixing_accepted_then_panics`); the speed that is set first also sets the other three, so `speed high 3, speed low 5`
  and `speed low 5, speed high 3` differ (`speeds_order_matters`).
  (read) a prior depth from 16 on is accepted and gives a stream that does not decode, or panics; `ffi.h` declares
  `divans_new_decompressor_with_custom_alloc` with two arguments while the function has three, so that whether threads
  are used is undefined; in `c/arg.h` the test `argv[i] + 3 != '\0'` compares a pointer, so `-cm` without a value
  always sets the context mode; slices are made of the pointers before the null checks.
* C64: 18 bytes, a header followed by `ff 03`, are an empty file without error to a caller of `read_to_end` around the
  decompressing reader (`end_of_file_without_file`): the demultiplexer stops behind `ff`, takes `03` in the next call,
  and with nothing left and the source at its end `read` returns 0 without closing the decompressor.
* C65: a file of 65 bytes, with a copy from beyond the window, makes `decode` panic (`crash_on_a_file`). In builds with
  debug assertions so does a prediction mode with a speed byte such as 0x74.
* C66: a header followed by `ff ff` and as many bytes as the input buffer holds make the command line program run forever
  (`decompress_tool_hangs`): the buffer is full, the decompressor asks for more and takes nothing.
  (read) a sink that keeps taking 0 bytes makes every loop over `write` run forever.
* C67: a read that is interrupted after the first one makes the command line program compress the bytes of the last read
  a second time, without an error (`interrupted_read_doubles`): the index is set to 0 before the read, and the number of
  bytes in the buffer is kept. Compressing data that happens to begin with the magic number decompresses it, or fails.
* C70: when the optimiser gives up on a metablock, `encode` does not report it (`optimiser_error_unreported`): the error is
  looked at only when the stream is being ended or brotli stopped. The codec has lost its thread context by then, so
  the next metablock or the end of the stream panics (`optimiser_error_then_panic`). If it gives up on the last metablock,
  `flush` fails, and called again reports success (`optimiser_error_then_success`); the file has no end.
* C71: `encode` asks for more input also when it has left some. `GenWriter` takes that for an error: a write that makes
  brotli fill its 66000 bytes before all is taken fails with `TrailingInput` (`hybrid_writer_rejects`). `GenReader` takes
  it for the end if the source has just ended: the compressed file is empty, without an error (`hybrid_reader_empty`).
* C72: the same with brotli inside, the default (`hybrid_tool_doubles`).
* C74: `-recode` panics on every wrong line, a blank line for instance, where `-i` reports an error (`wrong_line_partial`).
* C75: `flush` of the recoder as a `Compressor` does nothing and reports success; bytes that did not fit into the output of
  `encode_commands` are lost (`trait_flush_loses`).
* C76: the features `blend` and `avoid-divide` together garble the data: the receiver finds a slot for symbol 15 that is one
  too large (`avoid_divide_disagrees`, `avoid_divide_garbles`).
* C77: with `blend`, a mixture of two distributions can leave a symbol without a slot, and the coder divides by zero
  (`average_loses_symbol`). The weight is applied to the other distribution than in the default build
  (`average_weight_reversed`). Also, the speed has no effect in this build (`St.blend` has no such argument).
* C78: unknown options are taken for file names (`-recode` for instance; the option is `--recode`); `--recode` without `-d`
  compresses; `-nobrotli` after `-i` or `-d` compresses the input as it is; `-lgwin` does not set the window; `-mixing` and
  `-priordepth` are cut to 8 bits (`surprises`); what a speed sets depends on the speeds before it (`speeds_in_order`).
* C79: if input and output are the same file it is emptied before it is read: compressing leaves the compressed form of
  nothing, without an error (`same_name_loses`), decompressing an empty file (`same_name_destroys`). `-benchmark=0` empties the
  output and exits without an error (`no_runs_empty`).
* C80: the adaptive bit's own table for decoders has no place for false after 255 times true, and the range of true then wraps
  to a negative number; the range it gives an encoder (inherited, shifted by one) never equals the one it gives a decoder.
  Nothing in the crate codes through these tables; the entropy coder's `put_bit` takes 1 for 0 and is not affected.
* C81: where the upper half of the symbols has no share, the probability of the high bit wraps from 256 to 0.
* C82: the decoder for debugging waits for eight bytes before every nibble, so it never reads the last one.
* C86: with a worker thread, a file whose streams end before its commands do (19 bytes are enough) makes `decode` wait for ever:
  the worker waits for bytes, the main thread for the worker, and neither looks at the end marker again. Without threads the call
  asks for more input. And when the worker panics on a malformed stream (C41), only the worker's thread ends; nothing is broadcast, so
  `decode` waits for ever instead of panicking.
* C88: with a worker thread, freeing a decompressor that was given exactly a header, or any file cut within its commands once
  the worker waits for bytes, never returns: the worker holds the lock and waits without looking at the error. The program frees
  before it reports an error, so with multithreading it hangs on such a file instead of saying that the end is missing
  (`free_hangs`, `tool_header_hangs`). C87 is about its loop, which does end.
* C89: so the program with its default settings and `-d` never ends on a file of exactly a good header (`header_hangs_threads`); with
  `-serial` it reports the error.
* C90: a type of models that is not in its table is not refused, even with assertions: it shares the models of the last type
  (`unlisted_shares`). Two of the settings of a prediction mode command are such (`settings_share`). Without assertions an index
  that does not fit may give the model of another context (`unchecked_shares`; no such index is ever used, C41, C44).
* C91: what is coded with a billing coder after it was moved away is on no account (`moved_not_billed`; the codec does not do so).
* C92: with `alloc_func` and no `free_func`, `divans_…_free_…` gives the caller's memory to Rust's heap (`alloc_alone_improper`), and
  with `free_func` alone the reverse (`free_alone_improper`); blocks of length 0 are asked for and never given back
  (`empty_block_left`); `divans_…_malloc_usize` does not check the size for overflow (`malloc_wraps`).
* C95: the C example prints a percentage one percent too small when the rounding of its decimals carries (`report_wrong`); its buffer
  drops bytes without a word when its size would pass `2 ^ 64` (`push_too_much`).
* C96: the C example program aborts with `-l` for the lengths C94 loses (`example_aborts`); reports on its built-in text when the file
  cannot be opened (`misspelt`); takes `-as` for `-a` with 0, which stops all learning from literals (`adaptive_stride`); and with `-cm`
  alone forces the context mode 0, because a pointer is compared with 0 instead of the byte (`context_map`).
* C97: the static buffer of the C example (`NO_MALLOC`) loses at least 32 bytes for every request and its end is not checked
  (`bump_runs_out`); a size near `2 ^ 64` wraps (`amount_spec`).
* C98: the example `compress` panics when brotli leaves some of the first read (`compress_panics`); the example `decompress` never ends
  when something follows the file (`decompress_hangs`).
* C99: the cost estimator takes an empty line as the end of its input (`empty_line_ends`) and accepts speeds with which probabilities fall
  below zero (`accepted_speed_no_number`).
* C100: with probabilities from outside the nibble 0 has at least a third of all whatever they say (`zero_is_likely`,
  `not_the_average`), and without bytes no nibble has a slot (`empty_has_no_slots`).
* C101: the coder that only counts bits swaps the probabilities of single bits (`bit_swapped`, `bit_below_zero`); no command uses them.
* C28: with several errors the last one is reported. C46: freeing a partly decoded multithreaded
  decompressor can hang; a file whose command stream ends early deadlocks the two threads.
* C29: requests of 2^32 elements get a cut length. C30: requests beyond 33000 elements are ignored.
* C31: popping eight bytes at once panics or leaves stale bits.
* C36: pieces of input with an offset would break the optimiser (not produced by the brotli crate).
  C47: copy distances 1 and 2 underflow in the preset cache in debug builds.
* C37: the line `ltype N` crashes the parser; block types, dictionary sizes and transforms are cut
  to 8 bits silently; text with external probabilities can never be parsed.
* (read) `PredictionModePriors` lacks two entries, which fall through to another one on both sides;
  the mixing nibble is packed and unpacked with different shifts, with no effect on values in use;
  `last_llen` is not updated for literals of 15 and 16 bytes on both sides; an empty literal is coded
  as nibble 17, literals from 15 + 2^30 bytes and distances from 2^30 likewise: all excluded by the
  hypotheses on valid commands.

## Per property: what is modelled and how it is proved

### C01 Entropy coder round trip

`Verif/Ans*.lean`: encoder state pair, `reversePutSym`, byte stack, `flushChunk`, chunking at 65536; decoder `advance`, refill. Proof: step inverse (div/mod), induction over the chunk newest-to-oldest, induction over chunks.

### C02 Entropy decoder does not depend on how its input is split

Decoder `pushData` modelled with its byte-count cases; proof: abstract decoder reads from a byte list on demand; refinement from any chunking.

### C03 Entropy coder never overruns its buffers or its 64-bit state

Invariant 2^31 <= state < 2^63 by induction; byte count by a potential argument on the product of states.

### C04 Binary decisions round trip through the entropy coder

put_bit/get_bit modelled as slots of C01; corollary.

### C05 Every distribution yields disjoint slots and an exact symbol lookup

`Verif/Cdf*.lean`: 16-entry list of Nat; slot/lookup functions; proof with floor inequalities.

### C06 Adaptive distribution stays usable for every history

blend on UInt16 semantics (Nat mod 2^16); invariant by induction over histories; counterexample for out-of-range speeds.

### C07 The table-accelerated distribution equals the plain one

Opt CDF carries cached reciprocal; invariant `inv = compute_divisor max`, uses C08.

### C08 Reciprocal division is exact

Granlund-Montgomery argument over Nat/Int, unbounded in numerator below 2^31, all divisors.

### C09 Multiplexed streams come back unchanged

`Verif/Mux*.lean`: model of serialize/close and of the byte parser; round trip by induction on emitted records.

### C10 Demultiplexing does not depend on how the input is split

Parser as a per-byte automaton; the chunked implementation refines it.

### C11 Multiplexer cursors stay inside their buffers

Cursor invariant by induction over operations.

### C12 Command execution reproduces LZ77 semantics

`Verif/Recoder*.lean`: ring buffer as function of absolute positions; refinement to list-append semantics.

### C13 Decoder output does not depend on the caller's output buffer sizes

Resumption lemma: each call advances the same abstract program; total output equal.

### C14 Copy commands always terminate or fail cleanly

Model of the copy loops with explicit stuck/panic outcomes; expected to be false for distance = ring size: negation + partial.

### C15 Short distance codes round trip and the distance cache stays in step

Exact model of the mnemonic search and the cache update; case analysis.

### C16 Copy command serialisation round trip

Nibble-level encoder and decoder for copy; round trip by bit lemmas.

### C17 Literal length serialisation round trip

same for literal lengths.

### C18 Dictionary command serialisation round trip

same for dictionary references.

### C19 Block switch serialisation round trip

same for block switches with their small history.

### C20 Context map serialisation round trip

same for context maps with move-to-front list.

### C21 Checksum equals CRC-32C and is incremental

Bitwise CRC spec over BitVec 32; tables kernel-checked entrywise; slicing-by-16 by xor-linearity.

### C22 Checksum detects local corruption

From C21 by injectivity of the CRC step on each argument.

### C23 Checksum trailer is written and verified exactly once

Trailer writer/verifier as resumable functions; induction over call sequences.

### C24 Header is written and parsed independently of buffering

Header writer/parser as resumable functions.

### C25 Reader adaptor delivers the whole stream

GenReader modelled over an abstract processor and source; invariant over calls; the end-of-file clause is suspected false: negation + partial.

### C26 Writer adaptor passes everything through

GenWriter likewise; decompressor writer never finalises: negation + partial.

### C27 Raw input is turned into commands without loss

RawToCmd ring model; suspected false for small pieces after wrap: negation + partial.

### C28 Worker hand-off keeps data and commands in order

SerialWorker as a monitor: each method is atomic; FIFO refinement over arbitrary interleavings. Condition variable wake-ups are runtime behaviour (partial).

### C29 Allocation reuse never loses or double-frees memory

Multiset accounting of blocks over operation sequences.

### C30 Growable byte buffer honours requested space

Buffer model; suspected false for large requests: negation + partial.

### C31 Byte register queue is a FIFO

Register model on 64-bit words; popping all eight bytes is a full-width shift: recorded as panic in the model.

### C32 Mixing two models keeps probabilities usable

average and weight update on i16/i32 semantics.

### C33 Adaptation speeds survive the stream format

speed codec arithmetic, kernel-checked finite table lifted where finite.

### C34 Adaptive symbol coding round trip

Generic adaptive coder on top of C01+C05.

### C35 Whole command stream round trip

Command-level encoder/decoder over nibbles composed from C16-C20.

### C36 Optimising the command stream does not change the bytes it stands for

ir_optimize merge loop with an arbitrary oracle for costs; denotation preserved.

### C37 Textual commands parse back

Hex and quoted literal parsers as automata, exact for both forms; whole lines: round trip against a printer, form of every accepted line, exact condition for a crash.

### C38 End to end: stream of symbols through coder and multiplexer

Composition of C01, C02, C09, C10.

### C39 Every adaptation speed that options or a stream can name is safe

False; the negation with witnesses, and the safe range from C06.

### C40 Literal context is the last eight output bytes

Ring positions from C12; false at the start of the ring, with witness.

### C41 Malformed command streams never crash the decoder

Decoder over arbitrary nibbles with an invariant of all reachable states; exact condition for a panic.

### C42 Everything accepted from a stream is within the ranges of the format

Same invariant.

### C43 Decompression gives the original data under every schedule

Transition system of worker and main side; invariant tying both to the encoder's run; `any_schedule`.

### C44 Every model lookup for a literal nibble is in bounds

Invariant on the literal bookkeeping; table sizes.

### C45 Every file the compressor writes is decompressed to the original data

Composition of C43 with the container (C09, C10, C23, C24).

### C46 The two decompressor threads never lose a wake-up or wait for each other forever

Monitor with condition variables as a transition system; invariants; reachable deadlock as witness.

### C47 Optimising the command stream never crashes

Model of C36 with checked arithmetic; witness.

### C48 Literals are predicted in the context the brotli format defines

Independent definition of the RFC contexts by character classes; the tables are checked against it in
full; the eight packed bytes are followed through every list of commands.

### C49 Compressing commands works with output buffers of any sizes

`Verif/Eng*.lean`: each command becomes a script of small steps (put a nibble, drain a coder), interrupted
when the output is full; invariant: the container history, the symbols coded so far and the steps left make
up the trace of the commands begun. Composition with C45. Progress: a lexicographic measure.

### C50 Compressing raw bytes works with input and output buffers of any sizes

`Verif/Comp*.lean`: the assembler of C27 in front of it; kept commands lie in the ring until they are sent.

### C51 The fast path for literals is invisible

`Verif/Fast*.lean`: the two paths of `code_nibble_array` and the choice between them, in the decompressor of
C38. Every half byte is read with a filled entropy decoder: the fast path goes on only with 16 bytes ready, a
byte takes at most 4 + 16 of them, and a stream of the compressor leaves no state waiting at a chunk boundary.
The careful path is right for any input; the fast path is not (`fast_path_starves`).

### C52 Truncated files are never accepted, and bytes behind a file are left alone

From `success_means_checked` (C23, arbitrary bytes): header and trailer have fixed lengths, and the reader
automaton of the container takes nothing behind the end marker, so the streams of one accepted file are not a
beginning of another's.

### C53 A file damaged in one place is never accepted in full

The checksum behind its message brings the shift register to a fixed state, so two accepted files of the same
length end in the same state; the register is linear and each bit step is injective below 2^32, so a difference
within 32 bits cannot vanish.

### C54 The result of decompression is determined by the bytes

`Verif/Once*.lean`: a successful run on arbitrary bytes is read backwards, from its end to its start, to find the
nibbles, commands and output for which the invariant of C38 (`ROk`, here without the part that only holds for the
compressor's streams) holds at the start; the theorems of C38 and C45 then apply to every other schedule. A run of
the whole decompressor is first turned into a run of its two decoders. Restricted to runs that carry out only
commands the ring can carry out (positive distances below the window); beyond that it is false
(`success_depends_on_buffers`). Panics of a distribution broken by unsafe speeds (C39) are not part of this model;
they would happen at the same nibble under every schedule. The fast path for literals is not part of it either:
with it the claim is false of arbitrary input (C51).

### C55 Every call of the decompressor returns, and for a reason the caller can act on

`Verif/Call*.lean`: a call as a machine of small steps (input, worker, output), with the bounded queues of
`SerialWorker`. Invariant: the state of C38 for the decoders; the bytes in the queues, the worker's buffer and the
demultiplexer are the rest of the command stream; buffers lent are those in the queues. A lexicographic measure
shows that every call returns. That `decode` never asks for input in vain at the end of the file needs the shape of
the container the compressor writes: no stream is left without bytes in the middle of a block (`Tidy`,
`FrameTidy`). Not in this model: the fast path for literals (C51), the worker in a thread of its own (C28, C46, C84).
`DivansDecoderCodec::eof` is never set and is left out.

### C56 Compressing and decompressing through the calls gives the input back

Composition of C49, C50 and C55 (`RoundTripProps`).

### C57 Reading from a decompressor around a source gives the data, and only the data

`IoRun` proves that a reader around a codec delivers its output and comes to an end, from a contract on the calls
of the codec (it takes all it is offered unless output space is missing, it makes progress, it finishes when told
that the input is over). `IoDec` derives the contract from C55 (`Call.Serves`). `IoTrail` follows the reader around
a source that goes on behind the file: the decompressor reports success and takes nothing, the reader takes this
for a call without result and calls again.

### C58 The compressor as a reader or a writer makes a file of what goes in

`IoComp`: the compressor keeps the contract of `IoRun` as long as the input fits the window: until then no command is
made, so nothing is ever kept, and input is left over only while the header is written. Beyond the window the premature
end of file of C25 is in the way. It keeps the contract of `IoWrite` (the same for writers)
for any input: a call without input makes commands at most once after the ring was sent off (`pend`), so `write` comes to
an end, and `compressor_writer_any` says what the file gives back. Beyond two windows less two bytes C27 is in the way, and
for the lengths of C94 `compressor_writer_wrong` shows a file that is longer than the data, with success reported.

### C59 Writing a file to a decompressor around a sink delivers the data, or an error

`IoWrite`, again from C55. The flush of the decompressing writer does not look at the codec, so a truncated file is
accepted. Bytes behind the file are not covered by the theorem (C26: they are ignored).

### C60 Builds with and without vector instructions or division tables are interchangeable

`Simd` models the vector code lane by lane (`V n w := Fin n → BitVec w`; shuffles, biased compares, move mask,
widening and narrowing), the double division as rounding of the exact quotient to 53 bits, and the CRC32
instruction after its definition in the Intel manual (polynomial division of bit strings). `SimdLemmas` shows that
each operation, on the counts that reachable distributions have, is the operation of the plain code;
`SimdProps` lifts this to whole sessions with an arbitrary rule for the choice of models (C34) and so to
round trips between any two builds. The other parts of the code touch the distributions only through these
operations.

### C61 A success reported by a call means a checked file, on any input

The call-level model (`Call`) and the model of C23, C52 and C53 (`File`) were written separately. `CallFile` and
`CallFileRun` show that on every input, valid or not, each call of the former is a schedule of the latter (`Sim`,
`Pair`, `calls_sim`): buffers that the call-level model hands over early or keeps back are taken out of the demuxer or
offered at the moments when the other model does it, and a failed call needs no counterpart. `CallAnyProps` then
carries C23, C52 and C53 over to sequences of calls.

### C62 No input makes a call of the decompressor run forever

`RecodeAny` looks at the recoder with any command in any state: its loop ends unless the command is a copy from exactly
the ring size or a dictionary word as long as the ring (`encodeCmd_ends`), and what it returns keeps the indices in
the ring. `CallEnd` has the invariant of the call-level model for any bytes (`Live`) and a measure: first the nibbles
the bytes at hand could still give the worker (65537 per byte, because a chunk has 65536 nibbles and takes at least a
byte), then the work there is for what has been decoded. `CallEndRun` shows that each round of the three parts makes
it smaller or returns, `CallEndProps` adds the header, further calls and the state after a success. The one loop that
is not excluded is the recoder's; the model counts it as a panic, `endless_loop_needs_window_copy` says when it can
happen during a call, and `endless_loop_on_a_file` gives a file.

### C63 The C interface

`Ffi` models `divans_set_option`, `divans_encode`, `divans_encode_flush` and `divans_decode` with the pointers as
options, the buffers as lists and the offsets as numbers, and the loops of `c/example.c`. Behind it are the models of
C49/C50 and C55; the brotli-driven compressor, which is the default, is an arbitrary machine `Other`.
`set_accepted`/`set_refused` give each of the 20 settings in closed form, from which acceptance and order follow; late
settings by induction over the history with the invariant that the options are fixed. `FfiRun` shows that accepted
settings give valid codec options (speeds from the palette are safe) and lifts C50 to calls with offsets into buffers
(`encode_calls_ok`, `flush_calls_ok`). The example's loops end because a call that asks for room fills the buffer; the
decoding loop uses `Serves` of C55. Partial: input of at most two windows less two bytes (C27, C94), internal choice of commands, mixing below
8, prior depth below 16.

### C64 What an end of file from the decompressing reader means

`CallLeft`: the demultiplexer takes all of its input except where it stands in an end marker that does not go on, so a
call of `decode` leaves bytes only there or behind the trailer, where nothing is taken any more (`decode_left`). The
reader returns 0 when the decompressor reported success at the end of the source, or when everything was taken and the
source had ended before. `Sound` is the invariant of its loop that excludes the second way: at the end of the source, what
is there was left by an earlier call. With C61 the success means a checked file. Partial: not for bytes with a broken end
marker (`Broken`), for which it is false (`end_of_file_without_file`).

### C65 What can crash the decompressor

`Fit` is the invariant of the states reached by any bytes: the decoder of commands satisfies `CoreInv` (C35), everything
on its way to the main side is within the bounds of a decoded command, the tables of the literal decoder have their
sizes, the recoder is at the beginning of a command exactly when the main side is, and a dictionary word being inserted
comes from the dictionary. `work_fit` and `output_fit` show that it is kept and that a panic has one of the causes of
`BadCopy` or `Blocked`; `RecodeCrash` has the recoder's part (a copy with a distance between 1 and the window minus 1
neither panics nor runs forever, wherever the ring stands and however full it is). Then induction over the loop and the
calls. A loop of the recoder that does not end counts as a panic (C62). Partial, as it is false: see the list above. Panics
of allocation are not modelled; speeds that are accepted but too large for the distributions make them wrap, as in release
builds.

### C66, C67 The command line program

`Cli` models the loops of `src/bin/divans.rs`: the source is a list of events as in C25, the sink a list of what its next
writes do. `unpackLoop_ok` is an induction over twice the bytes to come, plus the bytes in the input buffer, plus twice the
data to come, plus the bytes in the output buffer, which gets smaller in each round; the decompressor is in a state
`Reached` by calls (C55). `unpackLoop_any` keeps `Past` (C64), so that success means what C61 says. `unpackLoop_stuck` uses
the stuck decompressor of C62: the input buffer fills up and no more is read. The compressing loop is an induction over
the source, the buffer and the progress of the compressor (C50); `heard` says what the compressor is given: an
interrupted read gives it the bytes of the last read again. Partial: up to three windows less two bytes of input (C27, C94) and without
interruptions. The loops take any `Machine` with `encode` and `flush`, and the induction any that `Keeps` a contract; here it
is the compressor with `-nobrotli`, for the other see C72. Not modelled: the threads, the parsing of the arguments, files
and pipes themselves.

### C68 How much comes out

`RecodeOwed` and `CallOwed`: what is still to come out of a state without further input (`St.owed`: bytes waiting in the
recoder, the rest of the command it works on, commands in the hands of the main side and on the way to it), plus `K` times
the nibbles that can still be decoded (`nibbles`, C62), does not grow in any step, and what is given out is taken from it. A
command comes from at least one nibble and is at most `K` bytes long, where `K` is the greatest length of a copy
(`2^32 + 15`) or of a dictionary word. Then induction over the loop and the calls.

### C69 Everything comes to an end

The bound of C68, twice, plus twice the bytes of the source, plus the bytes in the output buffer gets smaller in each
round of the program, except in a round in which the decompressor asks for input and leaves some in a full buffer. By C64 that
happens only with a broken end marker or behind a trailer.

The writer calls `decode` again only when it asked for room, and then it has given out a buffer full: by the bound of C68 that
stops. The reader is put under the contract of C57 (`IoRun`), whose promises hold only as long as no call fails; without a broken
marker and without a file that ends early every call takes all it is offered (C64), so the bytes of the source run out.

### C70, C71 The compressor with brotli inside

`Hybrid` models `brotli_ir_gen.rs` around an arbitrary machine `Brotli` for `BrotliEncoderCompressStream` with its callback:
a call takes some input, writes some bytes (which are thrown away), hands over metablocks, and the optimiser gives commands
or an error for each. Engine (C49) and growing buffers (C30) are those of the other compressor. The contract `Meets`: the
machine takes a beginning of its input, leaves some only when its output is full, commands are valid and, when it has
finished, reproduce the input; a measure gets smaller in calls that take nothing. `code_spec`, `blocks_spec`, `shut_spec`:
the loops that code commands into a growing buffer come to an end, by the progress of the engine (C50). Then induction over
the calls. `toy` is a machine that keeps the contract, with and without leaving input. For C71 `HybridIo` puts the
compressor under the contracts of C57 and C58. The failures are computed from the model for arbitrary machines.

### C72 The command line program by default

`machine_keeps`: the compressor with brotli inside is a machine that the loops of `Cli` can use: `encode` takes something or
gets closer to it (`m`), and `flush` with `NeedsMoreOutput` has given something out. The loops of C67 then need no new proof.
The limit of C67 is one of the internal choice of commands; brotli's commands stay within the window by its
contract, so here is none. Partial: without interruptions, and for encoders that keep the contract.

### C73, C74 The programs for textual commands

`Ir` models `read_line` on a source that gives its bytes in pieces (`reads`), `trim`, and the loops that collect sixteen
commands, give them to a `Scribe` (compressor or recoder), write what comes out and flush. `Tells` is the contract of a
`Scribe`; `recoder_tells` and `compressor_tells` show it for the two, by C12 and C49; `tell_ok` is the induction over the
lines. `reads_whole`: the lines do not depend on the pieces. `IrText`: for every command that can be expressed a line,
`printed`, which is parsed back to it (C37), so that the theorem about both programs is stated for commands and not in
terms of the parser. C74 is the same induction for any `Scribe`. Partial: valid commands only.

### C75 Flushing a recoder through the interface

`traitFlush` is the method of the trait. When `encode_commands` asks for room after the last command, bytes are pending
(`encodeCommands_left`), and the trait has no way to get them.

### C76 The distribution of the feature blend

`Blend` models `BlendCDF16`. The last entry of the distribution does not depend on which symbols were seen, only on how many
(`path`); it never exceeds 32735 (`path_bounds`: the first 700 steps, until the rate has decayed to 127 for good, are computed
by the kernel, the rest is an induction). So 32 or more are left for the uniform part, every step of the cumulative counts is
at least 2, and after the correction by one every slot is at least 1 (`Ok.steps`, `slots_of_steps`). The round trip follows
from that of the coder (C01). With `avoid-divide` the receiver divides by 32767 where the sender shifts by 15.

### C77 Mixing two distributions of the feature blend

The mixture may be scaled up by a half, and the bound for that leaves only 16 and not 32 for the uniform part. Partial: the
ten numbers for which this happens are excluded; the witness has one of them.

### C78 The arguments of the command line program

`Args` models the loop over the arguments: the tests in their order (`rules`), the value found by trimming the characters of the
name one after the other off both ends (`strip`), and what each option does. The specification is `Setting` in `ArgsProps`: how
a setting is written (`text`) and what it should do (`effect`). `strip_value`: trimming stops at a value whose first and last
character are not in the name, which digits and the names of speeds satisfy. Then by induction over the arguments. Partial: the
negations listed above.

### C79 The command line program and files

`Main` puts `Args`, `Cli`, `Ir` and the compressors together: a `Host` has files, standard input, and an arbitrary way contents
arrive and are taken; `runs` is the benchmark loop, which winds files back without cutting them. `Engine.Faithful` is what
C67 and C72 give for the two compressors; `internal_faithful` derives it from settings alone (`gentle_arrives`: speeds below the
bounds survive the eight bits of the format, by C33). The output after several runs is a file with possibly the end of a longer
one behind it, which the decompressor does not read (C66). Partial: as in C67 and C72; the two negations above.

### C80, C81, C82 Bits

`Bits` models `CDF2` with its counts, the two provided methods that code a nibble as four bits (the writer as the list of its
calls of `put_bit`, the reader over an arbitrary `get_bit`), and the coder for debugging on the register queue of C31. C80: an invariant of `blend` (`Cdf2.Ok`), a closed form while nothing is forgotten, and C01 with the history of bits
as model. C81: `nibble_bits` is by cases on the nibble with the distribution arbitrary; `nibble_chances` states the probabilities
by the mass of groups of symbols (`chance`), independently of the nested minima and maxima of the code; the round trip is C01
again, through `serves_decode`. C82: from the step theorem of C31. Partial: the negations in the list of findings.

### C83 Files of textual commands

`MainIrProps` joins C73 and C74 with the program of C79: `once_text` and `once_recode` say which loop the settings lead to,
`settings_opts` derives from the settings that the compressor's own prediction mode can be coded, and `runs_ok` is the induction
over the runs. C73 and C74 are stated for any such options. Partial: as C73; a write that takes nothing is an error of these two
programs, so such systems are excluded.

### C84 The decompressor with a worker thread, call by call

`Par` is the decompressor of `Verif.Call` with the worker in a thread: its own buffer of commands, passed on in batches
(`BufferedMultiWorker`), and one step for each operation under the mutex. Steps of the two threads interleave in any way; the
worker goes on between calls. `Always` (in `ParRun`) says that every schedule leads to a proper end of the call; `always_iff`
unfolds it into reachable states (no failure or panic, not both waiting, only proper ends) and the absence of infinite sequences.
Proof: the state with the batch appended to the queue (`St.view`) keeps the invariant of C55 under each step of either thread
(`pwork_ok`, `tick_ok`); a measure decreases with each step, and the bytes lent to the worker exclude that both wait (`Waits`).
`Restores` (C49, C50, C56, C67, C70-C73, C79, C83) includes this decompressor. Waking up is C46; errors broadcast by a thread are
not in this model, `free` is C88.

### C85 Success with a worker thread, on any bytes

`ParSim` carries the simulation of C61 over to `Par`: the state with the worker's batch at the end of the queue is related to a
decompressor of `Verif.File` (`Call.Sim`), and each step of either thread is a sequence of steps there. `Accepted` in `ParAnyProps`
is "the last call reported success", with a thread or without, so the theorems compare both kinds. The claims about files then
follow from C23, C52, C53, C54. They speak of calls that returned.

### C86 Every call with a worker thread ends, on any bytes

`ParEnd` carries the invariant of C62 (`Call.Live`) over to `Par`, in the way of C84. Each step of either thread leaves fewer nibbles
to be read, or as many and less to do (`Conf.Down`), so no schedule goes on for ever. `during_starved`: when both threads wait, the end
marker has been seen, no bytes of the command stream are left, and the worker wants some. By the simulation of C85 the bytes then
contain the end marker (`done_hasEnd`). Partial, as it is false: see the list above; `stuckAt` follows the two threads where only one of
them can go on. `panic_hangs` uses an overflow, which is a panic only in builds that check them; the failing lookup of C41 is one in
every build. A failure of the worker (`St.work = .fail`) is broadcast and ends the call with an error; the broadcast is in `Threads`
(C28, C46), not in `Par`.

### C87 Reader, writer, program and C interface with a worker thread

`ParIo` has the step of the adaptors, the loop of `decompress_generic` and the loop around `divans_decode` for any decompressor
(`Decoder`, the trait `Decompressor`). `serial_proc`, `serial_decompress` and `serial_cDecode`: with the decompressor without a thread
they are the models of `Io`, `Cli` and `Ffi`. `threaded sched` is the decompressor of `Par` under a scheduler, which sees the
whole state and the time and chooses the thread; a thread that waits lets the other one go. `play_always` turns "every
interleaving ends well" (C84) into "this scheduler ends well"; `every_interleaving` is the other direction. `ParServe` repeats the proofs of
`IoDec`, `IoWrite`, `IoTrail`, `CliRun` and `FfiProps` from the one assumption `Follows`, which C84 gives. What the worker's thread does
between calls is counted to the next call. For the program the model stops where its loop ends; `free`, which it calls then whatever the
loop's result, is C88.

### C88 Freeing a decompressor with a worker thread

`free` broadcasts an error and locks the codec; the worker's thread holds that lock for its whole life, so the caller waits until the
worker ends, and the worker is alone meanwhile. `ParFree` has the worker's step after the broadcast (`St.told`): the waits for bytes
and for the memory of a prediction mode do not look at the error; what `read_buffer` learns of it is dropped, and the worker's loop tries
again for ever; only a `force_push` without place, from `push_cmd` or at the end, ends the thread. Both "waits" and "tries again for
ever" are `Fate.stuck`. `told_on`: after the broadcast the worker makes no step it would not have made before, so the measure of C86
bounds its steps (`frees_exists`) and its determinism gives uniqueness. `Tidy` and `history_neat`: success is returned only when the main
side has seen the end of the commands, and then the worker's thread has ended. That the call of `force_push` is the one in `read_buffer` is
told by the worker having given its buffer away; `work_tidy` shows that nothing else leaves it without one. Not modelled: a
worker whose thread has not begun when the lock is taken (then `free` does not wait), and errors broadcast by the worker itself when a
call fails (the worker has ended then, and `free` returns).

### C89 The command line program with its worker thread

`MainPar` is `Main` with the thread: in each run there is a scheduler and a number of steps the worker makes between the last call and
`free` (`Timing`, both arbitrary). `unpackFree` is the loop of C87 followed by `free` of C88; `none` is a program that does not end.
`unpackFree_settles`: if the loop ends, the program comes to one thing for all sufficiently large numbers of steps, and with
success to the loop's result (`free_after_success`). The rest follows C79, run by run. `serial_same` ties the model to `Main`.
Partial as C79. What `free` does after a failed call of `decode` is not modelled.

### C90 Every context has a model of its own

`Prior` is the macro `define_prior_struct!` for any list of types and dimensions, with `debug_assert!` and without. Specification:
`Fits`, an index of the right length with each number below its dimension. `linear` is a bijection from the fitting indices to the
numbers below the product (mixed radix, induction on the dimensions); the types lie one behind the other (induction on the table).
`learns_own` reduces a history of uses to the uses in one context. The tables of the command coder (`key_eq`) and of the literals are
instances.

### C91 Builds that measure

`Meter` has the adaptive coder of `Adaptive` with the kind of distribution as a parameter (`Dist`), as the code is generic. A kind of
distribution `Shows` the production type if there is a view that every operation keeps; then the slots sent and the nibbles decoded
are the same (induction), so by C34 files can be interchanged. Both wrappers show it, for any arithmetic of costs. What they report
is compared with small specifications (`costOf`, counting in a list). `billing` wraps any coder: the same answers, and an account
that adds up (`spent`, `spentAll`) over any number of moves.

### C92 A C caller's memory

`CAlloc` has a log of what is taken from and given back to the caller's heap and Rust's; addresses come from any environment that
does not give out what is taken (`Env.Fresh`), and may be used again after they are given back. `live` and `Proper` say what is taken
and what a proper release is, from the log alone. The invariant (`Inv`) counts: what is taken is what the codec holds, what the caller
holds, the state, and what is lost. Each action keeps it, and adds to what is lost only what `lostBy` says.

### C93 The C interface with brotli inside

`FfiBrotli.withBrotli` is the machine `Other` of C63 made of the compressor of C70. Calls with offsets into buffers are lifted from
`Hybrid.encode_spec` and `Hybrid.flush_spec` by induction over the calls; the example's loops end because an `encode` that takes
nothing makes brotli's measure smaller, and a flush that asks for room has filled a buffer that is not empty, which is less to do. The
decompressing half is `decodeLoop_ok` of C63.

### C94 Which lengths are kept without brotli

The assembler of C27 sends its ring of `L` bytes off when it is full, and each time round one byte of it less is used. `RawLen.At`
says in which state it is after `t` bytes, counting bytes sent twice (`at_stream`: an invariant over all calls). From it: how many
bytes it needs in one piece at `t` not to send old ones again (`owed`, `at_owed`), and that a state reached without loss has a length
whose last two digits in base `L` add up to at most `L` (`Fair`), which gives the negative half for every caller. For the positive
half a call of `encode` is shown to be a `Chain` of offers of the same piece (`CompRun.Pushed.how`); `Ample` says that a piece is long
enough everywhere, and is shown for the kinds of callers in the statement. The bounds `2L-2` and `3L-2` follow from where the first
`owed` of 1 and of 2 is (`chain_few`).

### C95 The buffer and the report of the C example

`CVec` models `push_vec_u8` with blocks as lists of bytes, fresh memory as an arbitrary function, a log of blocks taken and given
back, and an explicit result for a read or write outside of a block. `round_up_to_power_of_two` is proved bit by bit: after the shifts
by 1, 2, .., 32 bit `i` is set when one of the bits `i .. i+63` was (`smear_bits`). The invariant `Holds` (contents, length of the
block, which blocks are out) is kept by each call (`push_spec`). `custom_atoi` is its two loops; the second is shown to reverse the
text. The percentage is compared with the rounded one, `printed_spec` says when they differ.

### C96 The C example program

`ExMain.main` puts the command line (`settings`: the three loops of `set_options` as a list of selectors and values), the choice of the
input, `compress` and `decompress` of `Ffi` and the comparison together. `settings_spec` is by induction over the settings: which of
them are refused depends on the setting alone (`set_one`), and the window, the mixing and the choice of commands are those of the
last setting that speaks of them. The outcomes then are those of C94 (`example_exact`) and C93 (`default_example`). Not modelled:
files that cannot be read as a whole, a standard output that fails, and the environment variables that choose the allocator.

### C97 The memory functions of the C example

`CMem` has memory as a function from addresses to bytes. `malloc_mem` gives every byte after `custom_malloc_f`; from it the place of the
pointer and what `custom_free_f` reads back. `Step` is what a caller and the system may do (also: the system may overwrite a block once
it is free); the invariant `reached_ok` says that blocks in use are apart and their control areas intact. For the static buffer
`bumped_ok` counts: 32 bytes for every request so far, and the sizes in use, are at most the offset.

### C98 The example programs

`Filters` has `io::copy` as its documentation describes it, and the two `main` functions around the adaptors of C25 and C26. For any codec
`compress_ok_iff` and `decompress_ok` translate a run without a panic into the histories `writes` and `readToEnd`, by induction over the
reads; `compress_ok_done` adds that no write of the output failed. With the codecs of this repository the rest follows from C71 (the
hybrid writer) and C87 (the reader with a worker thread). Missing: compress with an encoder that leaves input behind, where it is
false; interruptions of the standard output are taken as repeated by `write_all`.

### C99 The cost estimator

`Estimate` leaves the floating point type open; the theorems take the real numbers (here and in C101 Mathlib's analysis is
imported). `chance` is the specification: the product, over a sequence, of what the distribution gives to each symbol before it is
updated, a rational number. `track_spec` shows by induction from the end that the two running costs are the logarithms of such
products; that all factors are positive is C06. `groups_spec` says what the hash map holds; sums over it are sums over the set of
priors, so that no order matters. Lines are in ASCII; text that is not, and the number printed at the end, are not modelled.

### C100 Probabilities from outside

`External` has the loops of `init` over rational numbers. The counts are pinned down by `counts_spec` and `outside_spec`; every nibble
weighs at least 1/32 of 47/32, so that counts grow by at least 697 and both limits matter for the last one only. From that the slots
follow as for the other distributions, with 32767 as the maximum, for which `div_by_max` of a shifted count is the count itself
(`div_exact`). `literal_round_trip` puts them into the round trip of the coder (C01), and `literal_size` into C102:
wrong probabilities cost at most 6 bits for each nibble, because none has fewer than 695 of 2^15 (`freq_ge`). Read, not proved: the literal that the decoder
fills in has no probabilities, so this repository's decoder takes the ordinary way and cannot read what an encoder with external
probabilities wrote.

### C101 The comparison of costs

`Tally` has the two counters, their snapshots and the comparison at the end of `should_merge`. The specification is `chance`, a product
of rational numbers; `bits` is its negative binary logarithm. `run_snaps` says that coding leaves snapshots alone, from which a trial
leaves no trace (`trial_reset`); `total_spec` is by induction over the nibbles. That the nibbles of the second trial are not changed by
the first rests on the distributions not being adapted during a trial (`will_it_blend`) and on the snapshot of the rest of the state,
and is taken as given here.

### C102 The size of the output

`odds` is the product of the parts of 2^15. `encF_both` follows the product of both states, of 256 for each byte written, and of `odds`:
a symbol changes it by a factor between (1 - 2^-16)^2 and 1 + 2^-16, because a state is at least 2^16 times the frequency when a symbol
is pushed (`push_both`) and at least 2^48 times it when bytes are written (`renorm_both`). Over a chunk the factors stay between 1/16 and
4 (Bernoulli's inequality), and the states between 2^31 and 2^63. `stream_size` goes from chunk to chunk. `size_bounds` is about
rational numbers only; `size_in_bits` takes the logarithm. `odds_eq_chance` connects it with C101, and `adaptive_size` says it for
nibbles coded with models that adapt and mix by any rule.

### C103 The overhead of the multiplexer

`price` counts, in parts of 4096 of a byte, what is still to be written at most: 4096 for each byte of the record begun, 4097 for each
byte not in a record yet, and 12288 for a stream with such bytes. A record has a header of one byte and at least 4096 bytes of data, or a
header of three bytes and all that is pending (`getCode_size`), so starting it does not raise `price` together with what was written
(`emit_price`), and going on with it does not either. `Tr` carries this through all loops of `serialize` and `flush_internal`. Storing
n bytes raises `price` by at most 4097 n + 12288 (nothing if n = 0). `mux_overhead` is an induction over the history. The bound is reached by one byte on
each stream. `mux_complete` has the bound from below: reading a byte delivers at most one (`step_size`).
`container_overhead` and `container_complete` carry both bounds over to the compressor's container with header and trailer, 24 bytes more.
The coders' bytes are arguments there; C102 bounds their number.
