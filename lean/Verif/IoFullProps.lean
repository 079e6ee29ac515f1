import Verif.IoTrail
import Verif.IoComp
import Verif.RoundTripProps

/-!
# C57–C59: the adaptors with the codecs inside

`Call.Serves dw file data` says that every decompressor serves `file` with `data` (C55); it holds of every file
of the compressor.  `Restores` says this and the same of the decompressor with two threads.
-/

namespace Divans.Io
open Divans.Pipe Divans.Compressor

variable {dw : Nat → Nat → Nat → List UInt8} {file data : List UInt8}

theorem bufSize_pos (size : Nat) : 0 < bufSize size := by
  unfold bufSize
  split
  · decide
  · omega

/-! ## C57: the decompressor as a reader -/

theorem left_wf (data : List UInt8) : WellFounded (fun x y => left data x < left data y) :=
  InvImage.wf (left data) Nat.lt_wfRel.wf

theorem dec_held (skip : Bool) (size : Nat) {src : List Ev} (hsrc : Clean src) (missing : List UInt8) {file : List UInt8}
    (hb : srcBytes src ++ missing = file) :
    Held (fun c rest out => Reached dw skip file c (rest ++ missing) out) (fun _ => False) (decReader skip size src) [] := by
  refine held_new (by rw [List.length_replicate]; exact bufSize_pos size) false hsrc ?_
  rw [hb]
  exact reached_new

/-- **C57.**  A caller reads from a decompressor around a source that holds a file (in any pieces, with
interruptions), with an input buffer of any size and nonempty buffers of any sizes.  No `read` fails or goes on
for ever; the bytes read are a beginning of the data; when `read` returns 0 they are all of it; and that happens
by the time there were more reads than `data` has bytes. -/
theorem decompressor_reader (hs : Call.Serves dw file data) (skip : Bool) (size : Nat) (src : List Ev) (hsrc : Clean src)
    (hb : srcBytes src = file) (caps : List Nat) (hpos : ∀ c ∈ caps, 0 < c) :
    ∃ k s log bs st, (∀ f, k ≤ f → ∀ n, k ≤ n →
        readToEnd (decProc dw f) n caps (decReader skip size src) [] = some (s, log, bs, st)) ∧
      bs <+: data ∧ (st = .eof ∧ bs = data ∨ st = .more ∧ caps.length ≤ bs.length) ∧
      (data.length < caps.length → st = .eof ∧ bs = data) := by
  obtain ⟨k, s, log, bs, st, e, ⟨c, rest, h1⟩, h2⟩ := readToEnd_ok (dec_contract hs []) (left_wf data) caps _ [] []
    hpos (dec_held skip size hsrc [] (by rw [List.append_nil]; exact hb))
  rw [List.nil_append] at h1 h2
  rw [← List.append_nil file] at h1
  have hp : bs <+: data := reached_pre hs h1
  have h3 : st = .eof ∧ bs = data ∨ st = .more ∧ caps.length ≤ bs.length := by
    rcases h2 with h | h | h
    · exact Or.inl ⟨h.1, h.2.1⟩
    · exact absurd rfl h.2
    · exact Or.inr h
  refine ⟨k, s, log, bs, st, e, hp, h3, fun hlt => ?_⟩
  rcases h3 with h | h
  · exact h
  · have := hp.length_le
    omega

/-- **C57, truncated files.**  If the source ends before the file does, `read` never returns 0: the caller
gets a beginning of the data and then an error, by the time there were more reads than `data` has bytes. -/
theorem decompressor_reader_truncated (hs : Call.Serves dw file data) (skip : Bool) (size : Nat) (src : List Ev)
    (hsrc : Clean src) (missing : List UInt8) (hm : missing ≠ []) (hb : srcBytes src ++ missing = file) (caps : List Nat)
    (hpos : ∀ c ∈ caps, 0 < c) :
    ∃ k s log bs st, (∀ f, k ≤ f → ∀ n, k ≤ n →
        readToEnd (decProc dw f) n caps (decReader skip size src) [] = some (s, log, bs, st)) ∧
      bs <+: data ∧ (st = .codecErr ∨ st = .more ∧ caps.length ≤ bs.length) ∧
      (data.length < caps.length → st = .codecErr) := by
  obtain ⟨k, s, log, bs, st, e, ⟨c, rest, h1⟩, h2⟩ := readToEnd_ok (dec_contract hs missing) (left_wf data) caps _ [] []
    hpos (dec_held skip size hsrc missing hb)
  rw [List.nil_append] at h1 h2
  rw [← List.append_nil file] at h1
  have hp : bs <+: data := reached_pre hs h1
  have h3 : st = .codecErr ∨ st = .more ∧ caps.length ≤ bs.length := by
    rcases h2 with h | h | h
    · exact absurd h.2.2 hm
    · exact Or.inl h.1
    · exact Or.inr h
  refine ⟨k, s, log, bs, st, e, hp, h3, fun hlt => ?_⟩
  rcases h3 with h | h
  · exact h
  · have := hp.length_le
    omega

/-- **C57 fails when the source goes on behind the file**: the caller gets all of the data, and then `read` does
not return 0 and does not fail, it never returns.  (`none`: not within `n` rounds of its loop, for every
`n`.) -/
theorem decompressor_reader_hangs (hs : Call.Serves dw file data) (skip : Bool) (size : Nat) (src : List Ev) (hsrc : Clean src)
    (tail : List UInt8) (ht : tail ≠ []) (hb : srcBytes src = file ++ tail) (caps : List Nat) (hpos : ∀ c ∈ caps, 0 < c)
    (hlen : data.length < caps.length) :
    ∃ j k s log, j < caps.length ∧
      (∀ f, k ≤ f → ∀ n, k ≤ n →
        readToEnd (decProc dw f) n (caps.take j) (decReader skip size src) [] = some (s, log, data, .more)) ∧
      ∀ n, ∃ k, ∀ f, k ≤ f → readToEnd (decProc dw f) n caps (decReader skip size src) [] = none := by
  have hh : HeldT dw skip (file ++ tail) (decReader skip size src) [] := by
    refine held_new (by rw [List.length_replicate]; exact bufSize_pos size) false hsrc ?_
    rw [hb]
    exact reached_new
  rcases tail_reads hs ht caps _ [] [] hpos hh with ⟨k, s, log, bs, -, h2, h3⟩ | ⟨j, k, s, log, bs, h1, h2, h3, h4⟩
  · have := h3.length_le
    rw [List.nil_append] at this
    omega
  · rw [List.nil_append] at h3
    subst h3
    exact ⟨j, k, s, log, h1, h2, h4⟩

/-! ## C58: the compressor as a reader and as a writer -/

/-- **C58 for the reader**, for input of at most a window full.  A caller who reads from a compressor around a
source, with an input buffer of any size and nonempty buffers of any sizes, comes to the end; the bytes read are
a file of the bytes of the source. -/
theorem compressor_reader_partial (o : Codec.Opts) (dw : Nat → Nat → Nat → List UInt8) (window : Option Int)
    (hpm : (Item.pm rawPm).Valid o dw (2 ^ (Frame.windowOf window).toNat)) (size : Nat) (src : List Ev) (hsrc : Clean src)
    (hlen : (srcBytes src).length ≤ 2 ^ (Frame.windowOf window).toNat) (caps : Nat → Nat) (hpos : ∀ i, 0 < caps i) :
    ∃ N k s log file, (∀ f, k ≤ f → ∀ n, k ≤ n →
        readToEnd (compProc o dw f) n ((List.range N).map caps) (compReader window size src) [] = some (s, log, file, .eof)) ∧
      Restores dw file (srcBytes src) := by
  have hh : Held (Goes ⟨o, dw, window⟩ (srcBytes src)) HeaderDue (compReader window size src) [] := by
    refine held_new (by rw [List.length_replicate]; exact bufSize_pos size) true hsrc ?_
    exact Or.inl ⟨[], [], [], [], pushing_new ⟨o, dw, window⟩, fun _ => once_nil _, rfl⟩
  obtain ⟨N, k, s, log, bs, st, e, h⟩ := readToEnd_ends (comp_contract (g := ⟨o, dw, window⟩) (data := srcBytes src) hpm hlen) compLt_wf _
    caps _ [] [] rfl hpos hh
  rcases h with ⟨rfl, h⟩ | ⟨-, h⟩
  · exact ⟨N, k, s, log, bs, e, by rw [List.nil_append] at h; exact h⟩
  · exact absurd h id

theorem writes_append {σ : Type} (p : Proc σ) (fuel : Nat) : ∀ (as bs : List WOp) (w : Writer σ) (log : List Entry),
    writes p fuel (as ++ bs) w log = (writes p fuel as w log).bind fun x =>
      (writes p fuel bs x.1 x.2.1).map fun y => (y.1, y.2.1, x.2.2 ++ y.2.2) := by
  intro as
  induction as with
  | nil => intro bs w log; simp [writes]
  | cons a as ih =>
    intro bs w log
    simp only [List.cons_append, writes]
    cases wstep p fuel w log a with
    | none => rfl
    | some x =>
      obtain ⟨w1, log1, g⟩ := x
      simp only [ih]
      cases writes p fuel as w1 log1 with
      | none => rfl
      | some y =>
        simp only [Option.bind_some, Option.map_some]
        cases writes p fuel bs y.1 y.2.1 <;> rfl

/-- **What the compressing writer does with any input.**  A caller writes bytes in any pieces to a compressor around a sink
that works, then flushes.  Every `write` ends and reports that it has taken all, the flush ends and succeeds, and the sink has
received a file from which at least as many bytes come back.  If there are not more, they are the bytes written; this is so for
certain up to two windows less two bytes, and never when the last two digits of the length, in base of the window, add up to
more than the window (C27, C94). -/
theorem compressor_writer_any (o : Codec.Opts) (dw : Nat → Nat → Nat → List UInt8) (window : Option Int)
    (hpm : (Item.pm rawPm).Valid o dw (2 ^ (Frame.windowOf window).toNat)) (size : Nat) (sink : List Bool)
    (hsink : ∀ b ∈ sink, b = true) (bss : List (List UInt8)) :
    ∃ k w log, (∀ f, k ≤ f → ∀ n, k ≤ n →
        writes (compProc o dw f) n (bss.map .write ++ [.flush true]) (compWriter window size sink) [] =
          some (w, log, (bss.map fun b => .ok b.length) ++ [.ok 0])) ∧
      ∃ back, Restores dw (sinkBytes log) back ∧ bss.flatten.length ≤ back.length ∧
        (back.length = bss.flatten.length → back = bss.flatten) ∧
        (bss.flatten.length ≤ 2 * 2 ^ (Frame.windowOf window).toNat - 2 → back = bss.flatten) ∧
        (back = bss.flatten → RawCmd.Fair (2 ^ (Frame.windowOf window).toNat) bss.flatten.length) := by
  have hh : WHeld (Pushes ⟨o, dw, window⟩ bss.flatten) (bufSize size) false (compWriter window size sink) (bss.flatten ++ []) [] :=
    ⟨⟨[], [], [], [], pushing_new ⟨o, dw, window⟩, fun _ => once_nil _, by rw [List.append_nil]; rfl⟩, rfl, rfl, hsink⟩
  obtain ⟨k1, w1, log1, bs1, e1, h1, -, h2⟩ := writes_ok (comp_wcontract (g := ⟨o, dw, window⟩) (data := bss.flatten) hpm) pushLt_wf
    (bufSize_pos size) bss _ [] [] [] hh
  rw [List.nil_append] at h1
  obtain ⟨k2, w2, log2, bs2, e2, h3, h4⟩ := wflush_ok (g := ⟨o, dw, window⟩) (data := bss.flatten) hpm (bufSize_pos size) _ w1 log1 bs1
    rfl ⟨pushes_closes h1.ok, h1.cap, h1.flushed, h1.sink⟩
  refine ⟨max k1 k2, w2, log2, fun f hf n hn => ?_, ?_⟩
  · rw [writes_append, e1 f (by omega) n (by omega)]
    simp only [Option.bind_some, writes, wstep, e2 f (by omega) n (by omega), Option.map_some]
  · rw [h4, h2]
    exact h3

/-- **C58 for the writer**, for input of at most two windows less two bytes: the sink has received a file of the bytes written. -/
theorem compressor_writer_partial (o : Codec.Opts) (dw : Nat → Nat → Nat → List UInt8) (window : Option Int)
    (hpm : (Item.pm rawPm).Valid o dw (2 ^ (Frame.windowOf window).toNat)) (size : Nat) (sink : List Bool)
    (hsink : ∀ b ∈ sink, b = true) (bss : List (List UInt8))
    (hlen : bss.flatten.length ≤ 2 * 2 ^ (Frame.windowOf window).toNat - 2) :
    ∃ k w log, (∀ f, k ≤ f → ∀ n, k ≤ n →
        writes (compProc o dw f) n (bss.map .write ++ [.flush true]) (compWriter window size sink) [] =
          some (w, log, (bss.map fun b => .ok b.length) ++ [.ok 0])) ∧
      Restores dw (sinkBytes log) bss.flatten := by
  obtain ⟨k, w, log, e, back, h1, -, -, h2, -⟩ := compressor_writer_any o dw window hpm size sink hsink bss
  exact ⟨k, w, log, e, h2 hlen ▸ h1⟩

/-- **C58 fails for the writer**: for many lengths beyond three windows, however the bytes are cut, every write and the flush
report success, but the sink has received a file of something longer. -/
theorem compressor_writer_wrong (o : Codec.Opts) (dw : Nat → Nat → Nat → List UInt8) (window : Option Int)
    (hpm : (Item.pm rawPm).Valid o dw (2 ^ (Frame.windowOf window).toNat)) (size : Nat) (sink : List Bool)
    (hsink : ∀ b ∈ sink, b = true) (bss : List (List UInt8))
    (hlen : ¬ RawCmd.Fair (2 ^ (Frame.windowOf window).toNat) bss.flatten.length) :
    ∃ k w log, (∀ f, k ≤ f → ∀ n, k ≤ n →
        writes (compProc o dw f) n (bss.map .write ++ [.flush true]) (compWriter window size sink) [] =
          some (w, log, (bss.map fun b => .ok b.length) ++ [.ok 0])) ∧
      ∃ back, Restores dw (sinkBytes log) back ∧ bss.flatten.length < back.length := by
  obtain ⟨k, w, log, e, back, h1, h2, h3, -, h4⟩ := compressor_writer_any o dw window hpm size sink hsink bss
  refine ⟨k, w, log, e, back, h1, ?_⟩
  rcases Nat.lt_or_ge bss.flatten.length back.length with h | h
  · exact h
  · exact absurd (h4 (h3 (by omega))) hlen

/-- Such a length, with a window of 4096 bytes. -/
example : ¬ RawCmd.Fair (2 ^ (Frame.windowOf (some 12)).toNat) ([List.replicate 12287 7] : List (List UInt8)).flatten.length := by
  simp only [List.flatten_cons, List.flatten_nil, List.length_append, List.length_replicate, List.length_nil]
  decide

/-! ## C59: the decompressor as a writer -/

theorem dec_writes (hs : Call.Serves dw file data) (skip : Bool) (size : Nat) (sink : List Bool) (hsink : ∀ b ∈ sink, b = true)
    (bss : List (List UInt8)) (missing : List UInt8) (hb : bss.flatten ++ missing = file) :
    ∃ k w log, (∀ f, k ≤ f → ∀ n, k ≤ n →
        writes (decProc dw f) n (bss.map .write ++ [.flush true]) (decWriter skip size sink) [] =
          some (w, log, (bss.map fun b => .ok b.length) ++ [.ok 0])) ∧
      sinkBytes log <+: data ∧ (bss ≠ [] → missing = [] → sinkBytes log = data) := by
  have hh : WHeld (fun c rest out => Reached dw skip file c (rest ++ missing) out) (bufSize size) true (decWriter skip size sink)
      (bss.flatten ++ []) [] :=
    ⟨by rw [List.append_nil, hb]; exact reached_new, rfl, rfl, hsink⟩
  obtain ⟨k1, w1, log1, bs1, e1, h1, h2, h3⟩ := writes_ok (dec_wcontract hs missing) (left_wf data)
    (bufSize_pos size) bss _ [] [] [] hh
  rw [List.nil_append] at h1 h2
  have hlog : sinkBytes log1 = bs1 := h3
  refine ⟨k1 + 1, w1, log1, fun f hf n hn => ?_, ?_, fun hne hm => ?_⟩
  · obtain ⟨n, rfl⟩ : ∃ n', n = n' + 1 := ⟨n - 1, by omega⟩
    rw [writes_append, e1 f (by omega) (n + 1) (by omega)]
    simp only [Option.bind_some, writes, wstep, Writer.flush, h1.flushed, if_true, Option.map_some]
  · have := h1.ok
    rw [← List.append_nil file] at this
    rw [hlog]
    exact reached_pre hs this
  · rw [hlog]
    exact h2 hne (by rw [hm])

/-- **C59.**  A caller writes a file in any pieces to a decompressor around a sink that works, and flushes.  Every
`write` reports that it has taken all, the flush succeeds, and the sink has received exactly the data. -/
theorem decompressor_writer (hs : Call.Serves dw file data) (skip : Bool) (size : Nat) (sink : List Bool)
    (hsink : ∀ b ∈ sink, b = true) (bss : List (List UInt8)) (hne : bss ≠ []) (hb : bss.flatten = file) :
    ∃ k w log, (∀ f, k ≤ f → ∀ n, k ≤ n →
        writes (decProc dw f) n (bss.map .write ++ [.flush true]) (decWriter skip size sink) [] =
          some (w, log, (bss.map fun b => .ok b.length) ++ [.ok 0])) ∧
      sinkBytes log = data := by
  obtain ⟨k, w, log, e, -, h⟩ := dec_writes hs skip size sink hsink bss [] (by rw [List.append_nil]; exact hb)
  exact ⟨k, w, log, e, h hne rfl⟩

/-- **C59 fails for truncated files**: whatever beginning of a file the caller writes, all writes and the flush
report success, just as for the whole file. -/
theorem decompressor_writer_accepts_truncated (hs : Call.Serves dw file data) (skip : Bool) (size : Nat) (sink : List Bool)
    (hsink : ∀ b ∈ sink, b = true) (bss : List (List UInt8)) (missing : List UInt8) (hb : bss.flatten ++ missing = file) :
    ∃ k w log, (∀ f, k ≤ f → ∀ n, k ≤ n →
        writes (decProc dw f) n (bss.map .write ++ [.flush true]) (decWriter skip size sink) [] =
          some (w, log, (bss.map fun b => .ok b.length) ++ [.ok 0])) ∧
      sinkBytes log <+: data := by
  obtain ⟨k, w, log, e, h, -⟩ := dec_writes hs skip size sink hsink bss missing hb
  exact ⟨k, w, log, e, h⟩

/-! ## Through all four -/

/-- Compress by reading, decompress by reading: the bytes come back, for input of at most a window full. -/
theorem reader_round_trip_partial (o : Codec.Opts) (dw : Nat → Nat → Nat → List UInt8) (window : Option Int)
    (hpm : (Item.pm rawPm).Valid o dw (2 ^ (Frame.windowOf window).toNat)) (size size' : Nat) (skip : Bool) (src : List Ev)
    (hsrc : Clean src) (hlen : (srcBytes src).length ≤ 2 ^ (Frame.windowOf window).toNat) (caps : Nat → Nat)
    (hpos : ∀ i, 0 < caps i) (caps' : List Nat) (hpos' : ∀ c ∈ caps', 0 < c) (hc : (srcBytes src).length < caps'.length) :
    ∃ N k s log file, (∀ f, k ≤ f → ∀ n, k ≤ n →
        readToEnd (compProc o dw f) n ((List.range N).map caps) (compReader window size src) [] = some (s, log, file, .eof)) ∧
      ∀ src', Clean src' → srcBytes src' = file →
        ∃ k s log, ∀ f, k ≤ f → ∀ n, k ≤ n →
          readToEnd (decProc dw f) n caps' (decReader skip size' src') [] = some (s, log, srcBytes src, .eof) := by
  obtain ⟨N, k, s, log, file, e, h⟩ := compressor_reader_partial o dw window hpm size src hsrc hlen caps hpos
  refine ⟨N, k, s, log, file, e, fun src' hsrc' hb => ?_⟩
  obtain ⟨k, s, log, bs, st, e, -, -, h2⟩ := decompressor_reader h.1 skip size' src' hsrc' hb caps' hpos'
  obtain ⟨rfl, rfl⟩ := h2 hc
  exact ⟨k, s, log, e⟩

/-- Compress by writing, decompress by writing: the bytes come back, for input of at most two windows less two bytes. -/
theorem writer_round_trip_partial (o : Codec.Opts) (dw : Nat → Nat → Nat → List UInt8) (window : Option Int)
    (hpm : (Item.pm rawPm).Valid o dw (2 ^ (Frame.windowOf window).toNat)) (size size' : Nat) (skip : Bool)
    (bss : List (List UInt8)) (hlen : bss.flatten.length ≤ 2 * 2 ^ (Frame.windowOf window).toNat - 2) :
    ∃ k w log, (∀ f, k ≤ f → ∀ n, k ≤ n →
        writes (compProc o dw f) n (bss.map .write ++ [.flush true]) (compWriter window size []) [] =
          some (w, log, (bss.map fun b => .ok b.length) ++ [.ok 0])) ∧
      ∀ pieces : List (List UInt8), pieces ≠ [] → pieces.flatten = sinkBytes log →
        ∃ k w log, (∀ f, k ≤ f → ∀ n, k ≤ n →
            writes (decProc dw f) n (pieces.map .write ++ [.flush true]) (decWriter skip size' []) [] =
              some (w, log, (pieces.map fun b => .ok b.length) ++ [.ok 0])) ∧
          sinkBytes log = bss.flatten := by
  obtain ⟨k, w, log, e, h⟩ := compressor_writer_partial o dw window hpm size [] (fun b h => by cases h) bss hlen
  exact ⟨k, w, log, e, fun pieces hne hb => decompressor_writer h.1 skip size' [] (fun b h => by cases h) pieces hne hb⟩

/-! ## The theorems are not vacuous -/

/-- The hypotheses about the compressor are met. -/
example : (Item.pm rawPm).Valid Codec.demoOpts demoWords (2 ^ (Frame.windowOf (some 12)).toNat) ∧
    Clean [.data [1, 2], .interrupted, .data [3]] ∧
    (srcBytes [.data [1, 2], .interrupted, .data [3]]).length ≤ 2 ^ (Frame.windowOf (some 12)).toNat ∧
    ([List.replicate 5000 1, [], List.replicate 3190 2] : List (List UInt8)).flatten.length ≤
      2 * 2 ^ (Frame.windowOf (some 12)).toNat - 2 :=
  ⟨rawPm_valid rfl (by decide) (by decide) _ _, by simp [Clean], by decide, by
    simp only [List.flatten_cons, List.flatten_nil, List.length_append, List.length_replicate, List.length_nil]; decide⟩

/-- There is a file that every decompressor serves with these bytes. -/
theorem demo_served : ∃ file, Call.Serves demoWords file [1, 2, 3] := by
  obtain ⟨N, k, s, log, file, -, h⟩ := compressor_reader_partial Codec.demoOpts demoWords (some 12)
    (rawPm_valid rfl (by decide) (by decide) _ _) 5 [.data [1, 2], .interrupted, .data [3]] (by simp [Clean]) (by decide)
    (fun _ => 1) (fun _ => Nat.one_pos)
  exact ⟨file, h.1⟩

/-- What a caller sees. -/
def view : Option (Reader (Slot Call.Dec) × List Entry × List UInt8 × Stop) → Option (List UInt8 × Stop)
  | some (_, _, bs, st) => some (bs, st)
  | none => none

/-- A file in pieces; a file that is cut off; a file with a byte behind it. -/
example : view (readToEnd (decProc File.noWords 60) 100 [3, 1, 5, 100, 2, 2]
      (decReader false 7 [.data (File.oddFile.take 20), .interrupted, .data (File.oddFile.drop 20)]) []) =
    some ([97, 98, 99, 97, 98, 99, 97, 98, 99, 97, 98, 99, 97], .eof) := by decide +kernel

example : view (readToEnd (decProc File.noWords 60) 100 [3, 1, 5, 100, 2, 2]
      (decReader false 7 [.data (File.oddFile.take 60)]) []) =
    some ([97, 98, 99, 97, 98, 99, 97, 98, 99], .codecErr) := by decide +kernel

example : view (readToEnd (decProc File.noWords 60) 20 [100, 2]
      (decReader false 70 [.data (File.oddFile ++ [1])]) []) = none := by decide +kernel

end Divans.Io
