import Verif.CliRun

/-!
# What the command line program does with its source and its sink: C66, C67
-/

namespace Divans.Cli
open Divans.Io (Ev bufSize srcBytes Complete)
open Divans.Call (Serves Dec calls)
open Divans.Compressor Divans.Pipe
open Divans.Eng (Cfg)

/-! ## C66: decompressing -/

/-- **C66.**  The source gives a file, with anything behind it, in any pieces, with any interruptions, and the sink
takes it in any pieces, with any interruptions; any size of buffer, and any bytes read beforehand.  The program ends.
Either it reports no error and the sink was given exactly the data; or it reports an error that the source or the sink
had, and the sink was given a beginning of the data. -/
theorem decompress_tool {dw : Nat → Nat → Nat → List UInt8} {file data : List UInt8} (hs : Serves dw file data) (skip : Bool)
    (size : Nat) (extra tail : List UInt8) (src : List Ev) (sink : List WEv) (hw : Whole src)
    (he : extra ++ srcBytes src = file ++ tail) :
    ∃ f0 written e, (∀ n rounds, f0 ≤ n → f0 ≤ rounds → decompress dw n rounds skip size extra src sink = some (written, e)) ∧
      (e = .ok ∧ written = data ∨ e = .ioErr ∧ written <+: data ∧ (.fail ∈ src ∨ .fail ∈ sink)) := by
  have hb := bufSize_pos size
  obtain ⟨f0, s', e, h1, h2⟩ := unpackLoop_ok (missing := []) (tail := tail) (skip := skip) hs (.inl rfl)
    (cap := max (bufSize size) extra.length) (size := bufSize size) (by omega) hb _
    ⟨.new skip, extra, extra.length, [], src, sink, []⟩ [] rfl (by
      simp only [List.append_nil]; rw [he]; exact Io.reached_new) rfl List.nil_prefix hw (Nat.zero_le _)
  refine ⟨f0, s'.written, e, fun n k hn hk => ?_, ?_⟩
  · rw [decompress, h1 n k hn hk]; rfl
  · rcases h2 with ⟨a, -, b⟩ | ⟨-, a, -⟩ | h2
    · exact .inl ⟨a, b⟩
    · exact absurd rfl a
    · exact .inr h2

/-- **C66.**  The same with a file that is cut off: the program ends, and never without an error; the sink was given a
beginning of the data. -/
theorem decompress_tool_cut {dw : Nat → Nat → Nat → List UInt8} {file data : List UInt8} (hs : Serves dw file data) (skip : Bool)
    (size : Nat) (extra missing : List UInt8) (src : List Ev) (sink : List WEv) (hw : Whole src)
    (he : extra ++ srcBytes src ++ missing = file) (hm : missing ≠ []) :
    ∃ f0 written e, (∀ n rounds, f0 ≤ n → f0 ≤ rounds → decompress dw n rounds skip size extra src sink = some (written, e)) ∧
      written <+: data ∧ (e = .noEnd ∨ e = .ioErr ∧ (.fail ∈ src ∨ .fail ∈ sink)) := by
  have hb := bufSize_pos size
  obtain ⟨f0, s', e, h1, h2⟩ := unpackLoop_ok (missing := missing) (tail := []) (skip := skip) hs (.inr rfl)
    (cap := max (bufSize size) extra.length) (size := bufSize size) (by omega) hb _
    ⟨.new skip, extra, extra.length, [], src, sink, []⟩ [] rfl (by
      simp only [List.append_nil]; rw [he]; exact Io.reached_new) rfl List.nil_prefix hw (Nat.zero_le _)
  refine ⟨f0, s'.written, e, fun n k hn hk => ?_, ?_⟩
  · rw [decompress, h1 n k hn hk]; rfl
  · rcases h2 with ⟨-, a, -⟩ | ⟨a, -, b⟩ | ⟨a, b, c⟩
    · exact absurd a hm
    · exact ⟨b, .inl a⟩
    · exact ⟨b, .inr ⟨a, c⟩⟩

/-- **C66.**  Any source and any sink, whatever the bytes.  However the program ends, what the sink was given is a beginning of
what calls of `decode` give for these bytes.  If it ends without an error, then the bytes begin with a complete file,
with the right checksum unless it is not to be checked; `decode` has reported success for it, with nothing behind it
taken; and the sink was given all that `decode` gave. -/
theorem decompress_tool_any (dw : Nat → Nat → Nat → List UInt8) (n rounds : Nat) (skip : Bool) (size : Nat) (extra : List UInt8)
    (src : List Ev) (sink : List WEv) (written : List UInt8) (e : Outcome)
    (h : decompress dw n rounds skip size extra src sink = some (written, e)) :
    ∃ cs d rest out rets, calls dw n (.new skip) (extra ++ srcBytes src) cs = some (.ok (d, rest, out, rets)) ∧
      written <+: out ∧
      (e = .ok → written = out ∧ .success ∈ rets ∧ ∃ file, extra ++ srcBytes src = file ++ rest ∧ Complete skip file) := by
  unfold decompress at h
  rw [Option.map_eq_some_iff] at h
  obtain ⟨⟨s', e'⟩, h1, h2⟩ := h
  simp only [Prod.mk.injEq] at h2
  obtain ⟨rfl, rfl⟩ := h2
  obtain ⟨d, rest, out, rets, ⟨cs, g1⟩, g2, g3⟩ := unpackLoop_any (skip := skip) (whole := extra ++ srcBytes src) rounds _ _ _ []
    (by exact ⟨[], rfl⟩) h1
  refine ⟨cs, d, rest, out, rets, g1, g2, fun h0 => ?_⟩
  obtain ⟨k1, k2, -⟩ := g3 h0
  have hl := Call.success_last dw n skip _ cs d _ out rets g1 k2
  obtain ⟨h, w, body, sum, st, q1, q2, q3, q4, q5, q6⟩ := Call.call_success_means_checked dw n skip _ cs d _ out rets g1 hl
  refine ⟨k1, k2, h ++ body ++ (sum ++ [0x61, 0x6e, 0x73, 0x7e]), q5, h, w, body, sum, st, q1, q2, q3, q4, rfl, fun hsk => ?_⟩
  have := q6 hsk
  rw [q5] at this
  exact List.append_cancel_right this

/-- **C66, the other side of it.**  A good header, then the first byte of the end marker twice, then at least as many bytes
as the buffer holds, less one: the program never ends, whatever the pieces, the interruptions and the sink. -/
theorem decompress_tool_hangs (dw : Nat → Nat → Nat → List UInt8) (n rounds : Nat) (hn : 1 ≤ n) (skip : Bool) (size : Nat)
    (h x : List UInt8) (w : Nat) (hg : Frame.GoodHeader h w) (src : List Ev) (sink : List WEv) (hw : Whole src)
    (hf : .fail ∉ src) (hs : srcBytes src = h ++ 0xff :: 0xff :: x) (hx : bufSize size ≤ x.length + 1) :
    decompress dw n rounds skip size [] src sink = none := by
  unfold decompress
  rw [unpackLoop_stuck hn hg (x := x) (by rw [List.length_nil, Nat.max_zero]; exact hx) rounds _ (Call.new_live skip) ?_
    (Nat.le_refl _) (Nat.zero_le _) hw hf]
  · rfl
  · show _ ∧ _
    exact ⟨by decide, by simp only [List.nil_append]; exact hs⟩

/-! ## C67: compressing -/

/-- `compress_raw_inner` with any source and any sink. -/
theorem inner_ok (o : Codec.Opts) (dw : Nat → Nat → Nat → List UInt8) (window : Option Int)
    (hpm : (Item.pm rawPm).Valid o dw (2 ^ (Frame.windowOf window).toNat)) {size : Nat} (hz : 0 < size) (extra : List UInt8)
    (src : List Ev) (sink : List WEv) :
    ∃ f0 file e, (∀ n rounds, f0 ≤ n → f0 ≤ rounds → compressInner (plain o dw) n rounds (.new window) size extra src sink = some (file, e)) ∧
      (e = .ok ∧ (Whole src → .fail ∉ src) ∧ ((extra ++ heard size [] src).length ≤ 3 * 2 ^ (Frame.windowOf window).toNat - 2 →
          Restores dw file (extra ++ heard size [] src)) ∧
          (Restores dw file (extra ++ heard size [] src) →
            RawCmd.Fair (2 ^ (Frame.windowOf window).toNat) (extra ++ heard size [] src).length) ∨
        e = .ioErr ∧ (.fail ∈ src ∨ .fail ∈ sink)) :=
  inner_any (plain_keeps (g := ⟨o, dw, window⟩) hpm) ⟨[], [], [], pushing_new ⟨o, dw, window⟩, fun _ => once_nil _⟩ hz extra src sink

/-- Looking for the magic number, in a source whose end is not in the middle: nothing is lost. -/
theorem peek_spec : ∀ (src : List Ev) (got : List UInt8), Whole src → got.length < 16 →
    (∃ got' src', peek got src = (got', src', true) ∧ got' ++ srcBytes src' = got ++ srcBytes src ∧ Whole src' ∧
      got' = (got ++ srcBytes src).take 16 ∧ (.fail ∈ src' → .fail ∈ src) ∧ (.interrupted ∈ src' → .interrupted ∈ src)) ∨
    (∃ got' src', peek got src = (got', src', false) ∧ .fail ∈ src) := by
  intro src
  induction src with
  | nil =>
    intro got h hg
    refine .inl ⟨got, [], rfl, rfl, h, ?_, id, id⟩
    rw [srcBytes, List.append_nil, List.take_of_length_le (by omega)]
  | cons e t ih =>
    intro got h hg
    have ht : Whole t := fun h0 => h (List.mem_cons_of_mem _ h0)
    cases e with
    | fail => exact .inr ⟨got, t, rfl, by simp⟩
    | interrupted =>
      rcases ih got ht hg with ⟨got', src', h1, h2, h3, h4, h5, h6⟩ | ⟨got', src', h1, h2⟩
      · exact .inl ⟨got', src', h1, h2, h3, h4, fun h0 => List.mem_cons_of_mem _ (h5 h0), fun h0 => List.mem_cons_of_mem _ (h6 h0)⟩
      · exact .inr ⟨got', src', h1, List.mem_cons_of_mem _ h2⟩
    | data bs =>
      cases bs with
      | nil => exact absurd List.mem_cons_self h
      | cons b bs =>
        rw [peek]
        by_cases hl : 16 - got.length ≤ (b :: bs).length
        · rw [if_pos hl]
          have htk : got ++ (b :: bs).take (16 - got.length) = (got ++ srcBytes (.data (b :: bs) :: t)).take 16 := by
            rw [srcBytes, List.take_append, List.take_of_length_le (l := got) (by omega), List.take_append_of_le_length hl]
          by_cases hl2 : 16 - got.length < (b :: bs).length
          · rw [if_pos hl2]
            refine .inl ⟨_, _, rfl, ?_, ?_, htk, ?_, ?_⟩
            · rw [srcBytes, srcBytes, List.append_assoc, ← List.append_assoc (List.take _ _), List.take_append_drop]
            · intro h0
              rcases List.mem_cons.1 h0 with h1 | h1
              · injection h1 with h1
                have := congrArg List.length h1
                rw [List.length_drop, List.length_nil] at this
                omega
              · exact ht h1
            · simp only [List.mem_cons, reduceCtorEq, false_or]; exact id
            · simp only [List.mem_cons, reduceCtorEq, false_or]; exact id
          · rw [if_neg hl2]
            refine .inl ⟨_, _, rfl, ?_, ht, htk, fun h0 => List.mem_cons_of_mem _ h0, fun h0 => List.mem_cons_of_mem _ h0⟩
            rw [srcBytes, List.take_of_length_le (by omega), List.append_assoc]
        · rw [if_neg hl]
          rcases ih (got ++ b :: bs) ht (by rw [List.length_append]; omega) with
            ⟨got', src', h1, h2, h3, h4, h5, h6⟩ | ⟨got', src', h1, h2⟩
          · rw [List.append_assoc] at h2 h4
            exact .inl ⟨got', src', h1, h2, h3, h4, fun h0 => List.mem_cons_of_mem _ (h5 h0),
              fun h0 => List.mem_cons_of_mem _ (h6 h0)⟩
          · exact .inr ⟨got', src', h1, List.mem_cons_of_mem _ h2⟩

/-- The first four bytes of a file. -/
def magic : List UInt8 := [0xff, 0xe5, 0x8c, 0x9f]

theorem isDivans_iff {bytes : List UInt8} : isDivans (bytes.take 16) = true ↔ magic <+: bytes := by
  unfold isDivans
  rw [List.take_take, beq_iff_eq]
  show bytes.take 4 = magic ↔ _
  rw [List.prefix_iff_eq_take]
  exact eq_comm

/-- The program with any compressor that keeps the contract. -/
theorem tool_any {κ α β : Type} {t : Machine κ} {P Q : κ → List UInt8 → List UInt8 → Prop} {Fin : List UInt8 → List UInt8 → Prop}
    {lt : α → α → Prop} {mu : κ → α} {lt' : β → β → Prop} {rk : κ → β} (hk : Keeps t P Q Fin lt mu lt' rk) {c : κ} (h0 : P c [] [])
    (dw : Nat → Nat → Nat → List UInt8) (size : Nat) (force : Bool)
    (src : List Ev) (sink : List WEv) (hw : Whole src) (hi : .interrupted ∉ src) (hm : force = true ∨ ¬ magic <+: srcBytes src) :
    ∃ f0 file e, (∀ n rounds, f0 ≤ n → f0 ≤ rounds → compressRaw t dw n rounds c size force src sink = some (file, e)) ∧
      (e = .ok ∧ Fin (srcBytes src) file ∨ e = .ioErr ∧ (.fail ∈ src ∨ .fail ∈ sink)) := by
  have key : ∀ (extra : List UInt8) (src' : List Ev), extra ++ srcBytes src' = srcBytes src → Whole src' →
      .interrupted ∉ src' → (.fail ∈ src' → .fail ∈ src) →
      ∃ f0 file e, (∀ n rounds, f0 ≤ n → f0 ≤ rounds →
        compressInner t n rounds c (bufSize size) extra src' sink = some (file, e)) ∧
        (e = .ok ∧ Fin (srcBytes src) file ∨ e = .ioErr ∧ (.fail ∈ src ∨ .fail ∈ sink)) := by
    intro extra src' h1 h2 h3 h4
    obtain ⟨f0, file, e, k1, k2⟩ := inner_any hk h0 (bufSize_pos size) extra src' sink
    refine ⟨f0, file, e, k1, ?_⟩
    rcases k2 with ⟨rfl, k3, k2⟩ | ⟨rfl, k2⟩
    · rw [heard_calm [] h2 (k3 h2) (.inl h3), h1] at k2
      exact .inl ⟨rfl, k2⟩
    · exact .inr ⟨rfl, k2.imp_left h4⟩
  cases force with
  | true => exact key [] src rfl hw hi id
  | false =>
    have hm' : ¬ magic <+: srcBytes src := by
      rcases hm with h | h
      · cases h
      · exact h
    unfold compressRaw
    simp only [Bool.false_eq_true, if_false]
    rcases peek_spec src [] hw (by decide) with ⟨got, src', h1, h2, h3, h4, h5, h6⟩ | ⟨got, src', h1, h2⟩
    · rw [List.nil_append] at h2 h4
      have hd : ¬ isDivans got = true := by rw [h4, isDivans_iff]; exact hm'
      simp only [h1, if_neg hd]
      exact key got src' h2 h3 (fun h0 => hi (h6 h0)) h5
    · simp only [h1]
      exact ⟨0, [], .ioErr, fun _ _ _ _ => rfl, .inr ⟨rfl, .inl h2⟩⟩

/-- **C67, partial.**  Any source that is not interrupted, in any pieces, and any sink, with any size of buffer; the data does not begin
with the magic number, or compression is forced.  The program ends.  Either it reports no error and the sink was given
a file from which every decompressor restores exactly the data; or it reports an error that the source or the sink had.
Missing: more data than three windows less two bytes, for which it is not true (`compress_tool_loses`), and a source that is interrupted, for
which it is not true either (`interrupted_read_doubles`). -/
theorem compress_tool_partial (o : Codec.Opts) (dw : Nat → Nat → Nat → List UInt8) (window : Option Int)
    (hpm : (Item.pm rawPm).Valid o dw (2 ^ (Frame.windowOf window).toNat)) (size : Nat) (force : Bool)
    (src : List Ev) (sink : List WEv) (hw : Whole src) (hi : .interrupted ∉ src)
    (hl : (srcBytes src).length ≤ 3 * 2 ^ (Frame.windowOf window).toNat - 2) (hm : force = true ∨ ¬ magic <+: srcBytes src) :
    ∃ f0 file e, (∀ n rounds, f0 ≤ n → f0 ≤ rounds → compressRaw (plain o dw) dw n rounds (.new window) size force src sink = some (file, e)) ∧
      (e = .ok ∧ Restores dw file (srcBytes src) ∨ e = .ioErr ∧ (.fail ∈ src ∨ .fail ∈ sink)) := by
  obtain ⟨f0, file, e, k1, k2⟩ := tool_any (plain_keeps (g := ⟨o, dw, window⟩) hpm) ⟨[], [], [], pushing_new ⟨o, dw, window⟩, fun _ => once_nil _⟩ dw size
    force src sink hw hi hm
  refine ⟨f0, file, e, k1, ?_⟩
  rcases k2 with ⟨k2, k3⟩ | k2
  · exact .inl ⟨k2, k3.1 hl⟩
  · exact .inr k2

/-- **C94, the program.**  As before, but the last two digits of the length of the data, in base of the window, add up to more than the
window.  The program ends.  Either it reports no error, and what the sink was given does not restore the data; or it reports an
error that the source or the sink had. -/
theorem compress_tool_loses (o : Codec.Opts) (dw : Nat → Nat → Nat → List UInt8) (window : Option Int)
    (hpm : (Item.pm rawPm).Valid o dw (2 ^ (Frame.windowOf window).toNat)) (size : Nat) (force : Bool)
    (src : List Ev) (sink : List WEv) (hw : Whole src) (hi : .interrupted ∉ src) (hm : force = true ∨ ¬ magic <+: srcBytes src)
    (hl : ¬ RawCmd.Fair (2 ^ (Frame.windowOf window).toNat) (srcBytes src).length) :
    ∃ f0 file e, (∀ n rounds, f0 ≤ n → f0 ≤ rounds → compressRaw (plain o dw) dw n rounds (.new window) size force src sink = some (file, e)) ∧
      (e = .ok ∧ ¬ Restores dw file (srcBytes src) ∨ e = .ioErr ∧ (.fail ∈ src ∨ .fail ∈ sink)) := by
  obtain ⟨f0, file, e, k1, k2⟩ := tool_any (plain_keeps (g := ⟨o, dw, window⟩) hpm)
    ⟨[], [], [], pushing_new ⟨o, dw, window⟩, fun _ => once_nil _⟩ dw size force src sink hw hi hm
  refine ⟨f0, file, e, k1, ?_⟩
  rcases k2 with ⟨k2, -, k3⟩ | k2
  · exact .inl ⟨k2, fun h => hl (k3 h)⟩
  · exact .inr k2

/-- **C67.**  With any interruptions, and compression forced: the program ends, and if it reports no error the sink was given
a file from which every decompressor restores what `heard` says: an interrupted read counts as the bytes of the last
read once more.  (If these are at most three windows less two bytes.) -/
theorem compress_tool_interrupted (o : Codec.Opts) (dw : Nat → Nat → Nat → List UInt8) (window : Option Int)
    (hpm : (Item.pm rawPm).Valid o dw (2 ^ (Frame.windowOf window).toNat)) (size : Nat) (src : List Ev) (sink : List WEv)
    (hl : (heard (bufSize size) [] src).length ≤ 3 * 2 ^ (Frame.windowOf window).toNat - 2) :
    ∃ f0 file e, (∀ n rounds, f0 ≤ n → f0 ≤ rounds → compressRaw (plain o dw) dw n rounds (.new window) size true src sink = some (file, e)) ∧
      (e = .ok ∧ Restores dw file (heard (bufSize size) [] src) ∨ e = .ioErr ∧ (.fail ∈ src ∨ .fail ∈ sink)) := by
  obtain ⟨f0, file, e, k1, k2⟩ := inner_ok o dw window hpm (bufSize_pos size) [] src sink
  refine ⟨f0, file, e, fun n k hn hk => ?_, ?_⟩
  · unfold compressRaw
    rw [if_pos rfl, k1 n k hn hk]
  · rcases k2 with ⟨rfl, -, k2, -⟩ | k2
    · exact .inl ⟨rfl, k2 hl⟩
    · exact .inr k2

/-- **C67, the other side of it.**  The source gives some bytes, no more than the buffer holds, the next read is interrupted, and there is
nothing more.  The program reports no error, and every decompressor restores the bytes twice from what the sink was
given. -/
theorem interrupted_read_doubles (o : Codec.Opts) (dw : Nat → Nat → Nat → List UInt8) (window : Option Int)
    (hpm : (Item.pm rawPm).Valid o dw (2 ^ (Frame.windowOf window).toNat)) (size : Nat) (bs : List UInt8) (hb : bs ≠ [])
    (hs : bs.length ≤ bufSize size) (hl : (bs ++ bs).length ≤ 3 * 2 ^ (Frame.windowOf window).toNat - 2) :
    ∃ f0 file, (∀ n rounds, f0 ≤ n → f0 ≤ rounds →
        compressRaw (plain o dw) dw n rounds (.new window) size true [.data bs, .interrupted] [] = some (file, .ok)) ∧
      Restores dw file (bs ++ bs) ∧ bs ++ bs ≠ bs := by
  have hh : heard (bufSize size) [] [.data bs, .interrupted] = bs ++ bs := by
    obtain ⟨b, l, rfl⟩ := List.exists_cons_of_ne_nil hb
    rw [heard, heard, lastPiece_small hs hb, heard, List.append_nil]
  obtain ⟨f0, file, e, h1, h2⟩ := compress_tool_interrupted o dw window hpm size [.data bs, .interrupted] [] (by rw [hh]; exact hl)
  rw [hh] at h2
  rcases h2 with ⟨rfl, h2⟩ | ⟨-, h2⟩
  · refine ⟨f0, file, h1, h2, fun h0 => hb ?_⟩
    have := congrArg List.length h0
    rw [List.length_append] at this
    exact List.length_eq_zero_iff.1 (by omega)
  · rcases h2 with h2 | h2 <;> simp at h2

/-- A file that serves some data begins with the magic number. -/
theorem serves_magic {dw : Nat → Nat → Nat → List UInt8} {file data : List UInt8} (hs : Serves dw file data) : magic <+: file := by
  obtain ⟨k, d, rets, h1, h2⟩ := served hs true [] (fun _ => (1, 1)) (fun _ => ⟨Nat.one_pos, Nat.one_pos⟩)
  have e := h1 k (Nat.le_refl _)
  obtain ⟨h, w, body, sum, st, q1, -, -, -, q5, -⟩ := Call.call_success_means_checked _ _ _ _ _ _ _ _ _ e
    (Call.success_last _ _ _ _ _ _ _ _ _ e h2)
  rw [List.append_nil, List.append_nil] at q5
  rw [q5, List.prefix_iff_eq_take]
  show magic = _
  rw [List.append_assoc, List.take_append_of_le_length (by rw [q1.1]; decide)]
  exact q1.2.1.symm

/-- **C67.**  Without forcing, what begins with the magic number is decompressed: a source that gives a file, in any pieces and with
any interruptions, leads to the data. -/
theorem compress_tool_detects {κ : Type} (t : Machine κ) (c : κ) {dw : Nat → Nat → Nat → List UInt8} {file data : List UInt8} (hs : Serves dw file data)
    (size : Nat) (src : List Ev) (sink : List WEv) (hw : Whole src) (tail : List UInt8)
    (he : srcBytes src = file ++ tail) :
    ∃ f0 written e, (∀ n rounds, f0 ≤ n → f0 ≤ rounds →
        compressRaw t dw n rounds c size false src sink = some (written, e)) ∧
      (e = .ok ∧ written = data ∨ e = .ioErr ∧ written <+: data ∧ (.fail ∈ src ∨ .fail ∈ sink)) := by
  unfold compressRaw
  simp only [Bool.false_eq_true, if_false]
  rcases peek_spec src [] hw (by decide) with ⟨got, src', h1, h2, h3, h4, h5, h6⟩ | ⟨got, src', h1, h2⟩
  · rw [List.nil_append] at h2 h4
    have hd : isDivans got = true := by
      rw [h4, isDivans_iff, he]
      exact (serves_magic hs).trans (List.prefix_append _ _)
    simp only [h1, if_pos hd]
    obtain ⟨f0, written, e, k1, k2⟩ := decompress_tool hs false size got tail src' sink h3 (by rw [h2, he])
    refine ⟨f0, written, e, k1, ?_⟩
    rcases k2 with k2 | ⟨k2, k3, k4⟩
    · exact .inl k2
    · exact .inr ⟨k2, k3, k4.imp_left h5⟩
  · simp only [h1]
    exact ⟨0, [], .ioErr, fun _ _ _ _ => rfl, .inr ⟨rfl, List.nil_prefix, .inl h2⟩⟩

/-- **C67, partial.**  There and back: a source without errors and interruptions, a sink without errors, then a source that gives what
the sink was given, in any pieces and with any interruptions, and a second sink without errors: the second sink is
given what the first source gave.  Missing: as in `compress_tool_partial`. -/
theorem tools_round_trip_partial (o : Codec.Opts) (dw : Nat → Nat → Nat → List UInt8) (window : Option Int)
    (hpm : (Item.pm rawPm).Valid o dw (2 ^ (Frame.windowOf window).toNat)) (size size' : Nat) (force : Bool)
    (src : List Ev) (sink sink' : List WEv) (hw : Whole src) (hi : .interrupted ∉ src) (hf : .fail ∉ src) (hk : .fail ∉ sink)
    (hk' : .fail ∉ sink') (hl : (srcBytes src).length ≤ 3 * 2 ^ (Frame.windowOf window).toNat - 2)
    (hm : force = true ∨ ¬ magic <+: srcBytes src) (skip : Bool) :
    ∃ f0 file, (∀ n rounds, f0 ≤ n → f0 ≤ rounds → compressRaw (plain o dw) dw n rounds (.new window) size force src sink = some (file, .ok)) ∧
      ∀ src', Whole src' → .fail ∉ src' → srcBytes src' = file → ∃ f1, ∀ n rounds, f1 ≤ n → f1 ≤ rounds →
        decompress dw n rounds skip size' [] src' sink' = some (srcBytes src, .ok) := by
  obtain ⟨f0, file, e, h1, h2⟩ := compress_tool_partial o dw window hpm size force src sink hw hi hl hm
  rcases h2 with ⟨rfl, h2⟩ | ⟨-, h2⟩
  · refine ⟨f0, file, h1, fun src' g1 g2 g3 => ?_⟩
    obtain ⟨f1, written, e, k1, k2⟩ := decompress_tool h2.1 skip size' [] [] src' sink' g1 (by rw [g3]; simp)
    rcases k2 with ⟨rfl, rfl⟩ | ⟨-, -, k2⟩
    · exact ⟨f1, k1⟩
    · exact absurd k2 (by simp [g2, hk'])
  · exact absurd h2 (by simp [hf, hk])

/-! ## The theorems are not vacuous -/

/-- A file in pieces, with interruptions, with bytes behind it, and a sink that takes little. -/
example : decompress File.noWords 60 100 false 7 []
      [.data (File.oddFile.take 20), .interrupted, .data (File.oddFile.drop 20 ++ [1, 2])] [.took 2, .interrupted, .took 0, .took 1] =
    some ([97, 98, 99, 97, 98, 99, 97, 98, 99, 97, 98, 99, 97], .ok) := by
  decide +kernel

/-- The sink has an error. -/
example : decompress File.noWords 60 100 false 7 [] [.data File.oddFile] [.took 2, .interrupted, .fail] = some ([97, 98], .ioErr) := by
  decide +kernel

/-- The file is cut off. -/
example : decompress File.noWords 60 100 false 7 [] [.data (File.oddFile.take 20)] [] = some ([], .noEnd) := by
  decide +kernel

/-- A file that is to be compressed is decompressed. -/
example : compressRaw (plain Codec.demoOpts File.noWords) File.noWords 60 100 (.new none) 7 false [.data (File.oddFile.take 3), .interrupted, .data (File.oddFile.drop 3)] [] =
    some ([97, 98, 99, 97, 98, 99, 97, 98, 99, 97, 98, 99, 97], .ok) := by
  decide +kernel

/-- A broken end marker, and a buffer full of bytes. -/
example : Frame.GoodHeader (Frame.makeHeader 22) 22 ∧
    decompress File.noWords 60 100 false 0 [] [.data (Frame.makeHeader 22 ++ 0xff :: 0xff :: List.replicate 4095 7)] [] = none := by
  have hg : Frame.GoodHeader (Frame.makeHeader 22) 22 := ⟨by decide +kernel, by decide +kernel, by decide +kernel, by decide, by decide⟩
  refine ⟨hg, decompress_tool_hangs _ 60 100 (by decide) false 0 _ (List.replicate 4095 7) 22 hg _ _ ?_ ?_ ?_ ?_⟩
  · intro h
    rcases List.mem_cons.1 h with h | h
    · injection h with h
      exact absurd (congrArg List.length h) (by rw [List.length_append]; decide +kernel)
    · cases h
  · intro h
    rcases List.mem_cons.1 h with h | h <;> cases h
  · exact List.append_nil _
  · rw [List.length_replicate]; decide

/-- The same marker, and fewer bytes: an error. -/
example : decompress File.noWords 60 100 false 0 [] [.data (Frame.makeHeader 22 ++ [0xff, 0xff, 1, 2])] [] = some ([], .noEnd) := by
  decide +kernel

/-- Three bytes and an interruption are six bytes. -/
example : ∃ f0 file, (∀ n rounds, f0 ≤ n → f0 ≤ rounds →
      compressRaw (plain Codec.demoOpts File.noWords) File.noWords n rounds (.new (some 10)) 0 true [.data [1, 2, 3], .interrupted] [] = some (file, .ok)) ∧
    Restores File.noWords file [1, 2, 3, 1, 2, 3] := by
  obtain ⟨f0, file, h1, h2, -⟩ := interrupted_read_doubles Codec.demoOpts File.noWords (some 10)
    (rawPm_valid rfl (by decide) (by decide) _ _) 0 [1, 2, 3] (by simp) (by decide) (by decide)
  exact ⟨f0, file, h1, h2⟩

/-- There and back in pieces. -/
example : ∃ f0 file, (∀ n rounds, f0 ≤ n → f0 ≤ rounds →
      compressRaw (plain Codec.demoOpts File.noWords) File.noWords n rounds (.new (some 10)) 2 false [.data [1, 2, 3], .data [4]] [.took 1, .interrupted] =
        some (file, .ok)) ∧
    ∀ src', Whole src' → .fail ∉ src' → srcBytes src' = file → ∃ f1, ∀ n rounds, f1 ≤ n → f1 ≤ rounds →
      decompress File.noWords n rounds false 3 [] src' [.interrupted, .took 2] = some ([1, 2, 3, 4], .ok) :=
  tools_round_trip_partial Codec.demoOpts File.noWords (some 10) (rawPm_valid rfl (by decide) (by decide) _ _) 2 3 false
    [.data [1, 2, 3], .data [4]] [.took 1, .interrupted] [.interrupted, .took 2] (by simp [Whole]) (by simp) (by simp) (by simp)
    (by simp) (by decide) (.inr (by decide)) false

end Divans.Cli
