import Verif.IrText
import Verif.CliProps
import Verif.TextProps

/-!
# C73, C74 and C75: the programs for the textual command format

`divans -i` compresses a text of commands, `divans -d -recode` carries the commands out.
-/

namespace Divans.Ir
open Divans.Io (Ev srcBytes)
open Divans.Cli (WEv Whole)
open Divans.Pipe Divans.Compressor
open Divans.Eng (Cfg)

/-! ## Specification -/

/-- A command of a text that both programs can carry out with a window of `L` bytes.  How the brotli crate packs prediction
modes, `pack`, and its dictionary, `dw`, are parameters. -/
structure Sound (o : Codec.Opts) (dw : Nat → Nat → Nat → List UInt8) (pack : Text.Pred → Codec.PmIn) (L : Nat) (c : Text.Cmd) :
    Prop where
  /-- it can be coded -/
  item : (item pack c).Valid o dw L
  /-- distances are positive and less than the window, and the announced size of a word is its size or 0 -/
  ring : Recode.Valid L (ringCmd dw c)

/-- The bytes that commands stand for. -/
def meaning (dw : Nat → Nat → Nat → List UInt8) (cs : List Text.Cmd) : List UInt8 := Recode.lz77 (cs.map (ringCmd dw))

/-- Copies refer to bytes that are there. -/
def Grounded (dw : Nat → Nat → Nat → List UInt8) (cs : List Text.Cmd) : Prop := Recode.InHistory 0 (cs.map (ringCmd dw))

/-! ## Lemmas -/

theorem expand_item (dw : Nat → Nat → Nat → List UInt8) (pack : Text.Pred → Codec.PmIn) : ∀ (cs : List Text.Cmd) (h : List UInt8),
    Recode.expand h ((cs.map (item pack)).map (Item.ringCmd dw)) = Recode.expand h (cs.map (ringCmd dw)) := by
  intro cs
  induction cs with
  | nil => intro h; rfl
  | cons c cs ih =>
    intro h
    have e : Recode.applyCmd h ((item pack c).ringCmd dw) = Recode.applyCmd h (ringCmd dw c) := by cases c <;> rfl
    simp only [List.map_cons, Recode.expand, List.foldl_cons] at ih ⊢
    rw [e, ih]

theorem original_item (dw : Nat → Nat → Nat → List UInt8) (pack : Text.Pred → Codec.PmIn) (cs : List Text.Cmd) :
    original dw (cs.map (item pack)) = meaning dw cs := expand_item dw pack cs []

theorem inHistory_item (dw : Nat → Nat → Nat → List UInt8) (pack : Text.Pred → Codec.PmIn) : ∀ (cs : List Text.Cmd) (n : Nat),
    Recode.InHistory n (cs.map (ringCmd dw)) → Recode.InHistory n ((cs.map (item pack)).map (Item.ringCmd dw)) := by
  intro cs
  induction cs with
  | nil => intro n h; exact h
  | cons c cs ih =>
    intro n h
    cases c with
    | copy num distance => exact ⟨h.1, h.2.1, ih _ h.2.2⟩
    | _ => exact ih _ h

theorem window_of {w : Int} (h1 : 10 ≤ w) (h2 : w ≤ 24) (o : Codec.Opts) (dw : Nat → Nat → Nat → List UInt8) :
    (⟨o, dw, some w⟩ : Cfg).ring = 2 ^ w.toNat := by
  unfold Cfg.ring Frame.windowOf
  congr 1
  simp
  omega

theorem outSize_pos : 0 < outSize := by decide

/-! ## C73 -/

/-- **C73, compressing.**  Any source and any sink.  The first line is that of the window, and the commands of the other lines,
up to the first that is wrong, can be carried out.  The program ends.  Either every line is good, no error is reported, and
the sink was given a file from which every decompressor restores exactly the bytes the commands stand for; or the first wrong
line is reported; or the sink had an error, and that is reported. -/
theorem compress_ir_tool_partial (o : Codec.Opts) (dw : Nat → Nat → Nat → List UInt8) (pack : Text.Pred → Codec.PmIn)
    (hr : ∀ L, (Item.pm rawPm).Valid o dw L) (src : List Ev) (sink : List WEv)
    {w : Int} {rest : List Read} (hw : firstLine false (reads [] src) = .ok (w, rest))
    (hv : ∀ c ∈ (script rest).1, Sound o dw pack (Cfg.ring ⟨o, dw, some w⟩) c) (hg : Grounded dw (script rest).1) :
    ∃ f0 file e, (∀ n rounds, f0 ≤ n → f0 ≤ rounds → compressIr o dw pack n rounds src sink = some (file, e)) ∧
      ((script rest).2 = .ok ∧ e = .ok ∧ Restores dw file (meaning dw (script rest).1) ∨
        (script rest).2 ≠ .ok ∧ e = (script rest).2 ∨ e = .ioErr ∧ Broken sink) := by
  have K := compressor_tells (g := ⟨o, dw, some w⟩) (hr _) outSize_pos
  obtain ⟨f0, j, e, h1, h2⟩ := tell_ok K (item pack) false rest ⟨.new (some w), sink, []⟩ [] []
    (cpOk_new ⟨o, dw, some w⟩) (by simp) (fun c hc => (hv c hc).item)
  refine ⟨f0, j.written, e, fun n k hn hk => ?_, ?_⟩
  · unfold compressIr
    rw [hw]
    simp only
    show Option.map _ (tell (compressor (Cfg.o ⟨o, dw, some w⟩) _) _ _ _ _ _ _ _ _) = _
    rw [h1 n k hn hk]
    rfl
  · rcases h2 with ⟨a, b, c⟩ | ⟨a, b⟩ | ⟨a, b⟩
    · refine .inl ⟨a, b, ?_⟩
      have := c (by simpa using inHistory_item dw pack _ 0 hg)
      rw [← original_item dw pack]
      simpa using this
    · refine .inr (.inl ⟨a, ?_⟩)
      rw [b]
      unfold verdict unwrap
      split <;> simp
    · refine .inr (.inr ⟨?_, b⟩)
      rcases a with a | a
      · exact a
      · exact a

/-- **C73, carrying out.**  Any source and any sink.  The first line is that of a window of 10 to 24 bits, and the commands of
the other lines, up to the first that is wrong, can be carried out.  The program ends.  Either every line is good, no error is
reported, and the sink was given exactly the bytes the commands stand for; or there is a wrong line, and the program fails; or
the sink had an error, and the program fails. -/
theorem recode_tool_partial (dw : Nat → Nat → Nat → List UInt8) (src : List Ev) (sink : List WEv) {w : Int} {rest : List Read}
    (hw : firstLine true (reads [] src) = .ok (w, rest)) (h1 : 10 ≤ w) (h2 : w ≤ 24)
    (hv : ∀ c ∈ (script rest).1, Recode.Valid (2 ^ w.toNat) (ringCmd dw c)) (hg : Grounded dw (script rest).1) :
    ∃ f0 file e, (∀ n rounds, f0 ≤ n → f0 ≤ rounds → recode dw n rounds src sink = some (file, e)) ∧
      ((script rest).2 = .ok ∧ e = .ok ∧ file = meaning dw (script rest).1 ∨
        (script rest).2 ≠ .ok ∧ e = (if (script rest).2 = .ioErr then .ioErr else .crash) ∨
        (e = .ioErr ∨ e = .crash) ∧ Broken sink) := by
  have hl : 1 < (List.replicate (2 ^ w.toNat) (0 : UInt8)).length := by
    rw [List.length_replicate]
    calc 1 < 2 ^ 10 := by decide
      _ ≤ 2 ^ w.toNat := Nat.pow_le_pow_right (by decide) (by omega)
  have K := recoder_tells (List.replicate (2 ^ w.toNat) 0) hl outSize_pos
  obtain ⟨f0, j, e, k1, k2⟩ := tell_ok K (ringCmd dw) true rest ⟨.new (List.replicate (2 ^ w.toNat) 0), sink, []⟩ [] []
    (rcOk_new _ hl) (by simp) (fun c hc => by rw [List.length_replicate]; exact hv c hc)
  refine ⟨f0, j.written, e, fun n k hn hk => ?_, ?_⟩
  · unfold recode
    rw [hw]
    simp only
    rw [if_pos ⟨h1, h2⟩, k1 n k hn hk]
    rfl
  · rcases k2 with ⟨a, b, c⟩ | ⟨a, b⟩ | ⟨a, b⟩
    · refine .inl ⟨a, b, ?_⟩
      rw [c]
      have := Recode.ring_spec (List.replicate (2 ^ w.toNat) 0) _ hg
      simpa [meaning] using this
    · refine .inr (.inl ⟨a, ?_⟩)
      rw [b]
      cases hs : (script rest).2 with
      | ok => exact absurd hs a
      | codecErr => exact absurd hs (script_not_codecErr _)
      | _ => rfl
    · refine .inr (.inr ⟨?_, b⟩)
      rcases a with a | a
      · exact .inl a
      · exact .inr a

/-- **C73, both.**  Any commands that can be carried out, printed one on a line after the window; three programs, each with any
source, in any pieces, with any interruptions, and any sink without errors.  `-i` and `-d -recode` both end without an error.
The one wrote exactly the bytes the commands stand for; and decompressing what the other wrote, with any bytes behind it,
ends without an error and writes the same bytes. -/
theorem ir_tools_agree_partial (o : Codec.Opts) (dw : Nat → Nat → Nat → List UInt8) (pack : Text.Pred → Codec.PmIn)
    (hr : ∀ L, (Item.pm rawPm).Valid o dw L) (w : Nat) (h1 : 10 ≤ w) (h2 : w ≤ 24)
    (cs : List Text.Cmd) (hp : ∀ c ∈ cs, Printable c) (hv : ∀ c ∈ cs, Sound o dw pack (2 ^ w) c) (hg : Grounded dw cs)
    (src src' : List Ev) (hw : Whole src) (hf : .fail ∉ src) (hs : srcBytes src = program w cs [])
    (hw' : Whole src') (hf' : .fail ∉ src') (hs' : srcBytes src' = program w cs [])
    (sink sink' : List WEv) (hb : ¬ Broken sink) (hb' : ¬ Broken sink') :
    ∃ f0 file, (∀ n rounds, f0 ≤ n → f0 ≤ rounds → compressIr o dw pack n rounds src sink = some (file, .ok) ∧
        recode dw n rounds src' sink' = some (meaning dw cs, .ok)) ∧
      ∀ skip size tail src2 sink2, Whole src2 → .fail ∉ src2 → srcBytes src2 = file ++ tail → .fail ∉ sink2 →
        ∃ f1, ∀ n rounds, f1 ≤ n → f1 ≤ rounds →
          Cli.decompress dw n rounds skip size [] src2 sink2 = some (meaning dw cs, .ok) := by
  have sc := script_printed cs hp
  have first : ∀ strict s, Whole s → Ev.fail ∉ s → srcBytes s = program w cs [] → firstLine strict (reads [] s) =
      .ok ((w : Int), (cs.map printed).map fun l => .line (l ++ [10])) := by
    intro strict s a b c
    rw [reads_whole a b, c, program_first (by omega) hp (by simp)]
    simp
  have hL := window_of (w := w) (by omega) (by omega) o dw
  rw [Int.toNat_natCast] at hL
  obtain ⟨fa, file, e, k1, k2⟩ := compress_ir_tool_partial o dw pack hr src sink (first false src hw hf hs)
    (by rw [sc, hL]; exact hv) (by rw [sc]; exact hg)
  obtain ⟨fb, out, e', k3, k4⟩ := recode_tool_partial dw src' sink' (first true src' hw' hf' hs') (by omega) (by omega)
    (by rw [sc, Int.toNat_natCast]; exact fun c hc => (hv c hc).ring) (by rw [sc]; exact hg)
  rw [sc] at k2 k4
  simp only [ne_eq, not_true_eq_false, false_and, false_or, true_and] at k2 k4
  replace k2 := k2.resolve_right fun h => hb h.2
  replace k4 := k4.resolve_right fun h => hb' h.2
  obtain ⟨rfl, k2⟩ := k2
  obtain ⟨rfl, rfl⟩ := k4
  refine ⟨max fa fb, file, fun n k hn hk => ⟨k1 n k (by omega) (by omega), k3 n k (by omega) (by omega)⟩, ?_⟩
  intro skip size tail src2 sink2 a b c d
  obtain ⟨f1, out, e, q1, q2⟩ := Cli.decompress_tool k2.1 skip size [] tail src2 sink2 a (by simpa using c)
  replace q2 := q2.resolve_right fun h => h.2.2.elim b d
  obtain ⟨rfl, rfl⟩ := q2
  exact ⟨f1, q1⟩

/-! ## C74 -/

theorem firstLine_strict {rs : List Read} {x : Int × List Read} (h : firstLine true rs = .ok x) : firstLine false rs = .ok x := by
  cases rs with
  | nil =>
    rw [firstLine] at h ⊢
    cases hp : Text.parseWindow [] with
    | ok v => rw [hp] at h; exact h
    | err => rw [hp] at h; cases h
    | panic => rw [hp] at h; cases h
  | cons r rest =>
    cases r with
    | fail => cases h
    | line l =>
      rw [firstLine] at h ⊢
      by_cases hv : Text.validUtf8 l = false
      · rw [if_pos hv] at h; cases h
      · rw [if_neg hv] at h ⊢
        cases hp : Text.parseWindow (trim l) with
        | ok v => rw [hp] at h; exact h
        | err => rw [hp] at h; cases h
        | panic => rw [hp] at h; cases h

/-- The first line is that of a window, and every other line is good: valid text, and a command or a line to skip. -/
def AllGood (rs : List Read) : Prop :=
  ∃ l w rest, rs = .line l :: rest ∧ Text.validUtf8 l = true ∧ Text.parseWindow (trim l) = .ok w ∧ ∀ r ∈ rest, GoodLine r

theorem firstLine_good {rs : List Read} {w : Int} {rest : List Read} (h : firstLine false rs = .ok (w, rest))
    (hg : ∀ r ∈ rest, GoodLine r) : AllGood rs := by
  cases rs with
  | nil =>
    have : Text.parseWindow [] = .err := by decide
    rw [firstLine, this] at h
    cases h
  | cons r t =>
    cases r with
    | fail => cases h
    | line l =>
      rw [firstLine] at h
      by_cases hv : Text.validUtf8 l = false
      · rw [if_pos hv] at h; cases h
      · rw [if_neg hv] at h
        cases hp : Text.parseWindow (trim l) with
        | ok v =>
          rw [hp] at h
          simp only [Except.ok.injEq, Prod.mk.injEq] at h
          obtain ⟨rfl, rfl⟩ := h
          exact ⟨l, v, t, rfl, by simpa using hv, hp, hg⟩
        | err => rw [hp] at h; cases h
        | panic => rw [hp] at h; cases h

/-- **C74.**  Any source, any sink, any commands.  A program that ends without an error has understood every line, and the source
had no error: no wrong line is passed over. -/
theorem no_line_passed_over (o : Codec.Opts) (dw : Nat → Nat → Nat → List UInt8) (pack : Text.Pred → Codec.PmIn) (n rounds : Nat)
    (src : List Ev) (sink : List WEv) (out : List UInt8)
    (h : compressIr o dw pack n rounds src sink = some (out, .ok) ∨ recode dw n rounds src sink = some (out, .ok)) :
    AllGood (reads [] src) := by
  rcases h with h | h
  · unfold compressIr at h
    cases hf : firstLine false (reads [] src) with
    | error e =>
      rw [hf] at h
      simp only [Option.some.injEq, Prod.mk.injEq] at h
      obtain ⟨-, rfl⟩ := h
      exfalso
      revert hf
      generalize reads [] src = rs
      intro hf
      cases rs with
      | nil =>
        have : Text.parseWindow [] = .err := by decide
        rw [firstLine, this] at hf
        cases hf
      | cons r t =>
        cases r with
        | fail => cases hf
        | line l =>
          rw [firstLine] at hf
          by_cases hv : Text.validUtf8 l = false
          · rw [if_pos hv] at hf; cases hf
          · rw [if_neg hv] at hf
            cases hp : Text.parseWindow (trim l) with
            | ok v => rw [hp] at hf; cases hf
            | err => rw [hp] at hf; cases hf
            | panic => rw [hp] at hf; cases hf
    | ok x =>
      obtain ⟨w, rest⟩ := x
      rw [hf] at h
      simp only [Option.map_eq_some_iff] at h
      obtain ⟨⟨j, e⟩, h, h'⟩ := h
      simp only [Prod.mk.injEq] at h'
      obtain ⟨-, rfl⟩ := h'
      exact firstLine_good hf ((script_good rest).1 (tell_good rest h))
  · unfold recode at h
    cases hf : firstLine true (reads [] src) with
    | error e =>
      rw [hf] at h
      simp only [Option.some.injEq, Prod.mk.injEq] at h
      obtain ⟨-, rfl⟩ := h
      exfalso
      revert hf
      generalize reads [] src = rs
      intro hf
      cases rs with
      | nil =>
        have : Text.parseWindow [] = .err := by decide
        rw [firstLine, this] at hf
        cases hf
      | cons r t =>
        cases r with
        | fail => cases hf
        | line l =>
          rw [firstLine] at hf
          by_cases hv : Text.validUtf8 l = false
          · rw [if_pos hv] at hf; cases hf
          · rw [if_neg hv] at hf
            cases hp : Text.parseWindow (trim l) with
            | ok v => rw [hp] at hf; cases hf
            | err => rw [hp] at hf; cases hf
            | panic => rw [hp] at hf; cases hf
    | ok x =>
      obtain ⟨w, rest⟩ := x
      rw [hf] at h
      simp only at h
      by_cases hw : 10 ≤ w ∧ w ≤ 24
      · rw [if_pos hw] at h
        simp only [Option.map_eq_some_iff] at h
        obtain ⟨⟨j, e⟩, h, h'⟩ := h
        simp only [Prod.mk.injEq] at h'
        obtain ⟨-, rfl⟩ := h'
        exact firstLine_good (firstLine_strict hf) ((script_good rest).1 (tell_good rest h))
      · rw [if_neg hw] at h
        cases h

/-- **C74, how a wrong line is reported.**  Commands that can be carried out, then a line that is wrong, then any lines.
Compressing ends and reports the wrong text.  Carrying out does not: the program panics. -/
theorem wrong_line_partial (o : Codec.Opts) (dw : Nat → Nat → Nat → List UInt8) (pack : Text.Pred → Codec.PmIn)
    (hr : ∀ L, (Item.pm rawPm).Valid o dw L) (w : Nat) (h1 : 10 ≤ w) (h2 : w ≤ 24)
    (cs : List Text.Cmd) (hp : ∀ c ∈ cs, Printable c) (hv : ∀ c ∈ cs, Sound o dw pack (2 ^ w) c) (hg : Grounded dw cs)
    (l : List UInt8) (more : List (List UInt8)) (hl : 10 ∉ l) (hmore : ∀ l ∈ more, 10 ∉ l)
    (hu : Text.validUtf8 (l ++ [10]) = true) (hx : Text.parse (trim (l ++ [10])) = .err)
    (src : List Ev) (hw : Whole src) (hf : .fail ∉ src) (hs : srcBytes src = program w cs (l :: more))
    (sink : List WEv) (hb : ¬ Broken sink) :
    ∃ f0 file out, ∀ n rounds, f0 ≤ n → f0 ≤ rounds → compressIr o dw pack n rounds src sink = some (file, .textErr) ∧
      recode dw n rounds src sink = some (out, .crash) := by
  have sc : script ((cs.map printed).map (fun l => .line (l ++ [10])) ++ (l :: more).map fun l => .line (l ++ [10])) =
      (cs, .textErr) := by
    rw [script_append cs _ hp, List.map_cons, script, if_neg (by rw [hu]; simp), hx]
    simp
  have first : ∀ strict, firstLine strict (reads [] src) = .ok ((w : Int), (cs.map printed).map (fun l => .line (l ++ [10])) ++
      (l :: more).map fun l => .line (l ++ [10])) := by
    intro strict
    rw [reads_whole hw hf, hs, program_first (by omega) hp (by
      intro x hx
      rcases List.mem_cons.1 hx with rfl | hx
      · exact hl
      · exact hmore x hx)]
  have hL := window_of (w := w) (by omega) (by omega) o dw
  rw [Int.toNat_natCast] at hL
  obtain ⟨fa, file, e, k1, k2⟩ := compress_ir_tool_partial o dw pack hr src sink (first false)
    (by rw [sc, hL]; exact hv) (by rw [sc]; exact hg)
  obtain ⟨fb, out, e', k3, k4⟩ := recode_tool_partial dw src sink (first true) (by omega) (by omega)
    (by rw [sc, Int.toNat_natCast]; exact fun c hc => (hv c hc).ring) (by rw [sc]; exact hg)
  rw [sc] at k2 k4
  have e1 : e = .textErr := by
    rcases k2 with h | h | h
    · exact absurd h.1 (by simp)
    · exact h.2
    · exact absurd h.2 hb
  have e2 : e' = .crash := by
    rcases k4 with h | h | h
    · exact absurd h.1 (by simp)
    · rw [h.2]; rfl
    · exact absurd h.2 hb
  subst e1 e2
  exact ⟨max fa fb, file, out, fun n k hn hk => ⟨k1 n k (by omega) (by omega), k3 n k (by omega) (by omega)⟩⟩

/-- A line of blanks is wrong. -/
theorem blank_line_wrong (l : List UInt8) (h : ∀ b ∈ l, blank1 b = true) : Text.parse (trim (l ++ [10])) = .err := by
  have : trim (l ++ [10]) = [] := by
    have hb : ∀ b ∈ l ++ [10], blank1 b = true := by
      intro b hb
      rcases List.mem_append.1 hb with hb | hb
      · exact h b hb
      · rw [List.mem_singleton.1 hb]; rfl
    revert hb
    generalize l ++ [10] = s
    intro hb
    have : trimStart s = [] := by
      induction s with
      | nil => rw [trimStart.eq_def]
      | cons x s ih =>
        rw [trimStart.eq_def]
        simp only [hb x (by simp), if_true]
        exact ih fun b h => hb b (by simp [h])
    rw [trim, this]
    decide
  rw [this]
  decide

/-! ## Non-vacuity -/

/-- Commands of several kinds. -/
def demoCmds : List Text.Cmd :=
  [.lit [104, 101, 108, 108, 111] false, .copy 6 3, .dict 4 4 77 0, .switchLit 1 3, .switchCmd 2, .lit [10, 32, 255] true, .copy 20 9]

theorem demo_printable : ∀ c ∈ demoCmds, Printable c := by
  simp [demoCmds, Printable, Text.Cmd.Fits]

theorem demo_sound (o : Codec.Opts) (ho : ∀ s < 16, Codec.strideOffer o s < 16) (pack : Text.Pred → Codec.PmIn) : ∀ c ∈ demoCmds, Sound o demoWords pack (2 ^ 10) c := by
  intro c hc
  simp only [demoCmds, List.mem_cons, List.not_mem_nil, or_false] at hc
  rcases hc with rfl | rfl | rfl | rfl | rfl | rfl | rfl
  all_goals refine ⟨⟨?_, ?_, fun p hp => by cases hp⟩, ?_⟩
  all_goals simp only [item, Item.head, Codec.Head.Valid, Item.ringCmd, ringCmd, Recode.Valid, demoWords, List.length_replicate]
  all_goals first | decide +kernel | exact fun _ => ho _ (by decide)

theorem demo_grounded : Grounded demoWords demoCmds := by
  simp [Grounded, demoCmds, ringCmd, Recode.InHistory, Recode.Cmd.size, demoWords]

/-- The hypotheses hold: the text in two pieces with an interruption, and a sink that takes it byte by byte at first. -/
example (pack : Text.Pred → Codec.PmIn) : ∃ src : List Ev, ∃ sink : List WEv, 4 < src.length ∧ Whole src ∧ .fail ∉ src ∧
    srcBytes src = program 10 demoCmds [] ∧ ¬ Broken sink ∧ sink ≠ [] ∧
    (∀ L, (Item.pm rawPm).Valid Codec.demoOpts demoWords L) ∧
    (∀ c ∈ demoCmds, Printable c ∧ Sound Codec.demoOpts demoWords pack (2 ^ 10) c) ∧ Grounded demoWords demoCmds ∧
    meaning demoWords demoCmds ≠ [] := by
  refine ⟨[.interrupted, .data ((program 10 demoCmds []).take 7), .interrupted, .data ((program 10 demoCmds []).drop 7), .interrupted],
    [.took 1, .interrupted, .took 1], by decide, ?_, by simp, ?_, ?_, by simp,
    fun L => rawPm_valid rfl (by decide) (by decide) _ L, fun c hc => ⟨demo_printable c hc, demo_sound Codec.demoOpts (by decide) pack c hc⟩, demo_grounded, by decide +kernel⟩
  · unfold Whole
    decide +kernel
  · simp [srcBytes]
  · simp [Broken]

/-- What the text looks like. -/
example : printed (.copy 6 3) = [99, 111, 112, 121, 32, 54, 32, 102, 114, 111, 109, 32, 51] ∧
    printed (.lit [10, 255] false) = [105, 110, 115, 101, 114, 116, 32, 50, 32, 48, 97, 102, 102] := by decide +kernel

/-- Blank lines and unknown words are wrong lines. -/
example : Text.parse (trim ([] ++ [10])) = .err ∧ Text.parse (trim ([9, 32] ++ [10])) = .err ∧
    Text.parse (trim ([104, 105] ++ [10])) = .err ∧ Text.validUtf8 ([104, 105] ++ [10]) = true :=
  ⟨blank_line_wrong [] (by simp), blank_line_wrong [9, 32] (by decide), by decide +kernel, by decide +kernel⟩

/-! ## C75 -/

/-- `flush` of the trait `Compressor` for the recoder, `/repo/src/cmd_to_raw/mod.rs:407-411`. -/
def traitFlush (s : Recode.St) (_room : Nat) : Recode.St × List UInt8 × Recode.Res := (s, [], .ok)

/-- **C75, the negation.**  Through the trait, a recoder that is given commands and an output that is full when the last
command is taken says that it needs more output; `flush` then says that all is done, and never gives the rest of the bytes,
however often it is called and however much room there is. -/
theorem trait_flush_loses (ring : List UInt8) (hr : 1 < ring.length) (cs : List Recode.Cmd)
    (hv : ∀ c ∈ cs, Recode.Valid ring.length c) (hi : Recode.InHistory 0 cs) (room : Nat) (s : Recode.St) (o : List UInt8)
    (h : Recode.encodeCommands (.new ring) cs room = .done ((s, o, .more), [])) (rooms : List Nat) :
    (∀ r ∈ rooms, traitFlush s r = (s, [], .ok)) ∧ o <+: Recode.lz77 cs ∧ o ≠ Recode.lz77 cs := by
  refine ⟨fun _ _ => rfl, ?_⟩
  obtain ⟨s', o', r, rest, h', k1, k2, k3, k4, k5, k6, k7, k8⟩ := encodeCommands_left _ hr cs hv ring (.new ring) [] room
    (by rw [(Recode.midway_zero ring cs (.new ring) rfl).1]; exact Recode.new_inv ring hr)
    (Recode.midway_zero ring cs (.new ring) rfl).2 (fun _ => rfl)
  rw [h] at k1
  simp only [Recode.Run.done.injEq, Prod.mk.injEq] at k1
  obtain ⟨⟨rfl, rfl, rfl⟩, rfl⟩ := k1
  have hp : 0 < Recode.pend s := by
    rcases k8 with k8 | k8
    · exact absurd k8.1 (by simp)
    · exact k8.2.2 rfl
  have hb := k6.bytes
  have e : Recode.midway h' [] s = h' := rfl
  have e2 : h' = Recode.expand ring cs := k5
  rw [e, e2, Recode.ring_spec ring cs hi, List.nil_append] at hb
  rw [← hb]
  refine ⟨List.prefix_append _ _, fun h0 => ?_⟩
  have h1 := congrArg List.length h0
  rw [List.length_append, Recode.pending_length _ k6.good] at h1
  omega

/-- The hypotheses hold: three bytes, and room for two. -/
example : ∃ s, Recode.encodeCommands (.new (List.replicate 8 0)) [.lit [1, 2, 3]] 2 = .done ((s, [1, 2], .more), []) ∧
    (∀ c ∈ [Recode.Cmd.lit [1, 2, 3]], Recode.Valid 8 c) ∧ Recode.InHistory 0 [.lit [1, 2, 3]] ∧
    Recode.lz77 [.lit [1, 2, 3]] = [1, 2, 3] := by
  refine ⟨_, rfl, by decide, ?_, rfl⟩
  simp [Recode.InHistory]

end Divans.Ir
