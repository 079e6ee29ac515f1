import Verif.MainProps
import Verif.IrProps

/-!
# C83: texts of commands as files

`divans -i [settings] text out` compresses a text of commands, `divans -d -recode text out` carries the commands out: what becomes
of the files.
-/

namespace Divans.Main
open Divans.Io (Ev srcBytes)
open Divans.Cli (WEv Whole)
open Divans.Args (Conf Setting Word settings names lastSaid)
open Divans.Compressor (Restores)
open Divans.Pipe (Item)

/-! ## Specification -/

/-- Settings that ask for a text of commands to be compressed. -/
def Texts (ss : List Setting) : Prop := lastSaid Setting.says ss = some .compressText

/-- Settings that ask for a text of commands to be carried out. -/
def Recodes (ss : List Setting) : Prop := lastSaid Setting.says ss = some .decompress ∧ ss.any Setting.isRecode = true

/-- No write takes nothing. -/
def Steady (h : Host) : Prop := ∀ i, .took 0 ∉ h.sink i

/-! ## Lemmas -/

theorem Texts.program {ws : List Word} (h : Texts (settings ws)) : (confOf ws).program = .compressText := by
  show ((settings ws).foldl Setting.effect .default).program = _
  rw [(Args.last_program_counts (settings ws)).1, h]
  rfl

theorem Recodes.program {ws : List Word} (h : Recodes (settings ws)) : (confOf ws).program = .recode := by
  show ((settings ws).foldl Setting.effect .default).program = _
  rw [(Args.last_program_counts (settings ws)).1, h.1, h.2]
  rfl

theorem once_text (v : Env) (n rounds : Nat) (c : Conf) (hp : c.program = .compressText) {o : Codec.Opts} (ho : Ffi.codecOpts c.opts = some o)
    (src : List Ev) (sink : List WEv) :
    once v n rounds c src sink = (Ir.compressIr o v.dw v.pack n rounds src sink).map fun x => (x.1, decide (x.2 = .ok)) := by
  unfold Args.Conf.program at hp
  unfold once
  by_cases h1 : c.doCompress = true
  · rw [if_pos h1] at hp
    by_cases h2 : c.raw = true
    · rw [if_pos h2] at hp; cases hp
    · rw [if_pos ⟨h1, by simpa using h2⟩, ho]
  · rw [if_neg h1] at hp
    split at hp <;> cases hp

theorem once_recode (v : Env) (n rounds : Nat) (c : Conf) (hp : c.program = .recode) (src : List Ev) (sink : List WEv) :
    once v n rounds c src sink = (Ir.recode v.dw n rounds src sink).map fun x => (x.1, decide (x.2 = .ok)) := by
  unfold Args.Conf.program at hp
  unfold once
  by_cases h1 : c.doCompress = true
  · rw [if_pos h1] at hp
    split at hp <;> cases hp
  · rw [if_neg h1] at hp
    by_cases h2 : c.recode = true
    · rw [if_neg (by simp [h1]), if_neg h1, if_pos h2]
    · rw [if_neg h2] at hp; cases hp

/-- Settings in the safe range lead to options with which everything the compressor adds by itself can be coded. -/
theorem settings_opts (ss : List Setting)
    (hm : (lastSaid Setting.saysMixing ss).getD 1 % 256 < 8) (hd : (lastSaid Setting.saysDepth ss).getD 0 % 256 < 16)
    (hp : ∀ w p, Setting.pace w p ∈ ss → Gentle p.speed) :
    ∃ o, Ffi.codecOpts (ss.foldl Setting.effect .default).opts = some o ∧ ∀ dw L, (Item.pm Compressor.rawPm).Valid o dw L := by
  obtain ⟨-, -, -, n4, n5, -, -, -⟩ := Args.last_number_counts ss
  have hg := settings_gentle ss .default hp (by intro x hx; cases hx)
  generalize (ss.foldl Setting.effect .default).opts = o at *
  have hmix : o.mixing.getD 0 < 8 := by rw [n4]; exact hm
  have hdep : o.priorDepth.getD 0 < 16 := by
    rw [n5]
    cases h : lastSaid Setting.saysDepth ss with
    | none => decide
    | some k => rw [h] at hd; exact hd
  refine ⟨_, if_pos (by omega), fun dw L => gentle_valid (fun a b c d h => hg _ h) ?_ hdep _ _⟩
  show (if _ then 1 else o.mixing.getD 0) < 8
  split
  · omega
  · exact hmix

theorem not_broken {h : Host} (hh : Calm h) (hs : Steady h) (i : Nat) : ¬ Ir.Broken (h.sink i) := by
  rintro (h0 | h0)
  · exact hh.sink i h0
  · exact hs i h0

/-! ## Theorems -/

/-- **C83, compressing a text.**  Settings in any order with `-i`, mixing below 8, prior depth below 16 and gentle speeds; a file with
the printed text of commands that can be carried out.  The program ends without an error, no file but the output is changed, and
the output begins with a file from which every decompressor restores the bytes the commands stand for.  With one run the output is
that file. -/
theorem text_file_partial (v : Env) (h : Host) (hh : Calm h) (hs : Steady h) (ws : List Word) (hv : ∀ w ∈ ws, w.Valid)
    {inp out : Name} (hn : names ws = [inp, out]) (hne : inp ≠ out) (hp : Texts (settings ws))
    {o : Codec.Opts} (ho : Ffi.codecOpts ((settings ws).foldl Setting.effect .default).opts = some o)
    (hmix : (lastSaid Setting.saysMixing (settings ws)).getD 1 % 256 < 8)
    (hdep : (lastSaid Setting.saysDepth (settings ws)).getD 0 % 256 < 16) (hsp : ∀ w p, Setting.pace w p ∈ settings ws → Gentle p.speed)
    (hr : lastSaid Setting.saysRuns (settings ws) ≠ some 0)
    (w : Nat) (h1 : 10 ≤ w) (h2 : w ≤ 24) (cs : List Text.Cmd) (hc : ∀ c ∈ cs, Ir.Printable c) (hk : ∀ c ∈ cs, Ir.Sound o v.dw v.pack (2 ^ w) c)
    (hg : Ir.Grounded v.dw cs) (hi : h.files inp = some (Ir.program w cs [])) (hcr : h.creatable out = true) :
    ∃ f0 fs' file tail, (∀ n rounds, f0 ≤ n → f0 ≤ rounds → main v h n rounds (ws.map Word.text) = some (fs', [], .ok)) ∧
      (∀ x, x ≠ out → fs' x = h.files x) ∧ fs' out = some (file ++ tail) ∧ Restores v.dw file (Ir.meaning v.dw cs) ∧
      (lastSaid Setting.saysRuns (settings ws) = none → tail = []) := by
  obtain ⟨o', ho', hval⟩ := settings_opts (settings ws) hmix hdep hsp
  rw [ho] at ho'
  cases ho'
  have sc := Ir.script_printed cs hc
  have hL := Ir.window_of (w := w) (by omega) (by omega) o v.dw
  rw [Int.toNat_natCast] at hL
  obtain ⟨f0, fs', x, t, k1, k2, k3, k4, k5, -⟩ := runs_ok (h := h)
    (run := fun n r => once v n r (confOf ws)) hne (bs := Ir.program w cs [])
    (fun x => Restores v.dw x (Ir.meaning v.dw cs)) (fun i => by
      have first : Ir.firstLine false (Ir.reads [] (h.arrive i (Ir.program w cs []))) =
          .ok ((w : Int), (cs.map Ir.printed).map fun l => .line (l ++ [10])) := by
        rw [Ir.reads_whole (hh.whole _ _) (hh.source _ _), hh.bytes, Ir.program_first (by omega) hc (by simp)]
        simp
      obtain ⟨f0, file, e, g1, g2⟩ := Ir.compress_ir_tool_partial o v.dw v.pack (hval _) _ (h.sink i) first
        (by rw [sc, hL]; exact hk) (by rw [sc]; exact hg)
      rw [sc] at g2
      simp only [ne_eq, not_true_eq_false, false_and, false_or, true_and] at g2
      obtain ⟨rfl, g3⟩ := g2.resolve_right fun h => not_broken hh hs i h.2
      refine ⟨f0, file, fun n r a b => ?_, g3⟩
      rw [once_text v n r _ hp.program ho, g1 n r a b]
      rfl) _ 0 (h.files.set out []) (by rw [set_other _ hne]; exact hi) (runs_pos hr)
  refine ⟨f0, fs', x, t, fun n r a b => ?_, fun x hx => by rw [k2 x hx, set_other _ hx], k4, k3, fun h0 => ?_⟩
  · rw [main_files v h ws hv hn hi hcr]
    exact congrArg (Option.map _) (k1 n r a b)
  · rw [k5 (by rw [h0]; rfl), set_same]
    exact List.drop_nil

/-- **C83, carrying a text out.**  Any other settings with `-d` and `-recode`, and the same file: the program ends without an error, no
file but the output is changed, and the output holds the bytes the commands stand for. -/
theorem recode_file_partial (v : Env) (h : Host) (hh : Calm h) (hs : Steady h) (ws : List Word) (hv : ∀ w ∈ ws, w.Valid)
    {inp out : Name} (hn : names ws = [inp, out]) (hne : inp ≠ out) (hp : Recodes (settings ws))
    (hr : lastSaid Setting.saysRuns (settings ws) ≠ some 0)
    (w : Nat) (h1 : 10 ≤ w) (h2 : w ≤ 24) (cs : List Text.Cmd) (hc : ∀ c ∈ cs, Ir.Printable c)
    (hk : ∀ c ∈ cs, Recode.Valid (2 ^ w) (Ir.ringCmd v.dw c))
    (hg : Ir.Grounded v.dw cs) (hi : h.files inp = some (Ir.program w cs [])) (hcr : h.creatable out = true) :
    ∃ f0 fs', (∀ n rounds, f0 ≤ n → f0 ≤ rounds → main v h n rounds (ws.map Word.text) = some (fs', [], .ok)) ∧
      (∀ x, x ≠ out → fs' x = h.files x) ∧ fs' out = some (Ir.meaning v.dw cs) := by
  have sc := Ir.script_printed cs hc
  obtain ⟨f0, fs', x, t, k1, k2, k3, k4, -, k6⟩ := runs_ok (h := h)
    (run := fun n r => once v n r (confOf ws)) hne (bs := Ir.program w cs [])
    (fun x => x = Ir.meaning v.dw cs) (fun i => by
      have first : Ir.firstLine true (Ir.reads [] (h.arrive i (Ir.program w cs []))) =
          .ok ((w : Int), (cs.map Ir.printed).map fun l => .line (l ++ [10])) := by
        rw [Ir.reads_whole (hh.whole _ _) (hh.source _ _), hh.bytes, Ir.program_first (by omega) hc (by simp)]
        simp
      obtain ⟨f0, file, e, g1, g2⟩ := Ir.recode_tool_partial v.dw _ (h.sink i) first (by omega) (by omega)
        (by rw [sc, Int.toNat_natCast]; exact hk) (by rw [sc]; exact hg)
      rw [sc] at g2
      simp only [ne_eq, not_true_eq_false, false_and, false_or, true_and] at g2
      obtain ⟨rfl, g3⟩ := g2.resolve_right fun h => not_broken hh hs i h.2
      refine ⟨f0, file, fun n r a b => ?_, g3⟩
      rw [once_recode v n r _ hp.program, g1 n r a b]
      rfl) _ 0 (h.files.set out []) (by rw [set_other _ hne]; exact hi) (runs_pos hr)
  subst k3
  refine ⟨f0, fs', fun n r a b => ?_, fun x hx => by rw [k2 x hx, set_other _ hx], ?_⟩
  · rw [main_files v h ws hv hn hi hcr]
    exact congrArg (Option.map _) (k1 n r a b)
  · rw [k4, k6 (fun u hu => hu) (by rw [set_same]; exact Nat.zero_le _), List.append_nil]

/-- **C83, both ways.**  `divans -i [settings] text out`, then `divans -d [settings] out back`, then `divans -d -recode [settings] text
plain`: all end without an error, `back` and `plain` both hold the bytes the commands stand for, and the text is as it was. -/
theorem text_ways_agree_partial (v : Env) (h : Host) (hh : Calm h) (hs : Steady h) (ws ws' ws'' : List Word)
    (hv : ∀ w ∈ ws, w.Valid) (hv' : ∀ w ∈ ws', w.Valid) (hv'' : ∀ w ∈ ws'', w.Valid) {text out back plain : Name}
    (hn : names ws = [text, out]) (hn' : names ws' = [out, back]) (hn'' : names ws'' = [text, plain])
    (hne : text ≠ out) (hne' : out ≠ back) (hne2 : text ≠ back) (hne3 : text ≠ plain) (hne4 : back ≠ plain)
    (hp : Texts (settings ws)) (hp' : Decompresses (settings ws')) (hp'' : Recodes (settings ws''))
    {o : Codec.Opts} (ho : Ffi.codecOpts ((settings ws).foldl Setting.effect .default).opts = some o)
    (hmix : (lastSaid Setting.saysMixing (settings ws)).getD 1 % 256 < 8)
    (hdep : (lastSaid Setting.saysDepth (settings ws)).getD 0 % 256 < 16) (hsp : ∀ w p, Setting.pace w p ∈ settings ws → Gentle p.speed)
    (hr : lastSaid Setting.saysRuns (settings ws) ≠ some 0) (hr' : lastSaid Setting.saysRuns (settings ws') ≠ some 0)
    (hr'' : lastSaid Setting.saysRuns (settings ws'') ≠ some 0)
    (w : Nat) (h1 : 10 ≤ w) (h2 : w ≤ 24) (cs : List Text.Cmd) (hc : ∀ c ∈ cs, Ir.Printable c) (hk : ∀ c ∈ cs, Ir.Sound o v.dw v.pack (2 ^ w) c)
    (hg : Ir.Grounded v.dw cs) (hi : h.files text = some (Ir.program w cs [])) (hcr : ∀ x, h.creatable x = true) :
    ∃ f0 fs1 fs2 fs3, (∀ n rounds, f0 ≤ n → f0 ≤ rounds →
        main v h n rounds (ws.map Word.text) = some (fs1, [], .ok) ∧
        main v { h with files := fs1 } n rounds (ws'.map Word.text) = some (fs2, [], .ok) ∧
        main v { h with files := fs2 } n rounds (ws''.map Word.text) = some (fs3, [], .ok)) ∧
      fs3 back = some (Ir.meaning v.dw cs) ∧ fs3 plain = some (Ir.meaning v.dw cs) ∧ fs3 text = h.files text := by
  obtain ⟨fa, fs1, file, tail, a1, a2, a3, a4, -⟩ := text_file_partial v h hh hs ws hv hn hne hp ho hmix hdep hsp hr w h1 h2 cs hc hk hg
    hi (hcr _)
  obtain ⟨fb, fs2, b1, b2, b3⟩ := decompress_file v { h with files := fs1 } ⟨hh.whole, hh.bytes, hh.source, hh.sink⟩ ws' hv' hn' hne' hp'
    hr' a3 a4.1 (hcr _)
  obtain ⟨fc, fs3, c1, c2, c3⟩ := recode_file_partial v { h with files := fs2 } ⟨hh.whole, hh.bytes, hh.source, hh.sink⟩ hs ws'' hv'' hn''
    hne3 hp'' hr'' w h1 h2 cs hc (fun c h => (hk c h).ring) hg (by
      show fs2 text = _
      rw [b2 _ hne2]
      show fs1 text = _
      rw [a2 _ hne, hi]) (hcr _)
  refine ⟨max fa (max fb fc), fs1, fs2, fs3, fun n r p q => ⟨a1 n r (by omega) (by omega), b1 n r (by omega) (by omega),
    c1 n r (by omega) (by omega)⟩, ?_, c3, ?_⟩
  · rw [c2 _ hne4]; exact b3
  · rw [c2 _ hne3]
    show fs2 text = _
    rw [b2 _ hne2]
    exact a2 _ hne

/-- **C83, wrong lines.**  The text has a wrong line after commands that can be carried out: with `-i` and with `-d -recode` the program
panics, and what the output held before is lost. -/
theorem wrong_text_file_partial (v : Env) (h : Host) (hh : Calm h) (hs : Steady h) (ws : List Word) (hv : ∀ w ∈ ws, w.Valid)
    {inp out : Name} (hn : names ws = [inp, out]) (hne : inp ≠ out) (hp : Texts (settings ws) ∨ Recodes (settings ws))
    {o : Codec.Opts} (ho : Ffi.codecOpts ((settings ws).foldl Setting.effect .default).opts = some o)
    (hmix : (lastSaid Setting.saysMixing (settings ws)).getD 1 % 256 < 8)
    (hdep : (lastSaid Setting.saysDepth (settings ws)).getD 0 % 256 < 16) (hsp : ∀ w p, Setting.pace w p ∈ settings ws → Gentle p.speed)
    (hr : lastSaid Setting.saysRuns (settings ws) ≠ some 0)
    (w : Nat) (h1 : 10 ≤ w) (h2 : w ≤ 24) (cs : List Text.Cmd) (hc : ∀ c ∈ cs, Ir.Printable c) (hk : ∀ c ∈ cs, Ir.Sound o v.dw v.pack (2 ^ w) c)
    (hg : Ir.Grounded v.dw cs) (l : List UInt8) (more : List (List UInt8)) (hl : 10 ∉ l) (hmore : ∀ l ∈ more, 10 ∉ l)
    (hu : Text.validUtf8 (l ++ [10]) = true) (hx : Text.parse (Ir.trim (l ++ [10])) = .err)
    (hi : h.files inp = some (Ir.program w cs (l :: more))) (hcr : h.creatable out = true) :
    ∃ f0 fs' part, (∀ n rounds, f0 ≤ n → f0 ≤ rounds → main v h n rounds (ws.map Word.text) = some (fs', [], .panic)) ∧
      fs' out = some part := by
  obtain ⟨o', ho', hval⟩ := settings_opts (settings ws) hmix hdep hsp
  rw [ho] at ho'
  cases ho'
  obtain ⟨f0, file, plain, g⟩ := Ir.wrong_line_partial o v.dw v.pack (hval _) w h1 h2 cs hc hk hg l more hl hmore hu hx
    (h.arrive 0 (Ir.program w cs (l :: more))) (hh.whole _ _) (hh.source _ _) (hh.bytes _ _) (h.sink 0) (not_broken hh hs 0)
  obtain ⟨k, hk⟩ : ∃ k, (lastSaid Setting.saysRuns (settings ws)).getD 1 = k + 1 := ⟨_, (Nat.succ_pred_eq_of_pos (runs_pos hr)).symm⟩
  rcases hp with hp | hp
  · refine ⟨f0, (h.files.set out []).set out file, file, fun n r a b => ?_, set_same _ _ _⟩
    rw [main_files v h ws hv hn hi hcr, hk, runs, set_other _ hne, hi, Option.getD_some, once_text v n r _ hp.program ho, (g n r a b).1]
    simp only [Option.map_some, set_same, Option.getD_some, overlay, List.drop_nil, List.append_nil]
    rfl
  · refine ⟨f0, (h.files.set out []).set out plain, plain, fun n r a b => ?_, set_same _ _ _⟩
    rw [main_files v h ws hv hn hi hcr, hk, runs, set_other _ hne, hi, Option.getD_some, once_recode v n r _ hp.program, (g n r a b).2]
    simp only [Option.map_some, set_same, Option.getD_some, overlay, List.drop_nil, List.append_nil]
    rfl

/-- **C83, success.**  Any settings with `-i` or `-d -recode`, in or out of the safe range, any bytes in the input and any sink: if the
program ends without an error, every line of the input was understood. -/
theorem text_success_understood (v : Env) (h : Host) (hh : ∀ i bs, Whole (h.arrive i bs) ∧ .fail ∉ h.arrive i bs ∧ srcBytes (h.arrive i bs) = bs)
    (ws : List Word) (hv : ∀ w ∈ ws, w.Valid)
    {inp out : Name} (hn : names ws = [inp, out]) (hne : inp ≠ out) (hp : Texts (settings ws) ∨ Recodes (settings ws))
    (hr : lastSaid Setting.saysRuns (settings ws) ≠ some 0) {bytes : List UInt8} (hi : h.files inp = some bytes)
    (hcr : h.creatable out = true) (n rounds : Nat) (fs' : Files) (so : List UInt8)
    (hm : main v h n rounds (ws.map Word.text) = some (fs', so, .ok)) : Ir.AllGood (Ir.linesOf bytes) := by
  obtain ⟨q1, q2, q3⟩ := hh 0 bytes
  rw [← q3, ← Ir.reads_whole q1 q2]
  obtain ⟨k, hk⟩ : ∃ k, (lastSaid Setting.saysRuns (settings ws)).getD 1 = k + 1 := ⟨_, (Nat.succ_pred_eq_of_pos (runs_pos hr)).symm⟩
  rw [main_files v h ws hv hn hi hcr, hk, Option.map_eq_some_iff] at hm
  obtain ⟨⟨fs2, ok⟩, hm, he⟩ := hm
  have hok : ok = true := by cases ok <;> simp_all
  subst hok
  rw [runs, set_other _ hne, hi, Option.getD_some] at hm
  cases ho : once v n rounds (confOf ws) (h.arrive 0 bytes) (h.sink 0) with
  | none => rw [ho] at hm; cases hm
  | some x =>
    obtain ⟨x, b⟩ := x
    rw [ho] at hm
    simp only at hm
    cases b with
    | false => rw [if_neg (by simp)] at hm; cases hm
    | true =>
      rcases hp with hp | hp
      · cases hc : Ffi.codecOpts (confOf ws).opts with
        | none =>
          exfalso
          have hp := hp.program
          unfold Args.Conf.program at hp
          unfold once at ho
          by_cases h1 : (confOf ws).doCompress = true
          · rw [if_pos h1] at hp
            by_cases h2 : (confOf ws).raw = true
            · rw [if_pos h2] at hp; cases hp
            · rw [if_pos ⟨h1, by simpa using h2⟩, hc] at ho
              cases ho
          · rw [if_neg h1] at hp
            split at hp <;> cases hp
        | some o =>
          rw [once_text v n rounds _ hp.program hc, Option.map_eq_some_iff] at ho
          obtain ⟨⟨y, e⟩, ho, hb⟩ := ho
          simp only [Prod.mk.injEq, decide_eq_true_eq] at hb
          obtain ⟨rfl, rfl⟩ := hb
          exact Ir.no_line_passed_over o v.dw v.pack n rounds _ _ _ (.inl ho)
      · rw [once_recode v n rounds _ hp.program, Option.map_eq_some_iff] at ho
        obtain ⟨⟨y, e⟩, ho, hb⟩ := ho
        simp only [Prod.mk.injEq, decide_eq_true_eq] at hb
        obtain ⟨rfl, rfl⟩ := hb
        exact Ir.no_line_passed_over Codec.demoOpts v.dw v.pack n rounds _ _ _ (.inr ho)

/-! ## The theorems are not vacuous -/

/-- A machine with a text of commands. -/
def textHost (more : List (List UInt8)) : Host :=
  { demoHost with files := fun x => if x = b!"in" then some (Ir.program 10 Ir.demoCmds more) else none }

theorem text_host_steady (more : List (List UInt8)) : Steady (textHost more) := by
  intro i
  show WEv.took 0 ∉ [WEv.took 1, .interrupted, .took 2]
  simp

/-- `divans in -i out -speed=2,1024 -stride=2`, then `divans -d out back`, then `divans -recode in -d plain`. -/
example (pack : Text.Pred → Codec.PmIn) (br : Ffi.Options → Engine) :
    ∃ f0 fs1 fs2 fs3, (∀ n rounds, f0 ≤ n → f0 ≤ rounds →
      main ⟨Pipe.demoWords, pack, br⟩ (textHost []) n rounds [b!"in", b!"-i", b!"out", b!"-speed=2,1024", b!"-stride=2"] = some (fs1, [], .ok) ∧
      main ⟨Pipe.demoWords, pack, br⟩ { textHost [] with files := fs1 } n rounds [b!"-d", b!"out", b!"back"] = some (fs2, [], .ok) ∧
      main ⟨Pipe.demoWords, pack, br⟩ { textHost [] with files := fs2 } n rounds [b!"--recode", b!"in", b!"-d", b!"plain"] = some (fs3, [], .ok)) ∧
      fs3 b!"back" = fs3 b!"plain" ∧ fs3 b!"back" = some (Ir.meaning Pipe.demoWords Ir.demoCmds) ∧
      Ir.meaning Pipe.demoWords Ir.demoCmds ≠ [] := by
  obtain ⟨f0, fs1, fs2, fs3, h1, h2, h3, -⟩ := text_ways_agree_partial ⟨Pipe.demoWords, pack, br⟩ (textHost []) (demo_calm _ rfl rfl).1
    (text_host_steady _)
    [.file b!"in", .setting .ofText, .file b!"out", .setting (.pace 1 (.pair 2 1024)), .setting (.theStride 2)]
    [.setting .decompress, .file b!"out", .file b!"back"]
    [.setting .recode, .file b!"in", .setting .decompress, .file b!"plain"]
    (by
      intro w hw
      simp only [List.mem_cons, List.not_mem_nil, or_false] at hw
      rcases hw with rfl | rfl | rfl | rfl | rfl
      · exact ⟨by decide, by decide⟩
      · trivial
      · exact ⟨by decide, by decide⟩
      · exact ⟨by decide, by decide⟩
      · exact ⟨by decide, by decide⟩)
    (by
      intro w hw
      simp only [List.mem_cons, List.not_mem_nil, or_false] at hw
      rcases hw with rfl | rfl | rfl
      · trivial
      · exact ⟨by decide, by decide⟩
      · exact ⟨by decide, by decide⟩)
    (by
      intro w hw
      simp only [List.mem_cons, List.not_mem_nil, or_false] at hw
      rcases hw with rfl | rfl | rfl | rfl
      · trivial
      · exact ⟨by decide, by decide⟩
      · trivial
      · exact ⟨by decide, by decide⟩)
    (text := b!"in") (out := b!"out") (back := b!"back") (plain := b!"plain") rfl rfl rfl (by decide) (by decide) (by decide) (by decide)
    (by decide) rfl ⟨rfl, rfl⟩ ⟨rfl, rfl⟩ rfl (by decide) (by decide)
    (by
      intro w p hp
      simp only [settings, List.mem_cons, List.not_mem_nil, or_false, Setting.pace.injEq, reduceCtorEq, false_or] at hp
      obtain ⟨-, rfl⟩ := hp
      exact ⟨by decide, by decide, by decide, by decide⟩)
    (by decide) (by decide) (by decide) 10 (by decide) (by decide) Ir.demoCmds Ir.demo_printable
    (Ir.demo_sound _ (by decide +revert) pack) Ir.demo_grounded rfl (fun _ => rfl)
  have t1 : List.map Word.text [.file b!"in", .setting .ofText, .file b!"out", .setting (.pace 1 (.pair 2 1024)), .setting (.theStride 2)] =
      [b!"in", b!"-i", b!"out", b!"-speed=2,1024", b!"-stride=2"] := by decide +kernel
  have t2 : List.map Word.text [.setting .decompress, .file b!"out", .file b!"back"] = [b!"-d", b!"out", b!"back"] := by decide +kernel
  have t3 : List.map Word.text [.setting .recode, .file b!"in", .setting .decompress, .file b!"plain"] =
      [b!"--recode", b!"in", b!"-d", b!"plain"] := by decide +kernel
  rw [t1, t2, t3] at h1
  exact ⟨f0, fs1, fs2, fs3, h1, h2.trans h3.symm, h2, by decide +kernel⟩

/-- A wrong line that meets the hypotheses. -/
example : 10 ∉ b!"hello" ∧ Text.validUtf8 (b!"hello" ++ [10]) = true ∧ Text.parse (Ir.trim (b!"hello" ++ [10])) = .err := by decide +kernel

end Divans.Main
