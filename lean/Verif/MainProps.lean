import Verif.Main
import Verif.ArgsProps
import Verif.FfiRun
import Verif.HybridCliProps
import Verif.WeightsProps

/-!
# What the command line program does with files: C79
-/

namespace Divans.Main
open Divans.Io (Ev srcBytes)
open Divans.Cli (WEv Whole magic)
open Divans.Args (Conf Step Setting Word Program settings names lastSaid)
open Divans.Cdf (Speed SafeSpeed)
open Divans.Compressor (Restores)
open Divans.Pipe (Item)

/-! ## Specification -/

/-- Files are read and written without errors, in any pieces. -/
structure Calm (h : Host) : Prop where
  whole : ∀ i bs, Whole (h.arrive i bs)
  bytes : ∀ i bs, srcBytes (h.arrive i bs) = bs
  source : ∀ i bs, .fail ∉ h.arrive i bs
  sink : ∀ i, .fail ∉ h.sink i

/-- No read is interrupted. -/
def Quiet (h : Host) : Prop := ∀ i bs, .interrupted ∉ h.arrive i bs

/-- A compressor with which `compress_raw` is faithful, on data within some limit: from any source without errors and
interruptions it writes a file from which every decompressor restores the data. -/
def Engine.Faithful (e : Engine) (dw : Nat → Nat → Nat → List UInt8) (limit : List UInt8 → Prop) : Prop :=
  ∀ (size : Nat) (force : Bool) (src : List Ev) (sink : List WEv), Whole src → .interrupted ∉ src → .fail ∉ src → .fail ∉ sink →
    limit (srcBytes src) → (force = true ∨ ¬ magic <+: srcBytes src) →
    ∃ f0 file, (∀ n rounds, f0 ≤ n → f0 ≤ rounds → Cli.compressRaw e.machine dw n rounds e.start size force src sink = some (file, .ok)) ∧
      Restores dw file (srcBytes src)

/-! ## Compressors that are faithful -/

theorem faithful_plain {c : Codec.Opts} {dw : Nat → Nat → Nat → List UInt8} {window : Option Int}
    (hpm : (Item.pm Compressor.rawPm).Valid c dw (2 ^ (Frame.windowOf window).toNat)) :
    Engine.Faithful ⟨Compressor.Comp, Cli.plain c dw, .new window⟩ dw fun d => d.length ≤ 3 * 2 ^ (Frame.windowOf window).toNat - 2 := by
  intro size force src sink hw hi hf hk hl hm
  obtain ⟨f0, file, e, h1, h2⟩ := Cli.compress_tool_partial c dw window hpm size force src sink hw hi hl hm
  rcases h2 with ⟨rfl, h2⟩ | ⟨-, h2⟩
  · exact ⟨f0, file, h1, h2⟩
  · exact absurd h2 (by simp [hf, hk])

/-- With an encoder of the brotli crate that keeps the contract, data of any length. -/
theorem faithful_hybrid {σ : Type} {b : Hybrid.Brotli σ} {g : Eng.Cfg} {I : Bool → σ → List UInt8 → List Item → Prop} {m : σ → Nat}
    (hb : Hybrid.Meets b g I m) {st : σ} (h0 : I false st [] []) :
    Engine.Faithful ⟨Hybrid.Hy σ, Hybrid.machine b g.o g.dw, .new g.window st⟩ g.dw fun _ => True := by
  intro size force src sink hw hi hf hk _ hm
  obtain ⟨f0, file, e, h1, h2⟩ := Hybrid.hybrid_tool_partial hb h0 size force src sink hw hi hm
  rcases h2 with ⟨rfl, h2⟩ | ⟨-, h2⟩
  · exact ⟨f0, file, h1, h2⟩
  · exact absurd h2 (by simp [hf, hk])

/-- Speeds that survive the file format and with which no distribution overflows. -/
def Gentle (sp : Speed) : Prop := 0 ≤ sp.inc ∧ sp.inc ≤ 5445 ∧ 0 ≤ sp.lim ∧ (sp.lim < 12288 ∨ sp.lim = 16384)

/-- Kernel check over an interval: the code of every value has seven bits. -/
def sevenBits : Nat → Nat → Bool
  | 0, _ => true
  | n + 1, x => decide (Weights.speedToU8 x < 128) && sevenBits n (x + 1)

theorem sevenBits_spec : ∀ (n x j : Nat), sevenBits n x = true → j < n → Weights.speedToU8 ((x + j : Nat) : Int) < 128
  | n + 1, x, 0, h, _ => by
    simp only [sevenBits, Bool.and_eq_true, decide_eq_true_eq] at h
    exact h.1
  | n + 1, x, j + 1, h, hj => by
    simp only [sevenBits, Bool.and_eq_true, decide_eq_true_eq] at h
    have := sevenBits_spec n (x + 1) j h.2 (by omega)
    rw [show x + (j + 1) = x + 1 + j by omega]
    exact this

theorem sevenBits_all : sevenBits 12288 0 = true := by decide +kernel

theorem value_arrives (x : Nat) (h : x < 12288 ∨ x = 16384) :
    Weights.speedToU8 (x : Int) % 128 = Weights.speedToU8 (x : Int) ∧
    ∃ y : Nat, Weights.u8ToSpeed (Weights.speedToU8 (x : Int)) = some (y : Int) ∧ y ≤ x ∧
      Weights.u8ToSpeed (Weights.speedToU8 (y : Int)) = some (y : Int) := by
  rcases h with h | rfl
  · refine ⟨Nat.mod_eq_of_lt (by have := sevenBits_spec _ 0 x sevenBits_all h; simpa using this), ?_⟩
    obtain ⟨y, h1, h2, h3, -⟩ := Weights.speed_nearest_partial x h
    obtain ⟨y, rfl⟩ := Int.eq_ofNat_of_zero_le h2
    refine ⟨y, h1, by exact_mod_cast h3, ?_⟩
    obtain ⟨z, g1, g2, g3, g4⟩ := Weights.speed_nearest_partial y (by omega)
    have hc : Weights.speedToU8 (x : Int) < 256 := by
      have := sevenBits_spec _ 0 x sevenBits_all h
      rw [Nat.zero_add] at this
      omega
    have := g4 _ _ hc h1 (by simp)
    rw [g1]
    congr 1
    omega
  · exact ⟨by decide +kernel, 16384, by decide +kernel, Nat.le_refl _, by decide +kernel⟩

theorem gentle_arrives {sp : Speed} (h : Gentle sp) : ∃ v, Lit.speedOf (Codec.speedArrives sp) = some v ∧ SafeSpeed v := by
  obtain ⟨inc, lim⟩ := sp
  obtain ⟨h1, h2, h3, h4⟩ := h
  simp only at h1 h2 h3 h4
  obtain ⟨a, rfl⟩ := Int.eq_ofNat_of_zero_le h1
  obtain ⟨b, rfl⟩ := Int.eq_ofNat_of_zero_le h3
  obtain ⟨p1, x, p2, p3, p4⟩ := value_arrives a (.inl (by omega))
  obtain ⟨q1, y, q2, q3, q4⟩ := value_arrives b (by omega)
  refine ⟨⟨x, y⟩, ?_, ⟨by simp, ?_, ?_⟩⟩
  · have : Codec.speedArrives ⟨(a : Int), (b : Int)⟩ = (Weights.speedToU8 (x : Int), Weights.speedToU8 (y : Int)) := by
      unfold Codec.speedArrives Codec.speedSent Codec.speedKept
      simp only [p1, q1, p2, q2, Option.getD_some]
    rw [this]
    unfold Lit.speedOf
    simp only [p4, q4]
    rw [if_pos ⟨by omega, by omega⟩]
  · show (x : Int) ≤ 5445
    omega
  · show (y : Int) ≤ 2 ^ 14
    omega

theorem gentle_valid {o : Codec.Opts}
    (ht : ∀ a b c d, o.adaptation = some (a, b, c, d) → Gentle a ∧ Gentle b ∧ Gentle c ∧ Gentle d)
    (hm : o.mixing < 8) (hd : o.priorDepth < 16)
    (dw : Nat → Nat → Nat → List UInt8) (L : Nat) : (Item.pm Compressor.rawPm).Valid o dw L := by
  cases ha : o.adaptation with
  | none => exact Compressor.rawPm_valid ha hm hd dw L
  | some t =>
    obtain ⟨a, b, c, d⟩ := t
    obtain ⟨h1, h2, h3, h4⟩ := ht a b c d ha
    have hw := Ffi.wanted_some ha (p := Compressor.rawPm) rfl
    refine ⟨⟨_, ⟨by decide, by decide, hm, hd, hw, ?_, by decide, fun _ => ⟨List.length_replicate, ?_⟩⟩⟩, trivial, ?_⟩
    · show ((List.range 64).map UInt8.ofNat).length ≤ 16384
      rw [List.length_map, List.length_range]
      omega
    · intro v hv
      rw [List.eq_of_mem_replicate hv]
      decide
    · rintro p hp w hw' sp hsp
      cases hp
      rw [hw] at hw'
      cases hw'
      have : Gentle sp := by
        simp only [List.mem_cons, List.not_mem_nil, or_false] at hsp
        rcases hsp with rfl | rfl | rfl | rfl <;> assumption
      exact gentle_arrives this

theorem settings_gentle : ∀ (ss : List Setting) (c : Conf), (∀ w p, Setting.pace w p ∈ ss → Gentle p.speed) →
    (∀ x, c.opts.adaptation = some x → Gentle x.1 ∧ Gentle x.2.1 ∧ Gentle x.2.2.1 ∧ Gentle x.2.2.2) →
    ∀ x, (ss.foldl Setting.effect c).opts.adaptation = some x → Gentle x.1 ∧ Gentle x.2.1 ∧ Gentle x.2.2.1 ∧ Gentle x.2.2.2 := by
  intro ss
  induction ss with
  | nil => intro c _ h; exact h
  | cons s t ih =>
    intro c hp h
    rw [List.foldl_cons]
    refine ih _ (fun w p hw => hp w p (by simp [hw])) ?_
    by_cases hs : ∃ w p, s = .pace w p
    · obtain ⟨w, p, rfl⟩ := hs
      have g := hp w p (by simp)
      have hput : ∀ i x, (Gentle x.1 ∧ Gentle x.2.1 ∧ Gentle x.2.2.1 ∧ Gentle x.2.2.2) →
          Gentle (Args.put i p.speed x).1 ∧ Gentle (Args.put i p.speed x).2.1 ∧ Gentle (Args.put i p.speed x).2.2.1 ∧
            Gentle (Args.put i p.speed x).2.2.2 := by
        rintro i x ⟨a, b, c, d⟩
        unfold Args.put
        split
        · exact ⟨g, b, c, d⟩
        · split
          · exact ⟨a, g, c, d⟩
          · split
            · exact ⟨a, b, g, d⟩
            · exact ⟨a, b, c, g⟩
      intro x hx
      simp only [Setting.effect, Conf.setSpeed] at hx
      cases ha : c.opts.adaptation with
      | none =>
        rw [ha] at hx
        cases hx
        exact ⟨g, g, g, g⟩
      | some y =>
        rw [ha] at hx
        simp only [Option.some.injEq] at hx
        subst hx
        have hy := h y ha
        split
        · exact hput _ _ hy
        · exact hput _ _ (hput _ _ hy)
    · have : (s.effect c).opts.adaptation = c.opts.adaptation := by
        cases s <;> first | rfl | exact absurd ⟨_, _, rfl⟩ hs
      rw [this]
      exact h

/-- **C79.**  Settings with `-nobrotli`, mixing below 8, prior depth below 16 and gentle speeds give a compressor that is faithful
up to three windows less two bytes of data. -/
theorem internal_faithful (v : Env) (ss : List Setting) (hi : ss.any Setting.isInternal = true)
    (hm : (lastSaid Setting.saysMixing ss).getD 1 % 256 < 8) (hd : (lastSaid Setting.saysDepth ss).getD 0 % 256 < 16)
    (hp : ∀ w p, Setting.pace w p ∈ ss → Gentle p.speed) :
    (v.engine (ss.foldl Setting.effect .default).opts).Faithful v.dw fun d =>
      d.length ≤ 3 * 2 ^ (Frame.windowOf (some (((lastSaid Setting.saysWindow ss).getD 22 : Nat) : Int))).toNat - 2 := by
  obtain ⟨n1, -, -, n4, n5, -, -, -⟩ := Args.last_number_counts ss
  obtain ⟨-, -, p3, -⟩ := Args.last_program_counts ss
  rw [if_pos hi] at p3
  have hg := settings_gentle ss .default hp (by intro x hx; cases hx)
  generalize (ss.foldl Setting.effect .default).opts = o at *
  have hmix : o.mixing.getD 0 < 8 := by rw [n4]; exact hm
  have hdep : o.priorDepth.getD 0 < 16 := by
    rw [n5]
    cases h : lastSaid Setting.saysDepth ss with
    | none => decide
    | some k => rw [h] at hd; exact hd
  unfold Env.engine
  rw [if_pos p3]
  have hc : Ffi.codecOpts o = some
      { priorDepth := o.priorDepth.getD 0
        adaptation := o.adaptation
        doContextMap := o.contextMap
        forceStride := o.stride
        mixing := if o.stride ≠ 0 ∧ o.mixing.getD 0 = 0 ∧ o.contextMap = true then 1 else o.mixing.getD 0 } :=
    if_pos (by omega)
  rw [hc, ← n1]
  refine faithful_plain (gentle_valid (fun a b c d h => hg _ h) ?_ hdep _ _)
  show (if _ then 1 else o.mixing.getD 0) < 8
  split
  · omega
  · exact hmix

/-! ## Runs -/

theorem overlay_self (a : List UInt8) : overlay a a = a := by
  unfold overlay
  simp

theorem set_same (fs : Files) (x : Name) (bs : List UInt8) : fs.set x bs x = some bs := if_pos rfl

theorem set_other (fs : Files) {x y : Name} (h : y ≠ x) (bs : List UInt8) : fs.set x bs y = fs y := if_neg h

/-- Runs that all succeed. -/
theorem runs_ok {h : Host} {run : Nat → Nat → List Ev → List WEv → Option (List UInt8 × Bool)} {inp out : Name} (hne : inp ≠ out)
    {bs : List UInt8} (P : List UInt8 → Prop)
    (hr : ∀ i, ∃ f0 w, (∀ n rounds, f0 ≤ n → f0 ≤ rounds → run n rounds (h.arrive i bs) (h.sink i) = some (w, true)) ∧ P w) :
    ∀ (k i : Nat) (fs : Files), fs inp = some bs → 0 < k →
      ∃ f0 fs' w t, (∀ n rounds, f0 ≤ n → f0 ≤ rounds → runs h (run n rounds) inp out k i fs = some (fs', true)) ∧
        (∀ x, x ≠ out → fs' x = fs x) ∧ P w ∧ fs' out = some (w ++ t) ∧
        (k = 1 → t = ((fs out).getD []).drop w.length) ∧
        ((∀ u, P u → u = w) → ((fs out).getD []).length ≤ w.length → t = []) := by
  intro k
  induction k with
  | zero => intro _ _ _ h; omega
  | succ k ih =>
    intro i fs hf _
    obtain ⟨f1, w, h1, h2⟩ := hr i
    have e : ∀ n rounds, f1 ≤ n → f1 ≤ rounds → runs h (run n rounds) inp out (k + 1) i fs =
        runs h (run n rounds) inp out k (i + 1) (fs.set out (overlay w ((fs out).getD []))) := by
      intro n r hn hr
      rw [runs, hf, Option.getD_some, h1 n r hn hr]
      rfl
    by_cases hk : k = 0
    · subst hk
      refine ⟨f1, _, w, _, fun n r a b => (e n r a b).trans rfl, fun x hx => set_other _ hx _, h2, set_same _ _ _, fun _ => rfl, ?_⟩
      intro _ hl
      exact List.drop_eq_nil_of_le hl
    · obtain ⟨f2, fs', w', t, g1, g2, g3, g4, -, g6⟩ := ih (i + 1) (fs.set out (overlay w ((fs out).getD [])))
        (by rw [set_other _ hne]; exact hf) (by omega)
      refine ⟨max f1 f2, fs', w', t, fun n r a b => ?_, fun x hx => ?_, g3, g4, fun h0 => absurd h0 (by omega), ?_⟩
      · rw [e n r (by omega) (by omega), g1 n r (by omega) (by omega)]
      · rw [g2 x hx, set_other _ hx]
      · intro hu hl
        refine g6 hu ?_
        have := hu w h2
        subst this
        rw [set_same, Option.getD_some]
        unfold overlay
        rw [List.drop_eq_nil_of_le hl, List.append_nil]

/-- The configuration arguments lead to. -/
def confOf (ws : List Word) : Conf :=
  { (settings ws).foldl Setting.effect .default with file0 := (names ws).headD [], file1 := (names ws).tail.headD [] }

theorem main_words (v : Env) (h : Host) (n rounds : Nat) (ws : List Word) (hv : ∀ w ∈ ws, w.Valid) (hn : (names ws).length ≤ 2) :
    main v h n rounds (ws.map Word.text) = work v h n rounds (confOf ws) := by
  unfold main
  rw [Args.arguments_understood ws hv hn]
  rfl

theorem names_ne (ws : List Word) (hv : ∀ w ∈ ws, w.Valid) : ∀ x ∈ names ws, x ≠ [] := by
  induction ws with
  | nil => intro x hx; simp [names] at hx
  | cons w t ih =>
    intro x hx
    cases w with
    | setting s => exact ih (fun w hw => hv w (by simp [hw])) x hx
    | file m =>
      rcases List.mem_cons.1 hx with rfl | hx
      · exact (hv (.file x) (by simp)).1
      · exact ih (fun w hw => hv w (by simp [hw])) x hx

theorem work_files (v : Env) (h : Host) (c : Conf) {bs : List UInt8} (h0 : c.file0 ≠ []) (h1 : c.file1 ≠ []) (hi : h.files c.file0 = some bs)
    (hc : h.creatable c.file1 = true) (n rounds : Nat) :
    work v h n rounds c = (runs h (once v n rounds c) c.file0 c.file1 c.benchmarks 0 (h.files.set c.file1 [])).map
      fun x => (x.1, [], if x.2 then .ok else .panic) := by
  unfold work
  rw [if_pos h0, hi]
  simp only
  rw [if_pos h1, if_pos hc]

/-- With an input and an output that can be opened: the runs. -/
theorem main_files (v : Env) (h : Host) (ws : List Word) (hv : ∀ w ∈ ws, w.Valid) {inp out : Name}
    (hn : names ws = [inp, out]) {bs : List UInt8} (hi : h.files inp = some bs) (hc : h.creatable out = true) (n rounds : Nat) :
    main v h n rounds (ws.map Word.text) =
      (runs h (once v n rounds (confOf ws)) inp out ((lastSaid Setting.saysRuns (settings ws)).getD 1) 0 (h.files.set out [])).map
        fun x => (x.1, [], if x.2 then .ok else .panic) := by
  have hne := names_ne ws hv
  rw [hn] at hne
  have e0 : (confOf ws).file0 = inp := by unfold confOf; rw [hn]; rfl
  have e1 : (confOf ws).file1 = out := by unfold confOf; rw [hn]; rfl
  have e2 : (confOf ws).benchmarks = (lastSaid Setting.saysRuns (settings ws)).getD 1 :=
    (Args.last_number_counts (settings ws)).2.2.2.2.2.2.1
  rw [main_words v h n rounds ws hv (by rw [hn]; exact Nat.le_refl 2), work_files v h _ (bs := bs) (by rw [e0]; exact hne inp (by simp))
    (by rw [e1]; exact hne out (by simp)) (by rw [e0]; exact hi) (by rw [e1]; exact hc), e0, e1, e2]

/-- What a run does when the settings ask for compression. -/
theorem once_compress (v : Env) (n rounds : Nat) (c : Conf) (hp : c.program = .compress) (src : List Ev) (sink : List WEv) :
    once v n rounds c src sink = (Cli.compressRaw (v.engine c.opts).machine v.dw n rounds (v.engine c.opts).start c.buffer c.force src
      sink).map fun x => (x.1, decide (x.2 = .ok)) := by
  unfold Args.Conf.program at hp
  unfold once
  by_cases h1 : c.doCompress = true
  · rw [if_pos h1] at hp
    by_cases h2 : c.raw = true
    · rw [if_neg (by simp [h2]), if_pos h1]
    · rw [if_neg h2] at hp; cases hp
  · rw [if_neg h1] at hp
    split at hp <;> cases hp

/-- What it does when they ask for decompression. -/
theorem once_decompress (v : Env) (n rounds : Nat) (c : Conf) (hp : c.program = .decompress) (src : List Ev) (sink : List WEv) :
    once v n rounds c src sink = (Cli.decompress v.dw n rounds c.skipCrc c.buffer [] src sink).map fun x => (x.1, decide (x.2 = .ok)) := by
  unfold Args.Conf.program at hp
  unfold once
  by_cases h1 : c.doCompress = true
  · rw [if_pos h1] at hp
    split at hp <;> cases hp
  · rw [if_neg h1] at hp
    by_cases h2 : c.recode = true
    · rw [if_pos h2] at hp; cases hp
    · rw [if_neg (by simp [h1]), if_neg h1, if_neg h2]

/-- Settings that ask for compression. -/
def Compresses (ss : List Setting) : Prop := (lastSaid Setting.says ss).getD .compress = .compress

/-- Settings that ask for decompression. -/
def Decompresses (ss : List Setting) : Prop := lastSaid Setting.says ss = some .decompress ∧ ss.any Setting.isRecode = false

theorem Compresses.program {ws : List Word} (h : Compresses (settings ws)) : (confOf ws).program = .compress := by
  show ((settings ws).foldl Setting.effect .default).program = _
  rw [(Args.last_program_counts (settings ws)).1, h]

theorem Decompresses.program {ws : List Word} (h : Decompresses (settings ws)) : (confOf ws).program = .decompress := by
  show ((settings ws).foldl Setting.effect .default).program = _
  rw [(Args.last_program_counts (settings ws)).1, h.1, h.2]
  rfl

theorem runs_pos {ss : List Setting} (hr : lastSaid Setting.saysRuns ss ≠ some 0) : 0 < (lastSaid Setting.saysRuns ss).getD 1 := by
  cases e : lastSaid Setting.saysRuns ss with
  | none => decide
  | some k =>
    rw [e] at hr
    exact Nat.pos_of_ne_zero fun h0 => hr (congrArg some h0)

/-! ## Theorems -/

/-- **C79, compressing a file.**  Settings in any order that ask for compression, an input and an output; the compressor they
lead to is faithful.  The program ends without an error, no file but the output is changed, and the output begins with a
file from which every decompressor restores the contents of the input.  With one run the output is that file. -/
theorem compress_file (v : Env) (h : Host) (hh : Calm h) (hq : Quiet h) (ws : List Word) (hv : ∀ w ∈ ws, w.Valid)
    {inp out : Name} (hn : names ws = [inp, out]) (hne : inp ≠ out) (hp : Compresses (settings ws))
    {limit : List UInt8 → Prop} (hf : (v.engine ((settings ws).foldl Setting.effect .default).opts).Faithful v.dw limit)
    (hr : lastSaid Setting.saysRuns (settings ws) ≠ some 0)
    {data : List UInt8} (hi : h.files inp = some data) (hl : limit data) (hc : h.creatable out = true)
    (hm : (settings ws).any Setting.isForced = true ∨ ¬ magic <+: data) :
    ∃ f0 fs' file tail, (∀ n rounds, f0 ≤ n → f0 ≤ rounds → main v h n rounds (ws.map Word.text) = some (fs', [], .ok)) ∧
      (∀ x, x ≠ out → fs' x = h.files x) ∧ fs' out = some (file ++ tail) ∧ Restores v.dw file data ∧
      (lastSaid Setting.saysRuns (settings ws) = none → tail = []) := by
  have hforce : (confOf ws).force = (settings ws).any Setting.isForced := (Args.last_program_counts (settings ws)).2.1
  have hprog := hp.program
  obtain ⟨f0, fs', w, t, h1, h2, h3, h4, h5, -⟩ := runs_ok (h := h)
    (run := fun n r => once v n r (confOf ws)) hne (bs := data)
    (fun w => Restores v.dw w data) (fun i => by
      obtain ⟨f0, file, g1, g2⟩ := hf (confOf ws).buffer (confOf ws).force
        (h.arrive i data) (h.sink i) (hh.whole _ _) (hq _ _) (hh.source _ _) (hh.sink _) (by rw [hh.bytes]; exact hl)
        (by rw [hh.bytes, hforce]; exact hm)
      refine ⟨f0, file, fun n r a b => ?_, by rw [hh.bytes] at g2; exact g2⟩
      rw [once_compress v n r _ hprog]
      exact congrArg (Option.map _) (g1 n r a b)) _ 0 (h.files.set out []) (by rw [set_other _ hne]; exact hi) (runs_pos hr)
  refine ⟨f0, fs', w, t, fun n r a b => ?_, fun x hx => by rw [h2 x hx, set_other _ hx], h4, h3, fun h0 => ?_⟩
  · rw [main_files v h ws hv hn hi hc]
    exact congrArg (Option.map _) (h1 n r a b)
  · rw [h5 (by rw [h0]; rfl), set_same]
    exact List.drop_nil

/-- **C79, decompressing a file.**  Settings in any order that ask for decompression, an input that begins with a file that
serves some data, and an output.  The program ends without an error, no file but the output is changed, and the output holds
the data. -/
theorem decompress_file (v : Env) (h : Host) (hh : Calm h) (ws : List Word) (hv : ∀ w ∈ ws, w.Valid)
    {inp out : Name} (hn : names ws = [inp, out]) (hne : inp ≠ out) (hp : Decompresses (settings ws))
    (hr : lastSaid Setting.saysRuns (settings ws) ≠ some 0)
    {file tail data : List UInt8} (hi : h.files inp = some (file ++ tail)) (hs : Call.Serves v.dw file data) (hc : h.creatable out = true) :
    ∃ f0 fs', (∀ n rounds, f0 ≤ n → f0 ≤ rounds → main v h n rounds (ws.map Word.text) = some (fs', [], .ok)) ∧
      (∀ x, x ≠ out → fs' x = h.files x) ∧ fs' out = some data := by
  have hprog := hp.program
  obtain ⟨f0, fs', w, t, h1, h2, h3, h4, -, h6⟩ := runs_ok (h := h)
    (run := fun n r => once v n r (confOf ws)) hne (bs := file ++ tail)
    (fun w => w = data) (fun i => by
      obtain ⟨f0, written, e, g1, g2⟩ := Cli.decompress_tool hs (confOf ws).skipCrc
        (confOf ws).buffer [] tail (h.arrive i (file ++ tail)) (h.sink i) (hh.whole _ _)
        (by rw [hh.bytes]; rfl)
      rcases g2 with ⟨rfl, rfl⟩ | ⟨-, -, g2⟩
      · refine ⟨f0, written, fun n r a b => ?_, rfl⟩
        rw [once_decompress v n r _ hprog]
        exact congrArg (Option.map _) (g1 n r a b)
      · exact absurd g2 (by simp [hh.source, hh.sink])) _ 0 (h.files.set out []) (by rw [set_other _ hne]; exact hi)
      (runs_pos hr)
  subst h3
  refine ⟨f0, fs', fun n r a b => ?_, fun x hx => by rw [h2 x hx, set_other _ hx], ?_⟩
  · rw [main_files v h ws hv hn hi hc]
    exact congrArg (Option.map _) (h1 n r a b)
  · rw [h4, h6 (fun u hu => hu) (by rw [set_same]; exact Nat.zero_le _), List.append_nil]

/-- **C79, there and back.**  `divans [settings] inp out`, then `divans -d [settings] out back`, with the compressor the first settings lead to faithful and any numbers of runs but 0: both end without an error,
`back` holds what `inp` held, and no other file but `out` is changed. -/
theorem files_round_trip (v : Env) (h : Host) (hh : Calm h) (hq : Quiet h) (ws ws' : List Word)
    (hv : ∀ w ∈ ws, w.Valid) (hv' : ∀ w ∈ ws', w.Valid) {inp out back : Name} (hn : names ws = [inp, out]) (hn' : names ws' = [out, back])
    (hne : inp ≠ out) (hne' : out ≠ back) (hp : Compresses (settings ws)) (hp' : Decompresses (settings ws'))
    {limit : List UInt8 → Prop} (hf : (v.engine ((settings ws).foldl Setting.effect .default).opts).Faithful v.dw limit)
    (hr : lastSaid Setting.saysRuns (settings ws) ≠ some 0) (hr' : lastSaid Setting.saysRuns (settings ws') ≠ some 0)
    {data : List UInt8} (hi : h.files inp = some data) (hl : limit data) (hc : h.creatable out = true)
    (hm : (settings ws).any Setting.isForced = true ∨ ¬ magic <+: data) :
    ∃ f0 fs', (∀ n rounds, f0 ≤ n → f0 ≤ rounds → main v h n rounds (ws.map Word.text) = some (fs', [], .ok)) ∧
      (∀ x, x ≠ out → fs' x = h.files x) ∧
      ∀ h' : Host, Calm h' → h'.files = fs' → h'.creatable back = true →
        ∃ f1 fs'', (∀ n rounds, f1 ≤ n → f1 ≤ rounds → main v h' n rounds (ws'.map Word.text) = some (fs'', [], .ok)) ∧
          (∀ x, x ≠ back → fs'' x = fs' x) ∧ fs'' back = some data := by
  obtain ⟨f0, fs', file, tail, h1, h2, h3, h4, -⟩ := compress_file v h hh hq ws hv hn hne hp hf hr hi hl hc hm
  refine ⟨f0, fs', h1, h2, fun h' g1 g2 g3 => ?_⟩
  subst g2
  exact decompress_file v h' g1 ws' hv' hn' hne' hp' hr' h3 h4.1 g3

/-- **C79, partial: with `-nobrotli`.**  The same for settings with `-nobrotli`, mixing below 8, prior depth below 16 and gentle
speeds, and data up to three windows less two bytes.  Missing: other settings and more data, for which it is not true (C27, C33, C39, C63). -/
theorem internal_files_round_trip_partial (v : Env) (h : Host) (hh : Calm h) (hq : Quiet h) (ws ws' : List Word)
    (hv : ∀ w ∈ ws, w.Valid) (hv' : ∀ w ∈ ws', w.Valid) {inp out back : Name} (hn : names ws = [inp, out]) (hn' : names ws' = [out, back])
    (hne : inp ≠ out) (hne' : out ≠ back) (hp : Compresses (settings ws)) (hp' : Decompresses (settings ws'))
    (hint : (settings ws).any Setting.isInternal = true) (hmix : (lastSaid Setting.saysMixing (settings ws)).getD 1 % 256 < 8)
    (hdep : (lastSaid Setting.saysDepth (settings ws)).getD 0 % 256 < 16) (hsp : ∀ w p, Setting.pace w p ∈ settings ws → Gentle p.speed)
    (hr : lastSaid Setting.saysRuns (settings ws) ≠ some 0) (hr' : lastSaid Setting.saysRuns (settings ws') ≠ some 0)
    {data : List UInt8} (hi : h.files inp = some data)
    (hl : data.length ≤ 3 * 2 ^ (Frame.windowOf (some (((lastSaid Setting.saysWindow (settings ws)).getD 22 : Nat) : Int))).toNat - 2)
    (hc : h.creatable out = true) (hm : (settings ws).any Setting.isForced = true ∨ ¬ magic <+: data) :
    ∃ f0 fs', (∀ n rounds, f0 ≤ n → f0 ≤ rounds → main v h n rounds (ws.map Word.text) = some (fs', [], .ok)) ∧
      (∀ x, x ≠ out → fs' x = h.files x) ∧
      ∀ h' : Host, Calm h' → h'.files = fs' → h'.creatable back = true →
        ∃ f1 fs'', (∀ n rounds, f1 ≤ n → f1 ≤ rounds → main v h' n rounds (ws'.map Word.text) = some (fs'', [], .ok)) ∧
          (∀ x, x ≠ back → fs'' x = fs' x) ∧ fs'' back = some data :=
  files_round_trip v h hh hq ws ws' hv hv' hn hn' hne hne' hp hp' (internal_faithful v (settings ws) hint hmix hdep hsp) hr hr' hi hl
    hc hm

/-- **C79, partial: with brotli.**  The same without `-nobrotli`, for data of any length, with an encoder of the brotli crate that
keeps the contract (C70). -/
theorem brotli_files_round_trip_partial (v : Env) {σ : Type} {b : Hybrid.Brotli σ} {o : Codec.Opts} {window : Option Int}
    {I : Bool → σ → List UInt8 → List Item → Prop} {m : σ → Nat} (hb : Hybrid.Meets b ⟨o, v.dw, window⟩ I m) {st : σ} (h0 : I false st [] [])
    (h : Host) (hh : Calm h) (hq : Quiet h) (ws ws' : List Word)
    (hv : ∀ w ∈ ws, w.Valid) (hv' : ∀ w ∈ ws', w.Valid) {inp out back : Name} (hn : names ws = [inp, out]) (hn' : names ws' = [out, back])
    (hne : inp ≠ out) (hne' : out ≠ back) (hp : Compresses (settings ws)) (hp' : Decompresses (settings ws'))
    (hint : (settings ws).any Setting.isInternal = false)
    (he : v.brotli ((settings ws).foldl Setting.effect .default).opts = ⟨Hybrid.Hy σ, Hybrid.machine b o v.dw, .new window st⟩)
    (hr : lastSaid Setting.saysRuns (settings ws) ≠ some 0) (hr' : lastSaid Setting.saysRuns (settings ws') ≠ some 0)
    {data : List UInt8} (hi : h.files inp = some data)
    (hc : h.creatable out = true) (hm : (settings ws).any Setting.isForced = true ∨ ¬ magic <+: data) :
    ∃ f0 fs', (∀ n rounds, f0 ≤ n → f0 ≤ rounds → main v h n rounds (ws.map Word.text) = some (fs', [], .ok)) ∧
      (∀ x, x ≠ out → fs' x = h.files x) ∧
      ∀ h' : Host, Calm h' → h'.files = fs' → h'.creatable back = true →
        ∃ f1 fs'', (∀ n rounds, f1 ≤ n → f1 ≤ rounds → main v h' n rounds (ws'.map Word.text) = some (fs'', [], .ok)) ∧
          (∀ x, x ≠ back → fs'' x = fs' x) ∧ fs'' back = some data := by
  refine files_round_trip v h hh hq ws ws' hv hv' hn hn' hne hne' hp hp' (limit := fun _ => True) ?_ hr hr' hi trivial hc hm
  obtain ⟨-, -, p3, -⟩ := Args.last_program_counts (settings ws)
  unfold Env.engine
  rw [hint] at p3
  rw [if_neg (by rw [p3]; simp), he]
  exact faithful_hybrid hb h0

/-! ## Standard input and output -/

theorem main_pipe (v : Env) (h : Host) (ws : List Word) (hv : ∀ w ∈ ws, w.Valid) (hn : names ws = [])
    (hr : (lastSaid Setting.saysRuns (settings ws)).getD 1 = 1) (n rounds : Nat) :
    main v h n rounds (ws.map Word.text) = (once v n rounds (confOf ws) h.stdin (h.sink 0)).map
      fun x => (h.files, x.1, if x.2 then .ok else .panic) := by
  have e0 : (confOf ws).file0 = [] := by unfold confOf; rw [hn]; rfl
  have e2 : (confOf ws).benchmarks = 1 := ((Args.last_number_counts (settings ws)).2.2.2.2.2.2.1).trans hr
  rw [main_words v h n rounds ws hv (by rw [hn]; exact Nat.zero_le _)]
  unfold work
  rw [if_neg (by rw [e0]; simp)]
  unfold toStdout
  rw [if_pos e2]

/-- **C79, as a filter.**  `divans [settings] < a > b`, then `divans -d [settings] < b > c`: both end without an error, no file is
changed, and what the second writes is what the first read. -/
theorem pipe_round_trip (v : Env) (h : Host) (ws ws' : List Word) (hv : ∀ w ∈ ws, w.Valid) (hv' : ∀ w ∈ ws', w.Valid)
    (hn : names ws = []) (hn' : names ws' = []) (hp : Compresses (settings ws)) (hp' : Decompresses (settings ws'))
    {limit : List UInt8 → Prop} (hf : (v.engine ((settings ws).foldl Setting.effect .default).opts).Faithful v.dw limit)
    (hr : (lastSaid Setting.saysRuns (settings ws)).getD 1 = 1) (hr' : (lastSaid Setting.saysRuns (settings ws')).getD 1 = 1)
    (hw : Whole h.stdin) (hi : .interrupted ∉ h.stdin) (he : .fail ∉ h.stdin) (hk : .fail ∉ h.sink 0) (hl : limit (srcBytes h.stdin))
    (hm : (settings ws).any Setting.isForced = true ∨ ¬ magic <+: srcBytes h.stdin) :
    ∃ f0 file, (∀ n rounds, f0 ≤ n → f0 ≤ rounds → main v h n rounds (ws.map Word.text) = some (h.files, file, .ok)) ∧
      Restores v.dw file (srcBytes h.stdin) ∧
      ∀ h' : Host, Whole h'.stdin → .fail ∉ h'.stdin → .fail ∉ h'.sink 0 → srcBytes h'.stdin = file →
        ∃ f1, ∀ n rounds, f1 ≤ n → f1 ≤ rounds → main v h' n rounds (ws'.map Word.text) = some (h'.files, srcBytes h.stdin, .ok) := by
  have hforce : (confOf ws).force = (settings ws).any Setting.isForced := (Args.last_program_counts (settings ws)).2.1
  obtain ⟨f0, file, g1, g2⟩ := hf (confOf ws).buffer (confOf ws).force h.stdin (h.sink 0) hw hi he hk hl (by rw [hforce]; exact hm)
  refine ⟨f0, file, fun n r a b => ?_, g2, fun h' k1 k2 k3 k4 => ?_⟩
  · rw [main_pipe v h ws hv hn hr, once_compress v n r _ hp.program]
    have := g1 n r a b
    exact congrArg (Option.map _) (congrArg (Option.map _) this)
  · obtain ⟨f1, written, e, q1, q2⟩ := Cli.decompress_tool g2.1 (confOf ws').skipCrc (confOf ws').buffer [] [] h'.stdin (h'.sink 0) k1
      (by rw [k4]; simp)
    rcases q2 with ⟨rfl, rfl⟩ | ⟨-, -, q2⟩
    · refine ⟨f1, fun n r a b => ?_⟩
      rw [main_pipe v h' ws' hv' hn' hr', once_decompress v n r _ hp'.program]
      exact congrArg (Option.map _) (congrArg (Option.map _) (q1 n r a b))
    · exact absurd q2 (by simp [k2, k3])

/-! ## What may go wrong -/

/-- The output, if the arguments name one. -/
def outputOf (as : List (List UInt8)) : Name :=
  match Args.args .default as with
  | .go c => c.file1
  | _ => []

theorem runs_others {h : Host} {run : List Ev → List WEv → Option (List UInt8 × Bool)} {inp out : Name} :
    ∀ (k i : Nat) (fs fs' : Files) (ok : Bool), runs h run inp out k i fs = some (fs', ok) → ∀ x, x ≠ out → fs' x = fs x := by
  intro k
  induction k with
  | zero =>
    intro i fs fs' ok h x _
    simp only [runs, Option.some.injEq, Prod.mk.injEq] at h
    rw [h.1]
  | succ k ih =>
    intro i fs fs' ok h0 x hx
    rw [runs] at h0
    split at h0
    · cases h0
    · rename_i w ok' _
      simp only at h0
      split at h0
      · rw [ih _ _ _ _ h0 x hx, set_other _ hx]
      · simp only [Option.some.injEq, Prod.mk.injEq] at h0
        rw [← h0.1, set_other _ hx]

/-- **C79, other files.**  Whatever the arguments, the files, the compressor, the errors and the end: no file but the one named as
output is changed, and none without an output. -/
theorem only_output_changes (v : Env) (h : Host) (n rounds : Nat) (as : List (List UInt8)) (fs' : Files) (so : List UInt8) (e : Exit)
    (hm : main v h n rounds as = some (fs', so, e)) (x : Name) (hx : x = outputOf as → x = []) : fs' x = h.files x := by
  unfold outputOf at hx
  unfold main at hm
  cases hc : Args.args .default as with
  | quit => rw [hc] at hm; simp only [Option.some.injEq, Prod.mk.injEq] at hm; rw [hm.1]
  | crash => rw [hc] at hm; simp only [Option.some.injEq, Prod.mk.injEq] at hm; rw [hm.1]
  | go c =>
    rw [hc] at hm hx
    simp only at hm hx
    have std : ∀ run src, toStdout h c run src = some (fs', so, e) → fs' x = h.files x := by
      intro run src h0
      unfold toStdout at h0
      split at h0
      · rw [Option.map_eq_some_iff] at h0
        obtain ⟨a, -, h0⟩ := h0
        simp only [Prod.mk.injEq] at h0
        rw [h0.1]
      · simp only [Option.some.injEq, Prod.mk.injEq] at h0
        rw [h0.1]
    unfold work at hm
    by_cases h0 : c.file0 ≠ []
    · rw [if_pos h0] at hm
      cases hf : h.files c.file0 with
      | none => rw [hf] at hm; simp only [Option.some.injEq, Prod.mk.injEq] at hm; rw [hm.1]
      | some bs =>
        rw [hf] at hm
        simp only at hm
        by_cases h1 : c.file1 ≠ []
        · rw [if_pos h1] at hm
          have hne : x ≠ c.file1 := fun he => h1 (he ▸ hx he)
          split at hm
          · rw [Option.map_eq_some_iff] at hm
            obtain ⟨⟨fs2, ok⟩, hm, he⟩ := hm
            simp only [Prod.mk.injEq] at he
            obtain ⟨rfl, -, -⟩ := he
            rw [runs_others _ _ _ _ _ hm x hne, set_other _ hne]
          · simp only [Option.some.injEq, Prod.mk.injEq] at hm
            rw [hm.1]
        · rw [if_neg h1] at hm
          exact std _ _ hm
    · rw [if_neg h0] at hm
      exact std _ _ hm

/-- **C79, no input.**  If there is no input of that name, nothing is changed, not even the output. -/
theorem no_input (v : Env) (h : Host) (ws : List Word) (hv : ∀ w ∈ ws, w.Valid) {inp out : Name} (hn : names ws = [inp, out])
    (hi : h.files inp = none) (n rounds : Nat) : main v h n rounds (ws.map Word.text) = some (h.files, [], .panic) := by
  have hne := names_ne ws hv
  rw [hn] at hne
  have e0 : (confOf ws).file0 = inp := by unfold confOf; rw [hn]; rfl
  rw [main_words v h n rounds ws hv (by rw [hn]; exact Nat.le_refl 2)]
  unfold work
  rw [if_pos (by rw [e0]; exact hne inp (by simp)), e0, hi]

/-- **C79, damaged input.**  Decompressing a file that is cut off: the program panics; what the output held before is lost, and it
holds a beginning of the data. -/
theorem cut_input (v : Env) (h : Host) (hh : Calm h) (ws : List Word) (hv : ∀ w ∈ ws, w.Valid)
    {inp out : Name} (hn : names ws = [inp, out]) (hne : inp ≠ out) (hp : Decompresses (settings ws))
    (hr : lastSaid Setting.saysRuns (settings ws) ≠ some 0)
    {file missing data : List UInt8} (hi : h.files inp = some file) (hm : missing ≠ []) (hs : Call.Serves v.dw (file ++ missing) data)
    (hc : h.creatable out = true) :
    ∃ f0 fs' part, (∀ n rounds, f0 ≤ n → f0 ≤ rounds → main v h n rounds (ws.map Word.text) = some (fs', [], .panic)) ∧
      fs' out = some part ∧ part <+: data := by
  obtain ⟨f0, written, e, g1, g2, g3⟩ := Cli.decompress_tool_cut hs (confOf ws).skipCrc (confOf ws).buffer [] missing
    (h.arrive 0 file) (h.sink 0) (hh.whole _ _) (by rw [hh.bytes]; rfl) hm
  have hok : decide (e = .ok) = false := by
    rcases g3 with rfl | ⟨rfl, -⟩ <;> rfl
  refine ⟨f0, (h.files.set out []).set out written, written, fun n r a b => ?_, set_same _ _ _, g2⟩
  rw [main_files v h ws hv hn hi hc]
  obtain ⟨k, hk⟩ : ∃ k, (lastSaid Setting.saysRuns (settings ws)).getD 1 = k + 1 := ⟨_, (Nat.succ_pred_eq_of_pos (runs_pos hr)).symm⟩
  rw [hk, runs, set_other _ hne, hi, Option.getD_some, once_decompress v n r _ hp.program, g1 n r a b]
  simp only [Option.map_some, hok, set_same, Option.getD_some, overlay, List.drop_nil, List.append_nil]
  rfl

/-- **C79, success.**  If decompressing a file, once, ends without an error, then the input begins with a complete file, with the right
checksum unless it is not to be checked, and the output holds all that `decode` gives for it. -/
theorem success_is_checked (v : Env) (h : Host) (hh : Calm h) (ws : List Word) (hv : ∀ w ∈ ws, w.Valid)
    {inp out : Name} (hn : names ws = [inp, out]) (hne : inp ≠ out) (hp : Decompresses (settings ws))
    (hr : (lastSaid Setting.saysRuns (settings ws)).getD 1 = 1) {bytes : List UInt8} (hi : h.files inp = some bytes)
    (hc : h.creatable out = true) (n rounds : Nat) (fs' : Files) (so : List UInt8)
    (hm : main v h n rounds (ws.map Word.text) = some (fs', so, .ok)) :
    ∃ file rest cs d data rets, bytes = file ++ rest ∧ Io.Complete ((settings ws).any Setting.isNoCrc) file ∧
      Call.calls v.dw n (.new ((settings ws).any Setting.isNoCrc)) bytes cs = some (.ok (d, rest, data, rets)) ∧ .success ∈ rets ∧
      fs' out = some data := by
  have hskip : (confOf ws).skipCrc = (settings ws).any Setting.isNoCrc := (Args.last_program_counts (settings ws)).2.2.2
  rw [main_files v h ws hv hn hi hc, hr, Option.map_eq_some_iff] at hm
  obtain ⟨⟨fs2, ok⟩, hm, he⟩ := hm
  simp only [Prod.mk.injEq] at he
  obtain ⟨rfl, -, he⟩ := he
  have hok : ok = true := by cases ok <;> simp_all
  subst hok
  rw [runs, set_other _ hne, hi, Option.getD_some, once_decompress v n rounds _ hp.program] at hm
  cases hd : Cli.decompress v.dw n rounds (confOf ws).skipCrc (confOf ws).buffer [] (h.arrive 0 bytes) (h.sink 0) with
  | none => rw [hd] at hm; simp at hm
  | some x =>
    obtain ⟨written, e⟩ := x
    rw [hd] at hm
    simp only [Option.map_some] at hm
    by_cases h0 : e = .ok
    · subst h0
      simp only [decide_true, if_true, runs, Option.some.injEq, Prod.mk.injEq, and_true, set_same, Option.getD_some, overlay,
        List.drop_nil, List.append_nil] at hm
      obtain ⟨cs, d, rest, data, rets, k1, -, k3⟩ := Cli.decompress_tool_any v.dw n rounds _ _ [] _ _ _ _ hd
      obtain ⟨rfl, k4, file, k5, k6⟩ := k3 rfl
      rw [List.nil_append, hh.bytes] at k1 k5
      rw [hskip] at k1 k6
      exact ⟨file, rest, cs, d, written, rets, k5, k6, k1, k4, by rw [← hm, set_same]⟩
    · rw [if_neg (by simp [h0])] at hm
      simp at hm

/-- **C79 fails when both names are the same.**  Compressing a file onto itself, with any compressor that is faithful on no data:
the program ends without an error, and what every decompressor restores from the file is nothing, whatever the file held. -/
theorem same_name_loses (v : Env) (h : Host) (hh : Calm h) (hq : Quiet h) (ws : List Word) (hv : ∀ w ∈ ws, w.Valid)
    {f : Name} (hn : names ws = [f, f]) (hp : Compresses (settings ws))
    {limit : List UInt8 → Prop} (hf : (v.engine ((settings ws).foldl Setting.effect .default).opts).Faithful v.dw limit)
    (hr : (lastSaid Setting.saysRuns (settings ws)).getD 1 = 1)
    {data : List UInt8} (hi : h.files f = some data) (hl : limit []) (hc : h.creatable f = true) :
    ∃ f0 fs' file, (∀ n rounds, f0 ≤ n → f0 ≤ rounds → main v h n rounds (ws.map Word.text) = some (fs', [], .ok)) ∧
      fs' f = some file ∧ Restores v.dw file [] := by
  obtain ⟨f0, file, g1, g2⟩ := hf (confOf ws).buffer (confOf ws).force (h.arrive 0 []) (h.sink 0) (hh.whole _ _) (hq _ _)
    (hh.source _ _) (hh.sink _) (by rw [hh.bytes]; exact hl) (.inr (by rw [hh.bytes]; decide))
  rw [hh.bytes] at g2
  refine ⟨f0, (h.files.set f []).set f file, file, fun n r a b => ?_, set_same _ _ _, g2⟩
  rw [main_files v h ws hv hn hi hc, hr, runs, set_same, Option.getD_some, once_compress v n r _ hp.program]
  rw [show Cli.compressRaw (v.engine (confOf ws).opts).machine v.dw n r (v.engine (confOf ws).opts).start (confOf ws).buffer
    (confOf ws).force (h.arrive 0 []) (h.sink 0) = some (file, .ok) from g1 n r a b]
  simp only [Option.map_some, decide_true, if_true, runs, set_same, Option.getD_some, overlay, List.drop_nil, List.append_nil]

/-- **C79 fails when both names are the same.**  Decompressing a file onto itself: the program panics and the file is empty,
whatever it held. -/
theorem same_name_destroys (v : Env) (h : Host) (hh : Calm h) (ws : List Word) (hv : ∀ w ∈ ws, w.Valid)
    {f : Name} (hn : names ws = [f, f]) (hp : Decompresses (settings ws)) (hr : lastSaid Setting.saysRuns (settings ws) ≠ some 0)
    {bytes : List UInt8} (hi : h.files f = some bytes) (hc : h.creatable f = true) :
    ∃ f0 fs', (∀ n rounds, f0 ≤ n → f0 ≤ rounds → main v h n rounds (ws.map Word.text) = some (fs', [], .panic)) ∧ fs' f = some [] := by
  obtain ⟨-, file, -, g⟩ := faithful_plain (c := Codec.demoOpts) (dw := v.dw) (window := none)
    (Compressor.rawPm_valid rfl (by decide) (by decide) _ _) 0 true [] [] (by simp [Whole]) (by simp) (by simp) (by simp)
    (Nat.zero_le _) (.inl rfl)
  have hne : file ≠ [] := by
    rintro rfl
    exact absurd (Cli.serves_magic g.1) (by decide)
  obtain ⟨f0, written, e, g1, g2, g3⟩ := Cli.decompress_tool_cut g.1 (confOf ws).skipCrc (confOf ws).buffer [] file
    (h.arrive 0 []) (h.sink 0) (hh.whole _ _) (by rw [hh.bytes]; rfl) hne
  have hw : written = [] := List.prefix_nil.1 g2
  subst hw
  have hok : decide (e = .ok) = false := by
    rcases g3 with rfl | ⟨rfl, -⟩ <;> rfl
  refine ⟨f0, (h.files.set f []).set f [], fun n r a b => ?_, set_same _ _ _⟩
  rw [main_files v h ws hv hn hi hc]
  obtain ⟨k, hk⟩ : ∃ k, (lastSaid Setting.saysRuns (settings ws)).getD 1 = k + 1 := ⟨_, (Nat.succ_pred_eq_of_pos (runs_pos hr)).symm⟩
  rw [hk, runs, set_same, Option.getD_some, once_decompress v n r _ hp.program, g1 n r a b]
  simp only [Option.map_some, hok, set_same, Option.getD_some, overlay, List.drop_nil, List.append_nil]
  rfl

/-- **C79 fails with no runs.**  `-benchmark=0`: the program ends without an error, and the output is empty. -/
theorem no_runs_empty (v : Env) (h : Host) (ws : List Word) (hv : ∀ w ∈ ws, w.Valid) {inp out : Name} (hn : names ws = [inp, out])
    (hr : lastSaid Setting.saysRuns (settings ws) = some 0) {data : List UInt8} (hi : h.files inp = some data)
    (hc : h.creatable out = true) (n rounds : Nat) :
    main v h n rounds (ws.map Word.text) = some (h.files.set out [], [], .ok) := by
  rw [main_files v h ws hv hn hi hc, hr]
  rfl

/-! ## The theorems are not vacuous -/

/-- A machine with one file; the bytes of files arrive one by one. -/
def demoHost : Host :=
  { files := fun x => if x = b!"in" then some [1, 2, 3, 1, 2, 3] else none
    creatable := fun _ => true
    arrive := fun _ bs => bs.map fun b => .data [b]
    stdin := []
    sink := fun _ => [.took 1, .interrupted, .took 2] }

theorem demo_calm (h : Host) (h1 : h.arrive = fun _ bs => bs.map fun b => .data [b]) (h2 : h.sink = fun _ => [.took 1, .interrupted, .took 2]) :
    Calm h ∧ Quiet h := by
  refine ⟨⟨?_, ?_, ?_, ?_⟩, ?_⟩
  · intro i bs; rw [h1]; simp [Whole]
  · intro i bs
    rw [h1]
    induction bs with
    | nil => rfl
    | cons b t ih => simp only [List.map_cons, srcBytes, List.singleton_append] at ih ⊢; rw [ih]
  · intro i bs; rw [h1]; simp
  · intro i; rw [h2]; simp
  · intro i bs; rw [h1]; simp

/-- `divans in -nobrotli -window=12 out -speed=2,1024 -benchmark=3`, then `divans -d -bs7 out back`. -/
example (v : Env) : ∃ f0 fs', (∀ n rounds, f0 ≤ n → f0 ≤ rounds → main v demoHost n rounds
      [b!"in", b!"-nobrotli", b!"-window=12", b!"out", b!"-speed=2,1024", b!"-benchmark=3"] = some (fs', [], .ok)) ∧
    (∀ x, x ≠ b!"out" → fs' x = demoHost.files x) ∧
    ∃ f1 fs'', (∀ n rounds, f1 ≤ n → f1 ≤ rounds → main v { demoHost with files := fs' } n rounds [b!"-d", b!"-bs7", b!"out", b!"back"] =
      some (fs'', [], .ok)) ∧ fs'' b!"back" = some [1, 2, 3, 1, 2, 3] := by
  have q := demo_calm demoHost rfl rfl
  obtain ⟨f0, fs', h1, h2, h3⟩ := internal_files_round_trip_partial v demoHost q.1 q.2
    [.file b!"in", .setting .internal, .setting (.window 12), .file b!"out", .setting (.pace 1 (.pair 2 1024)), .setting (.benchmark 3)]
    [.setting .decompress, .setting (.buffer 7), .file b!"out", .file b!"back"]
    (by
      intro w hw
      simp only [List.mem_cons, List.not_mem_nil, or_false] at hw
      rcases hw with rfl | rfl | rfl | rfl | rfl | rfl
      · exact ⟨by decide, by decide⟩
      · trivial
      · show 12 < 2 ^ 31; decide
      · exact ⟨by decide, by decide⟩
      · exact ⟨by decide, by decide⟩
      · show 3 < 2 ^ 64; decide)
    (by
      intro w hw
      simp only [List.mem_cons, List.not_mem_nil, or_false] at hw
      rcases hw with rfl | rfl | rfl | rfl
      · trivial
      · show 7 < 2 ^ 64; decide
      · exact ⟨by decide, by decide⟩
      · exact ⟨by decide, by decide⟩)
    (inp := b!"in") (out := b!"out") (back := b!"back") rfl rfl (by decide) (by decide) rfl ⟨rfl, rfl⟩ rfl (by decide) (by decide)
    (by
      intro w p hp
      simp only [settings, List.mem_cons, List.not_mem_nil, or_false, Setting.pace.injEq, reduceCtorEq, false_or] at hp
      obtain ⟨-, rfl⟩ := hp
      exact ⟨by decide, by decide, by decide, by decide⟩)
    (by decide) (by decide) (data := [1, 2, 3, 1, 2, 3]) rfl (by decide) rfl (.inr (by decide))
  obtain ⟨f1, fs'', k1, -, k3⟩ := h3 { demoHost with files := fs' } (demo_calm _ rfl rfl).1 rfl rfl
  have t1 : List.map Word.text [.file b!"in", .setting .internal, .setting (.window 12), .file b!"out",
      .setting (.pace 1 (.pair 2 1024)), .setting (.benchmark 3)] =
      [b!"in", b!"-nobrotli", b!"-window=12", b!"out", b!"-speed=2,1024", b!"-benchmark=3"] := by decide +kernel
  have t2 : List.map Word.text [.setting .decompress, .setting (.buffer 7), .file b!"out", .file b!"back"] =
      [b!"-d", b!"-bs7", b!"out", b!"back"] := by decide +kernel
  rw [t1] at h1
  rw [t2] at k1
  exact ⟨f0, fs', h1, h2, f1, fs'', k1, k3⟩

end Divans.Main
