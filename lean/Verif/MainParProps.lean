import Verif.MainPar
import Verif.MainProps
import Verif.ParFreeProps

/-!
# What the command line program does with a worker thread: C89
-/

namespace Divans.Par
open Divans.Cli (Whole)
open Divans.Io (srcBytes bufSize)

variable {dw : Nat → Nat → Nat → List UInt8} {file data : List UInt8}

/-- `Frees` is what `freed` comes to. -/
theorem frees_freed {p : St} {o : Freed} (h : p.Frees o) : ∃ k, ∀ n, k ≤ n → p.freed n = some o := by
  induction h with
  | ended e => exact ⟨1, fun n hn => by obtain ⟨n, rfl⟩ := Nat.exists_eq_add_of_le' hn; rw [St.freed, e]⟩
  | stuck e => exact ⟨1, fun n hn => by obtain ⟨n, rfl⟩ := Nat.exists_eq_add_of_le' hn; rw [St.freed, e]⟩
  | panicked e => exact ⟨1, fun n hn => by obtain ⟨n, rfl⟩ := Nat.exists_eq_add_of_le' hn; rw [St.freed, e]⟩
  | on e _ ih =>
    obtain ⟨k, ih⟩ := ih
    refine ⟨k + 1, fun n hn => ?_⟩
    obtain ⟨n, rfl⟩ : ∃ m, n = m + 1 := ⟨n - 1, by omega⟩
    rw [St.freed, e]
    exact ih n (by omega)

theorem unpacked_ok (hs : Serves dw file data) (sched : Sched) (skip : Bool) (size : Nat) (extra tail : List UInt8)
    (src : List Io.Ev) (sink : List Cli.WEv) (hw : Whole src) (he : extra ++ srcBytes src = file ++ tail) :
    ∃ f0 written e d, (∀ n rounds, f0 ≤ n → f0 ≤ rounds → unpacked sched dw skip n rounds size extra src sink = some (written, e, d)) ∧
      (e = .ok ∧ written = data ∨ e = .ioErr ∧ written <+: data ∧ (.fail ∈ src ∨ .fail ∈ sink)) := by
  have hb := Io.bufSize_pos size
  obtain ⟨f0, s', e, h1, h2⟩ := unpackLoop_ok (missing := []) (tail := tail) (follows (sched := sched) (skip := skip) hs) (.inl rfl)
    (cap := max (bufSize size) extra.length) (size := bufSize size) (by omega) hb _
    ⟨(.new skip, 0), extra, extra.length, [], src, sink, []⟩ [] rfl (by
      simp only [List.append_nil]; rw [he]; exact reached_new 0) rfl List.nil_prefix hw (Nat.zero_le _)
  refine ⟨f0, s'.written, e, s'.dec.1, fun n k hn hk => ?_, ?_⟩
  · rw [unpacked, h1 n k hn hk]; rfl
  · rcases h2 with ⟨a, -, b⟩ | ⟨-, a, -⟩ | h2
    · exact .inl ⟨a, b⟩
    · exact absurd rfl a
    · exact .inr h2

theorem unpacked_cut (hs : Serves dw file data) (sched : Sched) (skip : Bool) (size : Nat) (extra missing : List UInt8)
    (src : List Io.Ev) (sink : List Cli.WEv) (hw : Whole src) (he : extra ++ srcBytes src ++ missing = file) (hm : missing ≠ []) :
    ∃ f0 written e d, (∀ n rounds, f0 ≤ n → f0 ≤ rounds → unpacked sched dw skip n rounds size extra src sink = some (written, e, d)) ∧
      written <+: data ∧ (e = .noEnd ∨ e = .ioErr ∧ (.fail ∈ src ∨ .fail ∈ sink)) := by
  have hb := Io.bufSize_pos size
  obtain ⟨f0, s', e, h1, h2⟩ := unpackLoop_ok (missing := missing) (tail := []) (follows_nil (sched := sched) (skip := skip) hs) (.inr rfl)
    (cap := max (bufSize size) extra.length) (size := bufSize size) (by omega) hb _
    ⟨(.new skip, 0), extra, extra.length, [], src, sink, []⟩ [] rfl (by
      simp only; rw [he]; exact reached_new 0) rfl List.nil_prefix hw (Nat.zero_le _)
  refine ⟨f0, s'.written, e, s'.dec.1, fun n k hn hk => ?_, ?_⟩
  · rw [unpacked, h1 n k hn hk]; rfl
  · rcases h2 with ⟨-, a, -⟩ | ⟨a, -, b⟩ | ⟨a, b, c⟩
    · exact absurd a hm
    · exact ⟨b, .inl a⟩
    · exact ⟨b, .inr ⟨a, c⟩⟩

/-- The decompressor the program frees has a history. -/
theorem unpacked_past {sched : Sched} {n rounds : Nat} {skip : Bool} {size : Nat}
    {extra : List UInt8} {src : List Io.Ev} {sink : List Cli.WEv} {written : List UInt8} {e : Cli.Outcome} {d : Dec}
    (h : unpacked sched dw skip n rounds size extra src sink = some (written, e, d)) :
    ∃ cs rest out rets, History dw (.new skip) (extra ++ srcBytes src) cs d rest out rets ∧ (e = .ok → .success ∈ rets) := by
  unfold unpacked at h
  rw [Option.map_eq_some_iff] at h
  obtain ⟨⟨s', e'⟩, h1, h2⟩ := h
  simp only [Prod.mk.injEq] at h2
  obtain ⟨-, rfl, rfl⟩ := h2
  obtain ⟨rest, out, rets, ⟨cs, g1⟩, g2⟩ := unpackLoop_dec (skip := skip) (whole := extra ++ Io.srcBytes src) rounds _ _ _ [] []
    (by exact ⟨[], .nil _ _⟩) h1
  exact ⟨cs, rest, out, rets, g1, g2⟩

end Divans.Par

namespace Divans.Main
open Divans.Io (Ev srcBytes)
open Divans.Cli (WEv Whole magic)
open Divans.Args (Conf Step Setting Word Program settings names lastSaid)
open Divans.Compressor (Restores)

/-! ## Specification -/

/-- A setting that switches the thread off. -/
def isSerial : Setting → Bool
  | .serial => true
  | _ => false

/-- Settings with which the program uses a worker thread. -/
def Threaded (ss : List Setting) : Prop := ss.any isSerial = false

/-! ## Decompressing -/

theorem parallel_iff (ws : List Word) : (confOf ws).parallel = !(settings ws).any isSerial := by
  show ((settings ws).foldl Setting.effect .default).parallel = _
  have := Args.any_fold isSerial (fun c => !c.parallel) (by intro s c; cases s <;> simp [Setting.effect, isSerial, Conf.setSpeed])
    (settings ws) .default
  simp only [Conf.default, Bool.not_true, Bool.false_or] at this
  rw [← this, Bool.not_not]
  rfl

/-- Once the loop has ended: what becomes of the program, whatever the number of steps. -/
theorem unpackFree_settles {t : Timing} {dw : Nat → Nat → Nat → List UInt8} {skip : Bool} {size : Nat}
    {extra : List UInt8} {src : List Ev} {sink : List WEv} {f0 : Nat} {written : List UInt8} {e : Cli.Outcome} {d : Par.Dec}
    (h : ∀ n rounds, f0 ≤ n → f0 ≤ rounds → Par.unpacked t.sched dw skip n rounds size extra src sink = some (written, e, d)) :
    ∃ f1 r, (∀ n rounds, f1 ≤ n → f1 ≤ rounds → unpackFree t dw n rounds skip size extra src sink = r) ∧
      (r = none ∨ r = some (written, .crash) ∨ r = some (written, e)) ∧ (e = .ok → r = some (written, e)) := by
  by_cases he : e = .codecErr ∨ e = .crash
  · refine ⟨f0, some (written, e), fun n r a b => ?_, .inr (.inr rfl), fun _ => rfl⟩
    unfold unpackFree
    rw [h n r a b]
    simp only
    rw [if_pos he]
  obtain ⟨cs, rest, out, rets, hh, hok⟩ := Par.unpacked_past (h f0 f0 (Nat.le_refl _) (Nat.le_refl _))
  cases hst : d.stage with
  | header got =>
    refine ⟨f0, some (written, e), fun n r a b => ?_, .inr (.inr rfl), fun _ => rfl⟩
    unfold unpackFree
    rw [h n r a b]
    simp only
    rw [if_neg he, hst]
  | body p =>
    obtain ⟨o, ho, -⟩ := (Par.free_settles dw skip _ cs d rest out rets hh).2.1 p (p.works t.moment) hst (Par.works_ok _ _)
    obtain ⟨k, hk⟩ := Par.frees_freed ho
    have hend : e = .ok → o = .returns := fun h0 =>
      (Par.free_after_success dw skip _ cs d rest out rets hh (.inl (hok h0)) o).1
        (by unfold Par.Dec.Frees; rw [hst]; exact ⟨_, Par.works_ok _ _, ho⟩)
    clear ho
    refine ⟨max f0 k, if o = .returns then some (written, e) else if o = .panics then some (written, .crash) else none,
      fun n r a b => ?_, ?_, fun h0 => by rw [if_pos (hend h0)]⟩
    · unfold unpackFree
      rw [h n r (by omega) (by omega)]
      simp only
      rw [if_neg he, hst]
      simp only
      rw [hk n (by omega)]
      cases o <;> rfl
    · cases o <;> simp

theorem unpack_ok {dw : Nat → Nat → Nat → List UInt8} {file data : List UInt8} (hs : Call.Serves dw file data) (hs' : Par.Serves dw file data)
    (par : Bool) (t : Timing) (skip : Bool) (size : Nat) (extra tail : List UInt8) (src : List Ev) (sink : List WEv) (hw : Whole src)
    (he : extra ++ srcBytes src = file ++ tail) (hf : .fail ∉ src) (hk : .fail ∉ sink) :
    ∃ f0, ∀ n rounds, f0 ≤ n → f0 ≤ rounds → unpack par t dw n rounds skip size extra src sink = some (data, .ok) := by
  cases par with
  | false =>
    obtain ⟨f0, written, e, g1, g2⟩ := Cli.decompress_tool hs skip size extra tail src sink hw he
    rcases g2 with ⟨rfl, rfl⟩ | ⟨-, -, g2⟩
    · exact ⟨f0, g1⟩
    · exact absurd g2 (by simp [hf, hk])
  | true =>
    obtain ⟨f0, written, e, d, g1, g2⟩ := Par.unpacked_ok hs' t.sched skip size extra tail src sink hw he
    rcases g2 with ⟨rfl, rfl⟩ | ⟨-, -, g2⟩
    · obtain ⟨f1, r, k1, -, k3⟩ := unpackFree_settles g1
      rw [k3 rfl] at k1
      exact ⟨f1, k1⟩
    · exact absurd g2 (by simp [hf, hk])

theorem unpack_cut {dw : Nat → Nat → Nat → List UInt8} {file data : List UInt8} (hs : Call.Serves dw file data) (hs' : Par.Serves dw file data)
    (par : Bool) (t : Timing) (skip : Bool) (size : Nat) (extra missing : List UInt8) (src : List Ev) (sink : List WEv) (hw : Whole src)
    (he : extra ++ srcBytes src ++ missing = file) (hm : missing ≠ []) :
    ∃ f0 r, (∀ n rounds, f0 ≤ n → f0 ≤ rounds → unpack par t dw n rounds skip size extra src sink = r) ∧
      (par = true ∧ r = none ∨ ∃ written e, r = some (written, e) ∧ e ≠ .ok ∧ written <+: data) := by
  cases par with
  | false =>
    obtain ⟨f0, written, e, g1, g2, g3⟩ := Cli.decompress_tool_cut hs skip size extra missing src sink hw he hm
    exact ⟨f0, _, g1, .inr ⟨written, e, rfl, by rcases g3 with rfl | ⟨rfl, -⟩ <;> simp, g2⟩⟩
  | true =>
    obtain ⟨f0, written, e, d, g1, g2, g3⟩ := Par.unpacked_cut hs' t.sched skip size extra missing src sink hw he hm
    obtain ⟨f1, r, k1, k2, -⟩ := unpackFree_settles g1
    refine ⟨f1, r, k1, ?_⟩
    rcases k2 with rfl | rfl | rfl
    · exact .inl ⟨rfl, rfl⟩
    · exact .inr ⟨written, .crash, rfl, by simp, g2⟩
    · exact .inr ⟨written, e, rfl, by rcases g3 with rfl | ⟨rfl, -⟩ <;> simp, g2⟩

theorem unpack_any {par : Bool} {t : Timing} {dw : Nat → Nat → Nat → List UInt8} {n rounds : Nat} {skip : Bool} {size : Nat} {extra : List UInt8}
    {src : List Ev} {sink : List WEv} {written : List UInt8} (h : unpack par t dw n rounds skip size extra src sink = some (written, .ok)) :
    ∃ file rest, extra ++ srcBytes src = file ++ rest ∧ Io.Complete skip file ∧
      (par = true → ∃ cs d rets, Par.History dw (.new skip) (extra ++ srcBytes src) cs d rest written rets ∧ .success ∈ rets) ∧
      (par = false → ∃ cs d rets, Call.calls dw n (.new skip) (extra ++ srcBytes src) cs = some (.ok (d, rest, written, rets)) ∧ .success ∈ rets) := by
  cases par with
  | false =>
    obtain ⟨cs, d, rest, out, rets, k1, -, k3⟩ := Cli.decompress_tool_any dw n rounds skip size extra src sink written .ok h
    obtain ⟨rfl, k4, file, k5, k6⟩ := k3 rfl
    exact ⟨file, rest, k5, k6, by simp, fun _ => ⟨cs, d, rets, k1, k4⟩⟩
  | true =>
    have hd : Par.decompress (Par.threaded t.sched dw) (Par.Dec.new skip, 0) n rounds size extra src sink = some (written, .ok) := by
      have h' : unpackFree t dw n rounds skip size extra src sink = some (written, .ok) := h
      unfold unpackFree at h'
      rw [← Par.unpacked_decompress]
      cases hu : Par.unpacked t.sched dw skip n rounds size extra src sink with
      | none => rw [hu] at h'; cases h'
      | some x =>
        obtain ⟨w, e, d⟩ := x
        rw [hu] at h'
        simp only at h'
        by_cases he : e = .codecErr ∨ e = .crash
        · rw [if_pos he] at h'
          cases h'
          rcases he with he | he <;> cases he
        · rw [if_neg he] at h'
          cases hst : d.stage with
          | header got => rw [hst] at h'; cases h'; rfl
          | body p =>
            rw [hst] at h'
            simp only at h'
            rcases hf : (p.works t.moment).freed n with _ | _ | _ | _
            all_goals rw [hf] at h'
            all_goals cases h'
            rfl
    obtain ⟨cs, d, rest, out, rets, k1, -, k3⟩ := Par.threaded_tool_any t.sched dw n rounds skip size extra src sink written .ok hd
    obtain ⟨rfl, k4, file, k5, k6⟩ := k3 rfl
    exact ⟨file, rest, k5, k6, fun _ => ⟨cs, d, rets, k1, List.mem_of_getLast? k4⟩, by simp⟩

/-- Compressing data that is not a file of this format: no thread. -/
theorem compressRaw_same {κ : Type} (par : Bool) (t : Timing) (m : Cli.Machine κ) (dw : Nat → Nat → Nat → List UInt8) (n rounds : Nat) (c : κ)
    (size : Nat) (force : Bool) (src : List Ev) (sink : List WEv) (hw : Whole src) (hm : force = true ∨ ¬ magic <+: srcBytes src) :
    compressRaw par t m dw n rounds c size force src sink = Cli.compressRaw m dw n rounds c size force src sink := by
  unfold compressRaw Cli.compressRaw
  cases force with
  | true => rfl
  | false =>
    simp only [Bool.false_eq_true, if_false, false_or] at hm ⊢
    rcases Cli.peek_spec src [] hw (by decide) with ⟨got, src', h1, -, -, h4, -⟩ | ⟨got, src', h1, -⟩
    · rw [h1]
      have : Cli.isDivans got = false := by
        rw [h4, List.nil_append, Bool.eq_false_iff]
        exact fun h => hm (Cli.isDivans_iff.1 h)
      simp only [this]
      rfl
    · rw [h1]

/-- Compressing data that is a file of this format: it is decompressed. -/
theorem compressRaw_unpacks {κ : Type} (par : Bool) (t : Timing) (m : Cli.Machine κ) {dw : Nat → Nat → Nat → List UInt8} {file data : List UInt8}
    (hs : Call.Serves dw file data) (hs' : Par.Serves dw file data) (c : κ) (size : Nat) (tail : List UInt8)
    (src : List Ev) (sink : List WEv) (hw : Whole src) (he : srcBytes src = file ++ tail) (hf : .fail ∉ src) (hk : .fail ∉ sink) :
    ∃ f0, ∀ n rounds, f0 ≤ n → f0 ≤ rounds → compressRaw par t m dw n rounds c size false src sink = some (data, .ok) := by
  rcases Cli.peek_spec src [] hw (by decide) with ⟨got, src', h1, h2, h3, h4, h5, -⟩ | ⟨got, src', -, h2⟩
  · obtain ⟨f0, g⟩ := unpack_ok hs hs' par t false size got tail src' sink h3 (by rw [h2]; exact he) (fun h => hf (h5 h)) hk
    refine ⟨f0, fun n r a b => ?_⟩
    unfold compressRaw
    simp only [Bool.false_eq_true, if_false]
    rw [h1]
    simp only
    have : Cli.isDivans got = true := by
      rw [h4, List.nil_append, Cli.isDivans_iff, he]
      exact (Cli.serves_magic hs).trans (List.prefix_append _ _)
    rw [if_pos this]
    exact g n r a b
  · exact (hf h2).elim

/-! ## Runs -/

theorem onceP_compress (v : Env) (t : Timing) (n rounds : Nat) (c : Conf) (hp : c.program = .compress) (src : List Ev) (sink : List WEv) :
    onceP v t n rounds c src sink = (compressRaw c.parallel t (v.engine c.opts).machine v.dw n rounds (v.engine c.opts).start c.buffer c.force src
      sink).map fun x => (x.1, decide (x.2 = .ok)) := by
  unfold Args.Conf.program at hp
  unfold onceP
  by_cases h1 : c.doCompress = true
  · rw [if_pos h1] at hp
    by_cases h2 : c.raw = true
    · rw [if_neg (by simp [h2]), if_pos h1]
    · rw [if_neg h2] at hp; cases hp
  · rw [if_neg h1] at hp
    split at hp <;> cases hp

theorem onceP_decompress (v : Env) (t : Timing) (n rounds : Nat) (c : Conf) (hp : c.program = .decompress) (src : List Ev) (sink : List WEv) :
    onceP v t n rounds c src sink =
      (unpack c.parallel t v.dw n rounds c.skipCrc c.buffer [] src sink).map fun x => (x.1, decide (x.2 = .ok)) := by
  unfold Args.Conf.program at hp
  unfold onceP
  by_cases h1 : c.doCompress = true
  · rw [if_pos h1] at hp
    split at hp <;> cases hp
  · rw [if_neg h1] at hp
    by_cases h2 : c.recode = true
    · rw [if_pos h2] at hp; cases hp
    · rw [if_neg (by simp [h1]), if_neg h1, if_neg h2]

/-- Runs that all succeed. -/
theorem runsP_ok {h : Host} {run : Nat → Nat → Nat → List Ev → List WEv → Option (List UInt8 × Bool)} {inp out : Name} (hne : inp ≠ out)
    {bs : List UInt8} (P : List UInt8 → Prop)
    (hr : ∀ i, ∃ f0 w, (∀ n rounds, f0 ≤ n → f0 ≤ rounds → run n rounds i (h.arrive i bs) (h.sink i) = some (w, true)) ∧ P w) :
    ∀ (k i : Nat) (fs : Files), fs inp = some bs → 0 < k →
      ∃ f0 fs' w t, (∀ n rounds, f0 ≤ n → f0 ≤ rounds → runsP h (run n rounds) inp out k i fs = some (fs', true)) ∧
        (∀ x, x ≠ out → fs' x = fs x) ∧ P w ∧ fs' out = some (w ++ t) ∧
        (k = 1 → t = ((fs out).getD []).drop w.length) ∧
        ((∀ u, P u → u = w) → ((fs out).getD []).length ≤ w.length → t = []) := by
  intro k
  induction k with
  | zero => intro _ _ _ h; omega
  | succ k ih =>
    intro i fs hf _
    obtain ⟨f1, w, h1, h2⟩ := hr i
    have e : ∀ n rounds, f1 ≤ n → f1 ≤ rounds → runsP h (run n rounds) inp out (k + 1) i fs =
        runsP h (run n rounds) inp out k (i + 1) (fs.set out (overlay w ((fs out).getD []))) := by
      intro n r hn hr
      rw [runsP, hf, Option.getD_some, h1 n r hn hr]
      rfl
    by_cases hk : k = 0
    · subst hk
      refine ⟨f1, _, w, _, fun n r a b => (e n r a b).trans rfl, fun x hx => set_other _ hx _, h2, set_same _ _ _, fun _ => rfl, ?_⟩
      intro _ hl
      exact List.drop_eq_nil_of_le hl
    · obtain ⟨f2, fs', w', t, g1, g2, g3, g4, -, g6⟩ := ih (i + 1) (fs.set out (overlay w ((fs out).getD [])))
        (by rw [set_other _ hne]; exact hf) (by omega)
      refine ⟨max f1 f2, fs', w', t, fun n r a b => ?_, fun x hx => ?_, g3, g4, fun h0 => absurd h0 (by omega), ?_⟩
      · rw [e n r (by omega) (by omega), g1 n r (by omega) (by omega)]
      · rw [g2 x hx, set_other _ hx]
      · intro hu hl
        refine g6 hu ?_
        have := hu w h2
        subst this
        rw [set_same, Option.getD_some]
        unfold overlay
        rw [List.drop_eq_nil_of_le hl, List.append_nil]

theorem mainP_words (v : Env) (h : Host) (t : Nat → Timing) (n rounds : Nat) (ws : List Word) (hv : ∀ w ∈ ws, w.Valid)
    (hn : (names ws).length ≤ 2) : mainP v h t n rounds (ws.map Word.text) = workP v h t n rounds (confOf ws) := by
  unfold mainP
  rw [Args.arguments_understood ws hv hn]
  rfl

theorem mainP_files (v : Env) (h : Host) (t : Nat → Timing) (ws : List Word) (hv : ∀ w ∈ ws, w.Valid) {inp out : Name}
    (hn : names ws = [inp, out]) {bs : List UInt8} (hi : h.files inp = some bs) (hc : h.creatable out = true) (n rounds : Nat) :
    mainP v h t n rounds (ws.map Word.text) =
      (runsP h (fun i => onceP v (t i) n rounds (confOf ws)) inp out ((lastSaid Setting.saysRuns (settings ws)).getD 1) 0
        (h.files.set out [])).map fun x => (x.1, [], if x.2 then .ok else .panic) := by
  have hne := names_ne ws hv
  rw [hn] at hne
  have e0 : (confOf ws).file0 = inp := by unfold confOf; rw [hn]; rfl
  have e1 : (confOf ws).file1 = out := by unfold confOf; rw [hn]; rfl
  have e2 : (confOf ws).benchmarks = (lastSaid Setting.saysRuns (settings ws)).getD 1 :=
    (Args.last_number_counts (settings ws)).2.2.2.2.2.2.1
  rw [mainP_words v h t n rounds ws hv (by rw [hn]; exact Nat.le_refl 2)]
  unfold workP
  rw [if_pos (by rw [e0]; exact hne inp (by simp)), e0, hi]
  simp only
  rw [if_pos (by rw [e1]; exact hne out (by simp)), e1, if_pos hc, e2]

theorem mainP_pipe (v : Env) (h : Host) (t : Nat → Timing) (ws : List Word) (hv : ∀ w ∈ ws, w.Valid) (hn : names ws = [])
    (hr : (lastSaid Setting.saysRuns (settings ws)).getD 1 = 1) (n rounds : Nat) :
    mainP v h t n rounds (ws.map Word.text) = (onceP v (t 0) n rounds (confOf ws) h.stdin (h.sink 0)).map
      fun x => (h.files, x.1, if x.2 then .ok else .panic) := by
  have e0 : (confOf ws).file0 = [] := by unfold confOf; rw [hn]; rfl
  have e2 : (confOf ws).benchmarks = 1 := ((Args.last_number_counts (settings ws)).2.2.2.2.2.2.1).trans hr
  rw [mainP_words v h t n rounds ws hv (by rw [hn]; exact Nat.zero_le _)]
  unfold workP
  rw [if_neg (by rw [e0]; simp)]
  unfold toStdout
  rw [if_pos e2]

/-- All runs give the same: the output is what they write. -/
theorem mainP_same (v : Env) (h : Host) (t : Nat → Timing) (ws : List Word) (hv : ∀ w ∈ ws, w.Valid)
    {inp out : Name} (hn : names ws = [inp, out]) (hne : inp ≠ out) (hr : lastSaid Setting.saysRuns (settings ws) ≠ some 0)
    {bs data : List UInt8} (hi : h.files inp = some bs) (hc : h.creatable out = true)
    (ho : ∀ i, ∃ f0, ∀ n rounds, f0 ≤ n → f0 ≤ rounds → onceP v (t i) n rounds (confOf ws) (h.arrive i bs) (h.sink i) = some (data, true)) :
    ∃ f0 fs', (∀ n rounds, f0 ≤ n → f0 ≤ rounds → mainP v h t n rounds (ws.map Word.text) = some (fs', [], .ok)) ∧
      (∀ x, x ≠ out → fs' x = h.files x) ∧ fs' out = some data := by
  obtain ⟨f0, fs', w, tl, h1, h2, h3, h4, -, h6⟩ := runsP_ok (h := h)
    (run := fun n r i => onceP v (t i) n r (confOf ws)) hne (bs := bs)
    (fun w => w = data) (fun i => by
      obtain ⟨f0, g⟩ := ho i
      exact ⟨f0, data, g, rfl⟩) _ 0 (h.files.set out []) (by rw [set_other _ hne]; exact hi) (runs_pos hr)
  subst h3
  refine ⟨f0, fs', fun n r a b => ?_, fun x hx => by rw [h2 x hx, set_other _ hx], ?_⟩
  · rw [mainP_files v h t ws hv hn hi hc]
    exact congrArg (Option.map _) (h1 n r a b)
  · rw [h4, h6 (fun u hu => hu) (by rw [set_same]; exact Nat.zero_le _), List.append_nil]

/-! ## C89 -/

/-- **C89, compressing a file.**  As C79, with the program's threads: whatever they do. -/
theorem compress_file_threads (v : Env) (h : Host) (t : Nat → Timing) (hh : Calm h) (hq : Quiet h) (ws : List Word) (hv : ∀ w ∈ ws, w.Valid)
    {inp out : Name} (hn : names ws = [inp, out]) (hne : inp ≠ out) (hp : Compresses (settings ws))
    {limit : List UInt8 → Prop} (hf : (v.engine ((settings ws).foldl Setting.effect .default).opts).Faithful v.dw limit)
    (hr : lastSaid Setting.saysRuns (settings ws) ≠ some 0)
    {data : List UInt8} (hi : h.files inp = some data) (hl : limit data) (hc : h.creatable out = true)
    (hm : (settings ws).any Setting.isForced = true ∨ ¬ magic <+: data) :
    ∃ f0 fs' file tail, (∀ n rounds, f0 ≤ n → f0 ≤ rounds → mainP v h t n rounds (ws.map Word.text) = some (fs', [], .ok)) ∧
      (∀ x, x ≠ out → fs' x = h.files x) ∧ fs' out = some (file ++ tail) ∧ Restores v.dw file data ∧
      (lastSaid Setting.saysRuns (settings ws) = none → tail = []) := by
  have hforce : (confOf ws).force = (settings ws).any Setting.isForced := (Args.last_program_counts (settings ws)).2.1
  have hprog := hp.program
  obtain ⟨f0, fs', w, tl, h1, h2, h3, h4, h5, -⟩ := runsP_ok (h := h)
    (run := fun n r i => onceP v (t i) n r (confOf ws)) hne (bs := data)
    (fun w => Restores v.dw w data) (fun i => by
      have hm' : (confOf ws).force = true ∨ ¬ magic <+: srcBytes (h.arrive i data) := by rw [hh.bytes, hforce]; exact hm
      obtain ⟨f0, file, g1, g2⟩ := hf (confOf ws).buffer (confOf ws).force
        (h.arrive i data) (h.sink i) (hh.whole _ _) (hq _ _) (hh.source _ _) (hh.sink _) (by rw [hh.bytes]; exact hl) hm'
      refine ⟨f0, file, fun n r a b => ?_, by rw [hh.bytes] at g2; exact g2⟩
      rw [onceP_compress v (t i) n r _ hprog, compressRaw_same _ _ _ _ _ _ _ _ _ _ _ (hh.whole _ _) hm']
      exact congrArg (Option.map _) (g1 n r a b)) _ 0 (h.files.set out []) (by rw [set_other _ hne]; exact hi) (runs_pos hr)
  refine ⟨f0, fs', w, tl, fun n r a b => ?_, fun x hx => by rw [h2 x hx, set_other _ hx], h4, h3, fun h0 => ?_⟩
  · rw [mainP_files v h t ws hv hn hi hc]
    exact congrArg (Option.map _) (h1 n r a b)
  · rw [h5 (by rw [h0]; rfl), set_same]
    exact List.drop_nil

/-- **C89, decompressing a file.**  Settings in any order that ask for decompression, with a worker thread or with
`-serial`; an input that begins with a file from which every decompressor restores some data, and an output.  Whatever the
scheduler does in each run: the program ends without an error, freeing its decompressors, no file but the output is changed,
and the output holds the data. -/
theorem decompress_file_threads (v : Env) (h : Host) (t : Nat → Timing) (hh : Calm h) (ws : List Word) (hv : ∀ w ∈ ws, w.Valid)
    {inp out : Name} (hn : names ws = [inp, out]) (hne : inp ≠ out) (hp : Decompresses (settings ws))
    (hr : lastSaid Setting.saysRuns (settings ws) ≠ some 0)
    {file tail data : List UInt8} (hi : h.files inp = some (file ++ tail)) (hs : Restores v.dw file data) (hc : h.creatable out = true) :
    ∃ f0 fs', (∀ n rounds, f0 ≤ n → f0 ≤ rounds → mainP v h t n rounds (ws.map Word.text) = some (fs', [], .ok)) ∧
      (∀ x, x ≠ out → fs' x = h.files x) ∧ fs' out = some data := by
  refine mainP_same v h t ws hv hn hne hr hi hc fun i => ?_
  obtain ⟨f0, g⟩ := unpack_ok hs.1 hs.2.1 (confOf ws).parallel (t i) (confOf ws).skipCrc (confOf ws).buffer [] tail
    (h.arrive i (file ++ tail)) (h.sink i) (hh.whole _ _) (by rw [hh.bytes]; rfl) (hh.source _ _) (hh.sink _)
  refine ⟨f0, fun n r a b => ?_⟩
  rw [onceP_decompress v (t i) n r _ hp.program, g n r a b]
  rfl

/-- **C89, compressing what is compressed.**  Without `-c`, settings that ask for compression decompress such
an input as well, whatever the compressor. -/
theorem compress_unpacks_threads (v : Env) (h : Host) (t : Nat → Timing) (hh : Calm h) (ws : List Word) (hv : ∀ w ∈ ws, w.Valid)
    {inp out : Name} (hn : names ws = [inp, out]) (hne : inp ≠ out) (hp : Compresses (settings ws))
    (hforce : (settings ws).any Setting.isForced = false) (hr : lastSaid Setting.saysRuns (settings ws) ≠ some 0)
    {file tail data : List UInt8} (hi : h.files inp = some (file ++ tail)) (hs : Restores v.dw file data) (hc : h.creatable out = true) :
    ∃ f0 fs', (∀ n rounds, f0 ≤ n → f0 ≤ rounds → mainP v h t n rounds (ws.map Word.text) = some (fs', [], .ok)) ∧
      (∀ x, x ≠ out → fs' x = h.files x) ∧ fs' out = some data := by
  have hf : (confOf ws).force = false := ((Args.last_program_counts (settings ws)).2.1).trans hforce
  refine mainP_same v h t ws hv hn hne hr hi hc fun i => ?_
  obtain ⟨f0, g⟩ := compressRaw_unpacks (confOf ws).parallel (t i) (v.engine (confOf ws).opts).machine hs.1 hs.2.1
    (v.engine (confOf ws).opts).start (confOf ws).buffer tail
    (h.arrive i (file ++ tail)) (h.sink i) (hh.whole _ _) (by rw [hh.bytes]) (hh.source _ _) (hh.sink _)
  refine ⟨f0, fun n r a b => ?_⟩
  rw [onceP_compress v (t i) n r _ hp.program, hf, g n r a b]
  rfl

/-- **C89, there and back.**  As C79, with threads in both programs, whatever they do. -/
theorem files_round_trip_threads (v : Env) (h : Host) (t : Nat → Timing) (hh : Calm h) (hq : Quiet h) (ws ws' : List Word)
    (hv : ∀ w ∈ ws, w.Valid) (hv' : ∀ w ∈ ws', w.Valid) {inp out back : Name} (hn : names ws = [inp, out]) (hn' : names ws' = [out, back])
    (hne : inp ≠ out) (hne' : out ≠ back) (hp : Compresses (settings ws)) (hp' : Decompresses (settings ws'))
    {limit : List UInt8 → Prop} (hf : (v.engine ((settings ws).foldl Setting.effect .default).opts).Faithful v.dw limit)
    (hr : lastSaid Setting.saysRuns (settings ws) ≠ some 0) (hr' : lastSaid Setting.saysRuns (settings ws') ≠ some 0)
    {data : List UInt8} (hi : h.files inp = some data) (hl : limit data) (hc : h.creatable out = true)
    (hm : (settings ws).any Setting.isForced = true ∨ ¬ magic <+: data) :
    ∃ f0 fs', (∀ n rounds, f0 ≤ n → f0 ≤ rounds → mainP v h t n rounds (ws.map Word.text) = some (fs', [], .ok)) ∧
      (∀ x, x ≠ out → fs' x = h.files x) ∧
      ∀ (h' : Host) (t' : Nat → Timing), Calm h' → h'.files = fs' → h'.creatable back = true →
        ∃ f1 fs'', (∀ n rounds, f1 ≤ n → f1 ≤ rounds → mainP v h' t' n rounds (ws'.map Word.text) = some (fs'', [], .ok)) ∧
          (∀ x, x ≠ back → fs'' x = fs' x) ∧ fs'' back = some data := by
  obtain ⟨f0, fs', file, tail, h1, h2, h3, h4, -⟩ := compress_file_threads v h t hh hq ws hv hn hne hp hf hr hi hl hc hm
  refine ⟨f0, fs', h1, h2, fun h' t' g1 g2 g3 => ?_⟩
  subst g2
  exact decompress_file_threads v h' t' g1 ws' hv' hn' hne' hp' hr' h3 h4 g3

/-- **C89, partial: with `-nobrotli`.**  As C79: mixing below 8, prior depth below 16, gentle speeds, data up to three windows less two bytes. -/
theorem internal_files_round_trip_threads_partial (v : Env) (h : Host) (t : Nat → Timing) (hh : Calm h) (hq : Quiet h) (ws ws' : List Word)
    (hv : ∀ w ∈ ws, w.Valid) (hv' : ∀ w ∈ ws', w.Valid) {inp out back : Name} (hn : names ws = [inp, out]) (hn' : names ws' = [out, back])
    (hne : inp ≠ out) (hne' : out ≠ back) (hp : Compresses (settings ws)) (hp' : Decompresses (settings ws'))
    (hint : (settings ws).any Setting.isInternal = true) (hmix : (lastSaid Setting.saysMixing (settings ws)).getD 1 % 256 < 8)
    (hdep : (lastSaid Setting.saysDepth (settings ws)).getD 0 % 256 < 16) (hsp : ∀ w p, Setting.pace w p ∈ settings ws → Gentle p.speed)
    (hr : lastSaid Setting.saysRuns (settings ws) ≠ some 0) (hr' : lastSaid Setting.saysRuns (settings ws') ≠ some 0)
    {data : List UInt8} (hi : h.files inp = some data)
    (hl : data.length ≤ 3 * 2 ^ (Frame.windowOf (some (((lastSaid Setting.saysWindow (settings ws)).getD 22 : Nat) : Int))).toNat - 2)
    (hc : h.creatable out = true) (hm : (settings ws).any Setting.isForced = true ∨ ¬ magic <+: data) :
    ∃ f0 fs', (∀ n rounds, f0 ≤ n → f0 ≤ rounds → mainP v h t n rounds (ws.map Word.text) = some (fs', [], .ok)) ∧
      (∀ x, x ≠ out → fs' x = h.files x) ∧
      ∀ (h' : Host) (t' : Nat → Timing), Calm h' → h'.files = fs' → h'.creatable back = true →
        ∃ f1 fs'', (∀ n rounds, f1 ≤ n → f1 ≤ rounds → mainP v h' t' n rounds (ws'.map Word.text) = some (fs'', [], .ok)) ∧
          (∀ x, x ≠ back → fs'' x = fs' x) ∧ fs'' back = some data :=
  files_round_trip_threads v h t hh hq ws ws' hv hv' hn hn' hne hne' hp hp' (internal_faithful v (settings ws) hint hmix hdep hsp) hr hr' hi
    hl hc hm

/-- **C89, as a filter.**  As C79, with threads. -/
theorem pipe_round_trip_threads (v : Env) (h : Host) (t : Nat → Timing) (ws ws' : List Word) (hv : ∀ w ∈ ws, w.Valid) (hv' : ∀ w ∈ ws', w.Valid)
    (hn : names ws = []) (hn' : names ws' = []) (hp : Compresses (settings ws)) (hp' : Decompresses (settings ws'))
    {limit : List UInt8 → Prop} (hf : (v.engine ((settings ws).foldl Setting.effect .default).opts).Faithful v.dw limit)
    (hr : (lastSaid Setting.saysRuns (settings ws)).getD 1 = 1) (hr' : (lastSaid Setting.saysRuns (settings ws')).getD 1 = 1)
    (hw : Whole h.stdin) (hi : .interrupted ∉ h.stdin) (he : .fail ∉ h.stdin) (hk : .fail ∉ h.sink 0) (hl : limit (srcBytes h.stdin))
    (hm : (settings ws).any Setting.isForced = true ∨ ¬ magic <+: srcBytes h.stdin) :
    ∃ f0 file, (∀ n rounds, f0 ≤ n → f0 ≤ rounds → mainP v h t n rounds (ws.map Word.text) = some (h.files, file, .ok)) ∧
      Restores v.dw file (srcBytes h.stdin) ∧
      ∀ (h' : Host) (t' : Nat → Timing), Whole h'.stdin → .fail ∉ h'.stdin → .fail ∉ h'.sink 0 → srcBytes h'.stdin = file →
        ∃ f1, ∀ n rounds, f1 ≤ n → f1 ≤ rounds → mainP v h' t' n rounds (ws'.map Word.text) = some (h'.files, srcBytes h.stdin, .ok) := by
  have hforce : (confOf ws).force = (settings ws).any Setting.isForced := (Args.last_program_counts (settings ws)).2.1
  rw [← hforce] at hm
  obtain ⟨f0, file, g1, g2⟩ := hf (confOf ws).buffer (confOf ws).force h.stdin (h.sink 0) hw hi he hk hl hm
  refine ⟨f0, file, fun n r a b => ?_, g2, fun h' t' k1 k2 k3 k4 => ?_⟩
  · rw [mainP_pipe v h t ws hv hn hr, onceP_compress v (t 0) n r _ hp.program, compressRaw_same _ _ _ _ _ _ _ _ _ _ _ hw hm]
    have := g1 n r a b
    exact congrArg (Option.map _) (congrArg (Option.map _) this)
  · obtain ⟨f1, q⟩ := unpack_ok g2.1 g2.2.1 (confOf ws').parallel (t' 0) (confOf ws').skipCrc (confOf ws').buffer [] [] h'.stdin (h'.sink 0)
      k1 (by rw [k4]; simp) k2 k3
    refine ⟨f1, fun n r a b => ?_⟩
    rw [mainP_pipe v h' t' ws' hv' hn' hr', onceP_decompress v (t' 0) n r _ hp'.program, q n r a b]
    rfl

/-- **C89, `-serial`.**  With this setting the program is that of C79, on all arguments, files and errors. -/
theorem serial_same (v : Env) (h : Host) (t : Nat → Timing) (n rounds : Nat) (ws : List Word) (hv : ∀ w ∈ ws, w.Valid)
    (hn : (names ws).length ≤ 2) (hs : Setting.serial ∈ settings ws) :
    mainP v h t n rounds (ws.map Word.text) = main v h n rounds (ws.map Word.text) := by
  rw [mainP_words v h t n rounds ws hv hn, main_words v h n rounds ws hv hn]
  have hpar : (confOf ws).parallel = false := by
    rw [parallel_iff, Bool.not_eq_false']
    exact List.any_eq_true.2 ⟨_, hs, rfl⟩
  have ho : ∀ t, onceP v t n rounds (confOf ws) = once v n rounds (confOf ws) := by
    intro t
    funext src sink
    unfold onceP once
    rw [hpar]
    by_cases h1 : (confOf ws).doCompress = true ∧ (confOf ws).raw = false
    · rw [if_pos h1, if_pos h1]
    rw [if_neg h1, if_neg h1]
    by_cases h2 : (confOf ws).doCompress = true
    · rw [if_pos h2, if_pos h2]
      rfl
    rw [if_neg h2, if_neg h2]
    by_cases h3 : (confOf ws).recode = true
    · rw [if_pos h3, if_pos h3]
    · rw [if_neg h3, if_neg h3]
      rfl
  have hruns : ∀ run inp out k i fs, runsP h (fun _ => run) inp out k i fs = runs h run inp out k i fs := by
    intro run inp out k
    induction k with
    | zero => intro i fs; rfl
    | succ k ih =>
      intro i fs
      rw [runsP, runs]
      cases run (h.arrive i ((fs inp).getD [])) (h.sink i) with
      | none => rfl
      | some x => obtain ⟨w, ok⟩ := x; simp only [ih]
  unfold workP work
  simp only [ho, hruns]
  cases h.files (confOf ws).file0 <;> rfl

theorem runsP_others {h : Host} {run : Nat → List Ev → List WEv → Option (List UInt8 × Bool)} {inp out : Name} :
    ∀ (k i : Nat) (fs fs' : Files) (ok : Bool), runsP h run inp out k i fs = some (fs', ok) → ∀ x, x ≠ out → fs' x = fs x := by
  intro k
  induction k with
  | zero =>
    intro i fs fs' ok h x _
    simp only [runsP, Option.some.injEq, Prod.mk.injEq] at h
    rw [h.1]
  | succ k ih =>
    intro i fs fs' ok h0 x hx
    rw [runsP] at h0
    split at h0
    · cases h0
    · rename_i w ok' _
      simp only at h0
      split at h0
      · rw [ih _ _ _ _ h0 x hx, set_other _ hx]
      · simp only [Option.some.injEq, Prod.mk.injEq] at h0
        rw [← h0.1, set_other _ hx]

/-- **C89, other files.**  As C79: no file but the one named as output is changed, whatever the threads do. -/
theorem only_output_changes_threads (v : Env) (h : Host) (t : Nat → Timing) (n rounds : Nat) (as : List (List UInt8)) (fs' : Files)
    (so : List UInt8) (e : Exit) (hm : mainP v h t n rounds as = some (fs', so, e)) (x : Name) (hx : x = outputOf as → x = []) :
    fs' x = h.files x := by
  unfold outputOf at hx
  unfold mainP at hm
  cases hc : Args.args .default as with
  | quit => rw [hc] at hm; simp only [Option.some.injEq, Prod.mk.injEq] at hm; rw [hm.1]
  | crash => rw [hc] at hm; simp only [Option.some.injEq, Prod.mk.injEq] at hm; rw [hm.1]
  | go c =>
    rw [hc] at hm hx
    simp only at hm hx
    have std : ∀ run src, toStdout h c run src = some (fs', so, e) → fs' x = h.files x := by
      intro run src h0
      unfold toStdout at h0
      split at h0
      · rw [Option.map_eq_some_iff] at h0
        obtain ⟨a, -, h0⟩ := h0
        simp only [Prod.mk.injEq] at h0
        rw [h0.1]
      · simp only [Option.some.injEq, Prod.mk.injEq] at h0
        rw [h0.1]
    unfold workP at hm
    by_cases h0 : c.file0 ≠ []
    · rw [if_pos h0] at hm
      cases hf : h.files c.file0 with
      | none => rw [hf] at hm; simp only [Option.some.injEq, Prod.mk.injEq] at hm; rw [hm.1]
      | some bs =>
        rw [hf] at hm
        simp only at hm
        by_cases h1 : c.file1 ≠ []
        · rw [if_pos h1] at hm
          have hne : x ≠ c.file1 := fun he => h1 (he ▸ hx he)
          split at hm
          · rw [Option.map_eq_some_iff] at hm
            obtain ⟨⟨fs2, ok⟩, hm, he⟩ := hm
            simp only [Prod.mk.injEq] at he
            obtain ⟨rfl, -, -⟩ := he
            rw [runsP_others _ _ _ _ _ hm x hne, set_other _ hne]
          · simp only [Option.some.injEq, Prod.mk.injEq] at hm
            rw [hm.1]
        · rw [if_neg h1] at hm
          exact std _ _ hm
    · rw [if_neg h0] at hm
      exact std _ _ hm

/-- **C89, damaged input.**  Decompressing a file that is cut off never ends without an error.  It panics, and the output holds
a beginning of the data; or it never ends, which it only may with a worker thread. -/
theorem cut_input_threads (v : Env) (h : Host) (t : Nat → Timing) (hh : Calm h) (ws : List Word) (hv : ∀ w ∈ ws, w.Valid)
    {inp out : Name} (hn : names ws = [inp, out]) (hne : inp ≠ out) (hp : Decompresses (settings ws))
    (hr : lastSaid Setting.saysRuns (settings ws) ≠ some 0)
    {file missing data : List UInt8} (hi : h.files inp = some file) (hm : missing ≠ []) (hs : Restores v.dw (file ++ missing) data)
    (hc : h.creatable out = true) :
    (∃ f0 fs' part, (∀ n rounds, f0 ≤ n → f0 ≤ rounds → mainP v h t n rounds (ws.map Word.text) = some (fs', [], .panic)) ∧
      fs' out = some part ∧ part <+: data) ∨
    (Threaded (settings ws) ∧ ∃ f0, ∀ n rounds, f0 ≤ n → f0 ≤ rounds → mainP v h t n rounds (ws.map Word.text) = none) := by
  obtain ⟨f0, r, g1, g2⟩ := unpack_cut hs.1 hs.2.1 (confOf ws).parallel (t 0) (confOf ws).skipCrc (confOf ws).buffer [] missing
    (h.arrive 0 file) (h.sink 0) (hh.whole _ _) (by rw [hh.bytes]; rfl) hm
  obtain ⟨k, hk⟩ : ∃ k, (lastSaid Setting.saysRuns (settings ws)).getD 1 = k + 1 := ⟨_, (Nat.succ_pred_eq_of_pos (runs_pos hr)).symm⟩
  rcases g2 with ⟨p1, rfl⟩ | ⟨written, e, rfl, p2, p3⟩
  · right
    refine ⟨?_, f0, fun n rounds a b => ?_⟩
    · rw [parallel_iff, Bool.not_eq_true'] at p1
      exact p1
    · rw [mainP_files v h t ws hv hn hi hc, hk, runsP, set_other _ hne, hi, Option.getD_some, onceP_decompress v (t 0) n rounds _ hp.program,
        g1 n rounds a b]
      rfl
  · left
    refine ⟨f0, (h.files.set out []).set out written, written, fun n rounds a b => ?_, set_same _ _ _, p3⟩
    rw [mainP_files v h t ws hv hn hi hc, hk, runsP, set_other _ hne, hi, Option.getD_some, onceP_decompress v (t 0) n rounds _ hp.program,
      g1 n rounds a b]
    simp only [Option.map_some, p2, decide_false, set_same, Option.getD_some, overlay, List.drop_nil, List.append_nil]
    rfl

/-- **C89, success.**  If decompressing a file, once, ends without an error, whatever the threads did, then the input begins
with a complete file, with the right checksum unless it is not to be checked, and the output holds all that calls of `decode`
give for it. -/
theorem success_is_checked_threads (v : Env) (h : Host) (t : Nat → Timing) (hh : Calm h) (ws : List Word) (hv : ∀ w ∈ ws, w.Valid)
    {inp out : Name} (hn : names ws = [inp, out]) (hne : inp ≠ out) (hp : Decompresses (settings ws))
    (hr : (lastSaid Setting.saysRuns (settings ws)).getD 1 = 1) {bytes : List UInt8} (hi : h.files inp = some bytes)
    (hc : h.creatable out = true) (n rounds : Nat) (fs' : Files) (so : List UInt8)
    (hm : mainP v h t n rounds (ws.map Word.text) = some (fs', so, .ok)) :
    ∃ file rest data, bytes = file ++ rest ∧ Io.Complete ((settings ws).any Setting.isNoCrc) file ∧ fs' out = some data ∧
      (Threaded (settings ws) → ∃ cs d rets,
        Par.History v.dw (.new ((settings ws).any Setting.isNoCrc)) bytes cs d rest data rets ∧ .success ∈ rets) ∧
      (¬ Threaded (settings ws) → ∃ cs d rets,
        Call.calls v.dw n (.new ((settings ws).any Setting.isNoCrc)) bytes cs = some (.ok (d, rest, data, rets)) ∧ .success ∈ rets) := by
  have hskip : (confOf ws).skipCrc = (settings ws).any Setting.isNoCrc := (Args.last_program_counts (settings ws)).2.2.2
  rw [mainP_files v h t ws hv hn hi hc, hr, Option.map_eq_some_iff] at hm
  obtain ⟨⟨fs2, ok⟩, hm, he⟩ := hm
  simp only [Prod.mk.injEq] at he
  obtain ⟨rfl, -, he⟩ := he
  have hok : ok = true := by cases ok <;> simp_all
  subst hok
  rw [runsP, set_other _ hne, hi, Option.getD_some, onceP_decompress v (t 0) n rounds _ hp.program] at hm
  cases hd : unpack (confOf ws).parallel (t 0) v.dw n rounds (confOf ws).skipCrc (confOf ws).buffer [] (h.arrive 0 bytes) (h.sink 0) with
  | none => rw [hd] at hm; simp at hm
  | some x =>
    obtain ⟨written, e⟩ := x
    rw [hd] at hm
    simp only [Option.map_some] at hm
    by_cases h0 : e = .ok
    · subst h0
      simp only [decide_true, if_true, runsP, Option.some.injEq, Prod.mk.injEq, and_true, set_same, Option.getD_some, overlay,
        List.drop_nil, List.append_nil] at hm
      obtain ⟨file, rest, k1, k2, k3, k4⟩ := unpack_any hd
      rw [List.nil_append, hh.bytes] at k1 k3 k4
      rw [hskip] at k2 k3 k4
      rw [parallel_iff] at k3 k4
      refine ⟨file, rest, written, k1, k2, by rw [← hm, set_same], fun ht => k3 ?_, fun ht => k4 ?_⟩
      · unfold Threaded at ht; rw [ht]; rfl
      · unfold Threaded at ht; rw [Bool.not_eq_false] at ht; rw [ht]; rfl
    · rw [if_neg (by simp [h0])] at hm
      simp at hm

/-- **C89, success without `-d`.**  If the program, asked to compress without `-c`, is given a file that begins with the magic number, and
ends without an error, then as above: that file is complete, its checksum is right, and the output holds its content. -/
theorem unpacked_is_checked_threads (v : Env) (h : Host) (t : Nat → Timing) (hh : Calm h) (ws : List Word) (hv : ∀ w ∈ ws, w.Valid)
    {inp out : Name} (hn : names ws = [inp, out]) (hne : inp ≠ out) (hp : Compresses (settings ws))
    (hforce : (settings ws).any Setting.isForced = false)
    (hr : (lastSaid Setting.saysRuns (settings ws)).getD 1 = 1) {bytes : List UInt8} (hi : h.files inp = some bytes) (hg : magic <+: bytes)
    (hc : h.creatable out = true) (n rounds : Nat) (fs' : Files) (so : List UInt8)
    (hm : mainP v h t n rounds (ws.map Word.text) = some (fs', so, .ok)) :
    ∃ file rest data, bytes = file ++ rest ∧ Io.Complete false file ∧ fs' out = some data ∧
      (Threaded (settings ws) → ∃ cs d rets, Par.History v.dw (.new false) bytes cs d rest data rets ∧ .success ∈ rets) ∧
      (¬ Threaded (settings ws) → ∃ cs d rets,
        Call.calls v.dw n (.new false) bytes cs = some (.ok (d, rest, data, rets)) ∧ .success ∈ rets) := by
  have hf : (confOf ws).force = false := ((Args.last_program_counts (settings ws)).2.1).trans hforce
  rw [mainP_files v h t ws hv hn hi hc, hr, Option.map_eq_some_iff] at hm
  obtain ⟨⟨fs2, ok⟩, hm, he⟩ := hm
  simp only [Prod.mk.injEq] at he
  obtain ⟨rfl, -, he⟩ := he
  have hok : ok = true := by cases ok <;> simp_all
  subst hok
  rw [runsP, set_other _ hne, hi, Option.getD_some, onceP_compress v (t 0) n rounds _ hp.program, hf] at hm
  rcases Cli.peek_spec (h.arrive 0 bytes) [] (hh.whole _ _) (by decide) with ⟨got, src', h1, h2, -, h4, -⟩ | ⟨got, src', -, h2⟩
  · have hd' : Cli.isDivans got = true := by
      rw [h4, List.nil_append, Cli.isDivans_iff, hh.bytes]
      exact hg
    have hraw : ∀ {κ : Type} (m : Cli.Machine κ) (c : κ), compressRaw (confOf ws).parallel (t 0) m v.dw n rounds c (confOf ws).buffer false
        (h.arrive 0 bytes) (h.sink 0) = unpack (confOf ws).parallel (t 0) v.dw n rounds false (confOf ws).buffer got src' (h.sink 0) := by
      intro κ m c
      unfold compressRaw
      simp only [Bool.false_eq_true, if_false]
      rw [h1]
      simp only
      rw [if_pos hd']
    rw [hraw] at hm
    cases hd : unpack (confOf ws).parallel (t 0) v.dw n rounds false (confOf ws).buffer got src' (h.sink 0) with
    | none => rw [hd] at hm; simp at hm
    | some x =>
      obtain ⟨written, e⟩ := x
      rw [hd] at hm
      simp only [Option.map_some] at hm
      by_cases h0 : e = .ok
      · subst h0
        simp only [decide_true, if_true, runsP, Option.some.injEq, Prod.mk.injEq, and_true, set_same, Option.getD_some, overlay,
          List.drop_nil, List.append_nil] at hm
        obtain ⟨file, rest, k1, k2, k3, k4⟩ := unpack_any hd
        rw [h2, List.nil_append, hh.bytes] at k1 k3 k4
        rw [parallel_iff] at k3 k4
        refine ⟨file, rest, written, k1, k2, by rw [← hm, set_same], fun ht => k3 ?_, fun ht => k4 ?_⟩
        · unfold Threaded at ht; rw [ht]; rfl
        · unfold Threaded at ht; rw [Bool.not_eq_false] at ht; rw [ht]; rfl
      · rw [if_neg (by simp [h0])] at hm
        simp at hm
  · exact (hh.source _ _ h2).elim

/-- **C89, refusals.**  Without an input of that name, with an output that cannot be created, and with a third name, the program
panics and no file is changed. -/
theorem refused_threads (v : Env) (h : Host) (t : Nat → Timing) (n rounds : Nat) (ws : List Word) (hv : ∀ w ∈ ws, w.Valid) {inp out : Name}
    (hn : names ws = [inp, out]) :
    (h.files inp = none ∨ h.creatable out = false → mainP v h t n rounds (ws.map Word.text) = some (h.files, [], .panic)) ∧
    ∀ third more, Args.classify third = none → mainP v h t n rounds (ws.map Word.text ++ third :: more) = some (h.files, [], .panic) := by
  have hne := names_ne ws hv
  rw [hn] at hne
  have e0 : (confOf ws).file0 = inp := by unfold confOf; rw [hn]; rfl
  have e1 : (confOf ws).file1 = out := by unfold confOf; rw [hn]; rfl
  refine ⟨fun hx => ?_, fun third more hc => ?_⟩
  · rw [mainP_words v h t n rounds ws hv (by rw [hn]; exact Nat.le_refl 2)]
    unfold workP
    rw [if_pos (by rw [e0]; exact hne inp (by simp)), e0]
    cases hi : h.files inp with
    | none => rfl
    | some bs =>
      rcases hx with hx | hx
      · rw [hi] at hx; cases hx
      · simp only
        rw [if_pos (by rw [e1]; exact hne out (by simp)), e1, if_neg (by rw [hx]; simp)]
  · unfold mainP
    rw [Args.third_name_crashes ws hv (by rw [hn]; rfl) third hc more]

/-- **C89 fails with a worker thread: the program need not end.**  Decompressing a file of exactly a good header, the default
settings with `-d` or any others without `-serial`: the program never ends, whatever the threads do, instead of reporting the error. -/
theorem header_hangs_threads (v : Env) (h : Host) (t : Nat → Timing) (hh : Calm h) (ws : List Word) (hv : ∀ w ∈ ws, w.Valid)
    {inp out : Name} (hn : names ws = [inp, out]) (hne : inp ≠ out) (hp : Decompresses (settings ws)) (hpar : Threaded (settings ws))
    (hr : lastSaid Setting.saysRuns (settings ws) ≠ some 0) {head : List UInt8} {w : Nat} (hg : Frame.GoodHeader head w)
    (hi : h.files inp = some head) (hc : h.creatable out = true) :
    ∃ f0, ∀ n rounds, f0 ≤ rounds → mainP v h t n rounds (ws.map Word.text) = none := by
  obtain ⟨k, hk⟩ : ∃ k, (lastSaid Setting.saysRuns (settings ws)).getD 1 = k + 1 := ⟨_, (Nat.succ_pred_eq_of_pos (runs_pos hr)).symm⟩
  have hparallel : (confOf ws).parallel = true := by
    unfold Threaded at hpar
    rw [parallel_iff, hpar]; rfl
  refine ⟨head.length + 1, fun n rounds a => ?_⟩
  rw [mainP_files v h t ws hv hn hi hc, hk, runsP, set_other _ hne, hi, Option.getD_some, onceP_decompress v (t 0) n rounds _ hp.program,
    hparallel]
  have hu : unpack true (t 0) v.dw n rounds (confOf ws).skipCrc (confOf ws).buffer [] (h.arrive 0 head) (h.sink 0) = none := by
    obtain ⟨s', e1, e2, e3⟩ := Par.header_loop (dw := v.dw) (skip := (confOf ws).skipCrc) (sched := (t 0).sched) (n := n)
      (cap := max (Io.bufSize (confOf ws).buffer) ([] : List UInt8).length)
      (size := Io.bufSize (confOf ws).buffer) hg (Nat.lt_of_lt_of_le (Io.bufSize_pos _) (Nat.le_max_left _ _)) (rounds - 1) []
      ⟨(Par.Dec.new (confOf ws).skipCrc, 0), [], ([] : List UInt8).length, [], h.arrive 0 head, h.sink 0, []⟩ rfl (by decide) (hh.whole _ _)
      (hh.source _ _) (by rw [hh.bytes]; rfl) (by rw [hh.bytes]; omega)
    rw [show rounds - 1 + 1 = rounds by omega] at e1
    unfold unpack unpackFree Par.unpacked
    rw [if_pos rfl, e1]
    simp only [Option.map_some, reduceCtorEq, or_self, if_false]
    rw [e2]
    simp only
    cases n with
    | zero => rfl
    | succ n =>
      rw [Par.St.freed, (Par.init_frees head w (Par.works_ok (t 0).moment _)).2]
  rw [hu]
  rfl

/-! ## The theorems are not vacuous -/

/-- What the threads do in the examples. -/
def demoTiming (i : Nat) : Timing := ⟨Par.demoSched, 3 * i⟩

/-- `divans in -nobrotli out`, and then, with `out` complete or without its last byte: `divans -d out back`, with a worker thread. -/
example (v : Env) : ∃ f0 fs' file, (∀ n rounds, f0 ≤ n → f0 ≤ rounds →
      mainP v demoHost demoTiming n rounds [b!"in", b!"-nobrotli", b!"out"] = some (fs', [], .ok)) ∧ fs' b!"out" = some file ∧ file ≠ [] ∧
    (∃ f1 fs'', (∀ n rounds, f1 ≤ n → f1 ≤ rounds →
      mainP v { demoHost with files := fs' } demoTiming n rounds [b!"-d", b!"out", b!"back"] = some (fs'', [], .ok)) ∧
      fs'' b!"back" = some [1, 2, 3, 1, 2, 3]) ∧
    ∃ f2, ∀ n rounds, f2 ≤ n → f2 ≤ rounds → ∀ fs'' so,
      mainP v { demoHost with files := fs'.set b!"out" file.dropLast } demoTiming n rounds [b!"-d", b!"out", b!"back"] ≠ some (fs'', so, .ok) := by
  have q := demo_calm demoHost rfl rfl
  have v1 : ∀ w ∈ [Word.file b!"in", .setting .internal, .file b!"out"], w.Valid := by
    intro w hw
    simp only [List.mem_cons, List.not_mem_nil, or_false] at hw
    rcases hw with rfl | rfl | rfl
    · exact ⟨by decide, by decide⟩
    · trivial
    · exact ⟨by decide, by decide⟩
  have v2 : ∀ w ∈ [Word.setting .decompress, .file b!"out", .file b!"back"], w.Valid := by
    intro w hw
    simp only [List.mem_cons, List.not_mem_nil, or_false] at hw
    rcases hw with rfl | rfl | rfl
    · trivial
    · exact ⟨by decide, by decide⟩
    · exact ⟨by decide, by decide⟩
  have t1 : List.map Word.text [.file b!"in", .setting .internal, .file b!"out"] = [b!"in", b!"-nobrotli", b!"out"] := by decide +kernel
  have t2 : List.map Word.text [.setting .decompress, .file b!"out", .file b!"back"] = [b!"-d", b!"out", b!"back"] := by decide +kernel
  obtain ⟨f0, fs', file, tail, h1, h2, h3, h4, h5⟩ := compress_file_threads v demoHost demoTiming q.1 q.2
    [.file b!"in", .setting .internal, .file b!"out"] v1 (inp := b!"in") (out := b!"out") rfl (by decide) rfl
    (internal_faithful v _ rfl (by decide) (by decide) (by
      intro w p hp
      simp only [settings, List.mem_cons, List.not_mem_nil, or_false, reduceCtorEq] at hp)) (by decide)
    (data := [1, 2, 3, 1, 2, 3]) rfl (by decide) rfl (.inr (by decide))
  obtain rfl := h5 rfl
  rw [List.append_nil] at h3
  have hne : file ≠ [] := by
    rintro rfl
    exact absurd (Cli.serves_magic h4.1) (by decide)
  rw [t1] at h1
  refine ⟨f0, fs', file, h1, h3, hne, ?_, ?_⟩
  · obtain ⟨f1, fs'', k1, -, k3⟩ := decompress_file_threads v { demoHost with files := fs' } demoTiming (demo_calm _ rfl rfl).1
      [.setting .decompress, .file b!"out", .file b!"back"] v2 (inp := b!"out") (out := b!"back") rfl (by decide) ⟨rfl, rfl⟩ (by decide)
      (file := file) (tail := []) (by rw [List.append_nil]; exact h3) h4 rfl
    rw [t2] at k1
    exact ⟨f1, fs'', k1, k3⟩
  · have hcut := cut_input_threads v { demoHost with files := fs'.set b!"out" file.dropLast } demoTiming (demo_calm _ rfl rfl).1
      [.setting .decompress, .file b!"out", .file b!"back"] v2 (inp := b!"out") (out := b!"back") rfl (by decide) ⟨rfl, rfl⟩ (by decide)
      (file := file.dropLast) (missing := [file.getLast hne]) (set_same fs' b!"out" file.dropLast) (by simp)
      (data := [1, 2, 3, 1, 2, 3]) (by rw [List.dropLast_concat_getLast]; exact h4) rfl
    rw [t2] at hcut
    rcases hcut with ⟨f2, fs2, part, k1, -⟩ | ⟨-, f2, k1⟩
    · refine ⟨f2, fun n rounds a b fs'' so hx => ?_⟩
      rw [k1 n rounds a b] at hx
      cases hx
    · refine ⟨f2, fun n rounds a b fs'' so hx => ?_⟩
      rw [k1 n rounds a b] at hx
      cases hx

/-- `divans -d in out` where `in` is a header: it never ends. -/
example (v : Env) : ∃ f0, ∀ n rounds, f0 ≤ rounds →
    mainP v { demoHost with files := fun x => if x = b!"in" then some (File.oddFile.take 16) else none } demoTiming n rounds
      [b!"-d", b!"in", b!"out"] = none := by
  have hg : ∃ w, Frame.GoodHeader (File.oddFile.take 16) w := by
    have : (Frame.parseHeader (File.oddFile.take 16)).isSome = true := by decide +kernel
    obtain ⟨w, hw⟩ := Option.isSome_iff_exists.1 this
    exact ⟨w, (Frame.parseHeader_iff _ (by decide +kernel) w).1 hw⟩
  obtain ⟨w, hg⟩ := hg
  have t2 : List.map Word.text [.setting .decompress, .file b!"in", .file b!"out"] = [b!"-d", b!"in", b!"out"] := by decide +kernel
  rw [← t2]
  exact header_hangs_threads v _ demoTiming (demo_calm _ rfl rfl).1 [.setting .decompress, .file b!"in", .file b!"out"]
    (by
      intro w hw
      simp only [List.mem_cons, List.not_mem_nil, or_false] at hw
      rcases hw with rfl | rfl | rfl
      · trivial
      · exact ⟨by decide, by decide⟩
      · exact ⟨by decide, by decide⟩)
    (inp := b!"in") (out := b!"out") rfl (by decide) ⟨rfl, rfl⟩ rfl (by decide) hg (show (if b!"in" = b!"in" then some (File.oddFile.take 16) else none) = _ from if_pos rfl) rfl

/-- The program with its thread, computed: `divans -d in out` on a file of 69 bytes, and on its first 34. -/
example : (mainP ⟨File.noWords, fun _ => Codec.demoPm, fun _ => .dead⟩
      { demoHost with files := fun x => if x = b!"in" then some File.oddFile else none } demoTiming 400 200 [b!"-d", b!"in", b!"out"]).map
      (fun x => x.2.2) = some .ok ∧
    (mainP ⟨File.noWords, fun _ => Codec.demoPm, fun _ => .dead⟩
      { demoHost with files := fun x => if x = b!"in" then some (File.oddFile.take 34) else none } demoTiming 400 200
        [b!"-d", b!"in", b!"out"]).map (fun x => x.2.2) = none := by decide +kernel

/-- `divans in -nobrotli out extra` and `divans gone out` are refused; `divans in out`, on a file of 69 bytes, decompresses it, and not
one with a wrong checksum. -/
example (v : Env) : mainP v demoHost demoTiming 5 5 [b!"in", b!"-nobrotli", b!"out", b!"extra"] = some (demoHost.files, [], .panic) := by
  have v1 : ∀ w ∈ [Word.file b!"in", .setting .internal, .file b!"out"], w.Valid := by
    intro w hw
    simp only [List.mem_cons, List.not_mem_nil, or_false] at hw
    rcases hw with rfl | rfl | rfl
    · exact ⟨by decide, by decide⟩
    · trivial
    · exact ⟨by decide, by decide⟩
  have t1 : List.map Word.text [.file b!"in", .setting .internal, .file b!"out"] = [b!"in", b!"-nobrotli", b!"out"] := by decide +kernel
  have := (refused_threads v demoHost demoTiming 5 5 [.file b!"in", .setting .internal, .file b!"out"] v1 (inp := b!"in") (out := b!"out") rfl).2
    b!"extra" [] (by decide +kernel)
  rw [t1] at this
  exact this

example : (mainP ⟨File.noWords, fun _ => Codec.demoPm, fun _ => .dead⟩
      { demoHost with files := fun x => if x = b!"in" then some File.oddFile else none } demoTiming 400 200 [b!"in", b!"out"]).map
      (fun x => x.2.2) = some .ok ∧
    (mainP ⟨File.noWords, fun _ => Codec.demoPm, fun _ => .dead⟩
      { demoHost with files := fun x => if x = b!"in" then some (File.oddFile.take 62 ++ 0 :: File.oddFile.drop 63) else none } demoTiming 400 200
        [b!"in", b!"out"]).map (fun x => x.2.2) = some .panic := by decide +kernel

end Divans.Main
