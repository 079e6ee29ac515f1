import Verif.OnceLemmas
import Verif.FileProps

/-!
# C54: the result of decompression is determined by the bytes

* `streams_once_partial`: a run of the two decoders on *any* bytes that reached the end, and carried
  out only commands the ring can carry out, fixes the result: every other schedule of the same bytes,
  with anything behind them, gives out a beginning of the same data, never fails, and gets to the end.
* `success_once_partial`: the same for the decompressor, from file bytes to data.
* `success_depends_on_buffers`: without the restriction to commands the ring can carry out this is
  false.  There is a file, with a correct checksum, that is decompressed when the caller's output
  buffers are small and makes the decompressor panic when they are not.
-/

namespace Divans.Pipe
open Divans.Adaptive

variable {dw : Nat → Nat → Nat → List UInt8} {L : Nat}

/-- A run that reached the end shows that the invariant of `any_schedule` holds at the start. -/
theorem start_ok (hL : 8 ≤ L) {acts : List Act} {r : Rcv} {out : List UInt8}
    (h : run dw (Rcv.init L) acts = .ok (r, out)) (hf : r.at_ = .finished) (ht : Tame dw (Rcv.init L) acts)
    (futC futL : List UInt8) :
    ∃ F tc gs tl, ROk false dw L F tc gs tl (cmdArrived acts ++ futC) (litArrived acts ++ futL) (Rcv.init L) [] ∧
      out = F.drop L := by
  have s := stand_init hL
  obtain ⟨F, ⟨tc, gs, tl, f1, f2, f3, f4⟩, hE⟩ := run_back hL acts _ _ _ _ _ s ht h hf futC futL
  exact ⟨F, tc, gs, tl, ⟨f1, f2, f3, mainOk_of s.at_ f4⟩, hE⟩

/-- **C54 (the two streams).**  Let a run on any bytes have reached the end, carrying out only
commands the ring can carry out.  Then, for the same bytes with anything behind them:

* under every schedule in which a beginning of these arrives, nothing fails, and what is given out is
  a beginning of what was given out then, all of it when the end is reported;
* once they have arrived, finitely many rounds with nonempty output buffers report the end. -/
theorem streams_once_partial (dw : Nat → Nat → Nat → List UInt8) (L : Nat) (hL : 8 ≤ L) (acts0 : List Act)
    (r0 : Rcv) (out0 : List UInt8) (h0 : run dw (Rcv.init L) acts0 = .ok (r0, out0)) (hf0 : r0.at_ = .finished)
    (ht : Tame dw (Rcv.init L) acts0) (tailC tailL : List UInt8) (acts : List Act) :
    (cmdArrived acts <+: cmdArrived acts0 ++ tailC → litArrived acts <+: litArrived acts0 ++ tailL →
      ∃ r out, run dw (Rcv.init L) acts = .ok (r, out) ∧ out <+: out0 ∧ (r.at_ = .finished → out = out0)) ∧
    (cmdArrived acts = cmdArrived acts0 ++ tailC → litArrived acts = litArrived acts0 ++ tailL →
      ∃ n, ∀ rooms : List Nat, n ≤ rooms.length → (∀ k ∈ rooms, 0 < k) →
        ∃ r, run dw (Rcv.init L) (acts ++ rounds rooms) = .ok (r, out0) ∧ r.at_ = .finished) := by
  obtain ⟨F, tc, gs, tl, hstart, hF⟩ := start_ok hL h0 hf0 ht tailC tailL
  constructor
  · intro ⟨futC, hc⟩ ⟨futL, hl⟩
    rw [← hc, ← hl] at hstart
    obtain ⟨r, out, tc', gs', tl', hr, hok⟩ := run_ok hL acts _ _ _ _ _ hstart
    rw [List.nil_append] at hok
    refine ⟨r, out, hr, by rw [hF]; exact hok.main.prefix, fun hf => ?_⟩
    have := hok.main
    unfold MainOk at this
    rw [hf] at this
    rw [hF]
    exact this.2
  · intro hc hl
    rw [← hc, ← hl, ← List.append_nil (cmdArrived acts), ← List.append_nil (litArrived acts)] at hstart
    obtain ⟨r, out, tc', gs', tl', hr, hok⟩ := run_ok hL acts _ _ _ _ _ hstart
    rw [List.nil_append] at hok
    refine ⟨todo L F tc' gs' tl' r out, fun rooms hn hpos => ?_⟩
    obtain ⟨r', out', e1, e2, e3⟩ := rounds_finish hL rooms _ _ _ _ _ hpos hok hn
    refine ⟨r', ?_, e2⟩
    rw [hF, ← e3]
    exact run_append _ _ _ _ _ _ _ hr e1

theorem tame_snoc {a : Act} : ∀ (as : List Act) {r r' r'' : Rcv} {o o' : List UInt8}, Tame dw r as →
    run dw r as = .ok (r', o) → r'.act dw a = .ok (r'', o') → TameAt r'' → Tame dw r (as ++ [a]) := by
  intro as
  induction as with
  | nil =>
    intro r r' r'' o o' h hr ha ht
    simp only [run, Codec.Res.ok.injEq, Prod.mk.injEq] at hr
    obtain ⟨rfl, rfl⟩ := hr
    refine ⟨h, fun x hx => ?_⟩
    rw [ha] at hx
    cases hx
    exact ht
  | cons b as ih =>
    intro r r' r'' o o' h hr ha ht
    refine ⟨h.1, fun x hx => ?_⟩
    simp only [run, hx, Codec.Res.bind] at hr
    cases hq : run dw x.1 as with
    | fail => rw [hq] at hr; cases hr
    | panic => rw [hq] at hr; cases hr
    | ok y =>
      rw [hq] at hr
      cases hr
      exact ih (h.2 x hx) hq ha ht

theorem run_snoc {as : List Act} {a : Act} {r r' r'' : Rcv} {o o' : List UInt8} (h : run dw r as = .ok (r', o))
    (ha : r'.act dw a = .ok (r'', o')) : run dw r (as ++ [a]) = .ok (r'', o ++ o') :=
  run_append _ _ _ _ _ _ _ h (by simp only [run, ha, Codec.Res.bind, List.append_nil])

theorem cmdArrived_append (as bs : List Act) : cmdArrived (as ++ bs) = cmdArrived as ++ cmdArrived bs := by
  induction as with
  | nil => rfl
  | cons a as ih => rw [List.cons_append, cmdArrived_cons, ih, cmdArrived_cons a as, List.append_assoc]

theorem litArrived_append (as bs : List Act) : litArrived (as ++ bs) = litArrived as ++ litArrived bs := by
  induction as with
  | nil => rfl
  | cons a as ih => rw [List.cons_append, litArrived_cons, ih, litArrived_cons a as, List.append_assoc]

end Divans.Pipe

namespace Divans.File
open Divans.Adaptive Divans.Pipe
open Divans.Crc (crc32c)
open Divans.Frame (trailer GoodHeader)

/-- The command being carried out, if any, is one the ring can carry out. -/
def TameAt (d : Dec) : Prop := ∀ b, d.stage = .body b → Pipe.TameAt b.rcv

/-- Every command carried out in a run is one the ring can carry out: distances positive and below the
window, dictionary words shorter than the window. -/
def Tame (dw : Nat → Nat → Nat → List UInt8) : Dec → List Act → Prop
  | d, [] => TameAt d
  | d, a :: as => TameAt d ∧ ∀ x, d.act dw a = .ok x → Tame dw x.1 as

variable {dw : Nat → Nat → Nat → List UInt8}

theorem Tame.head {d : Dec} {acts : List Act} (h : Tame dw d acts) : TameAt d := by
  cases acts with
  | nil => exact h
  | cons a as => exact h.1

/-- The two decoders, with the literal bytes in the demultiplexer. -/
def Body.pipe (b : Body) : Rcv := { b.rcv with litRx := { b.rcv.litRx with buf := b.mux.unread true } }

/-- The invariant for any input: as `Seen`, and the decoders got where they are by a run of their own
on the bytes of the two streams, giving out `E`. -/
def Ran (dw : Nat → Nat → Nat → List UInt8) (d : Dec) (all E : List UInt8) : Prop :=
  match d.stage with
  | .header got => got.length < 16 ∧ all = got ++ d.pending ∧ E = []
  | .body b => ∃ h w s body pacts, GoodHeader h w ∧ Mux.runAll .init body = some s ∧ s.eof = b.mux.eof ∧
      s.btd = Mux.norm b.mux.btd ∧ b.mux.Ok ∧ (d.skip = false → b.crc = crc32c (h ++ body)) ∧
      b.sum.length ≤ 8 ∧ (b.sum ≠ [] → b.mux.eof = .done) ∧ all = h ++ body ++ b.sum ++ d.pending ∧
      Pipe.run dw (Rcv.init (2 ^ w)) pacts = .ok (b.pipe, E) ∧ Pipe.Tame dw (Rcv.init (2 ^ w)) pacts ∧
      cmdArrived pacts ++ b.mux.unread false = s.out false ∧ litArrived pacts = s.out true

theorem ran_new (skip : Bool) : Ran dw (.new skip) [] [] := ⟨by simp, rfl, rfl⟩

theorem ran_input {d d' : Dec} {all E : List UInt8} (h : Ran dw d all E) (ht : TameAt d') (e : d.input = .ok d') :
    Ran dw d' all E ∧ d'.skip = d.skip := by
  unfold Dec.input at e
  unfold Ran at h
  cases hst : d.stage with
  | header got =>
    rw [hst] at h e
    simp only at h e
    obtain ⟨hlen, hall, rfl⟩ := h
    unfold Frame.headerDecode at e
    simp only at e
    by_cases hp : d.pending.length ≥ 16 - got.length
    · rw [if_pos hp] at e
      cases hph : Frame.parseHeader (got ++ d.pending.take (16 - got.length)) with
      | none => rw [hph] at e; cases e
      | some w =>
        rw [hph] at e
        cases e
        have hl16 : (got ++ d.pending.take (16 - got.length)).length = 16 := by
          rw [List.length_append, List.length_take]; omega
        refine ⟨⟨got ++ d.pending.take (16 - got.length), w, .init, [], [], (Frame.parseHeader_iff _ hl16 w).mp hph, rfl,
          rfl, rfl, Mux.ok_new, ?_, by simp, by simp, ?_, rfl, ?_, rfl, rfl⟩, rfl⟩
        · intro hs
          have hs' : d.skip = false := hs
          simp only [hs', Bool.false_eq_true, if_false, List.append_nil]
          rw [Crc.crc_correct]
        · simp only [List.append_nil]
          rw [List.append_assoc, List.take_append_drop, hall]
        · intro c hc; cases hc
    · rw [if_neg hp] at e
      cases e
      refine ⟨⟨by rw [List.length_append]; omega, ?_, rfl⟩, rfl⟩
      simp [hall]
  | body b =>
    rw [hst] at h e
    simp only at h e
    obtain ⟨hd, w, s, body, pacts, hgood, hrun, hse, hsb, hok, hcrc, hsl, hsne, hall, hp1, hp2, hp3, hp4⟩ := h
    obtain ⟨m, n, e1, hok', hn, hrun', hz, -⟩ := Mux.deserialize_spec hok d.pending
    unfold Body.input at e
    rw [e1] at e
    simp only at e
    have hbody : ∃ s', ∃ x : Bool → List UInt8, Mux.runAll .init (body ++ d.pending.take n) = some s' ∧
        s'.eof = m.eof ∧ s'.btd = Mux.norm m.btd ∧ (∀ i, s'.out i = s.out i ++ x i) ∧
        ∀ i, m.unread i = b.mux.unread i ++ x i := by
      rw [Mux.runAll_append, hrun, Option.bind_some]
      have h0 := runAll_prepend s.out (d.pending.take n) ⟨s.btd, s.eof, fun _ => []⟩
      obtain ⟨s2, h2, h2e, h2b, h2o⟩ := runAll_strip (o' := fun _ => []) (g := b.mux.unread) hrun'
        (fun i => by simp)
      rw [hse, hsb] at h0
      have : Mux.runAll ⟨Mux.norm b.mux.btd, b.mux.eof, fun _ => []⟩ (d.pending.take n) = some s2 := h2
      simp only [this, List.append_nil, Option.map_some] at h0
      refine ⟨⟨s2.btd, s2.eof, fun i => s.out i ++ s2.out i⟩, s2.out, ?_, ?_, ?_, fun _ => rfl, h2o⟩
      · rw [← h0, ← hse, ← hsb]
      · simp only; rw [h2e]; rfl
      · simp only; rw [h2b]; rfl
    obtain ⟨s', x, hs', hs'e, hs'b, hs'o, hu⟩ := hbody
    have hcrc' : d.skip = false → (if d.skip then b.crc else Crc.update b.crc (d.pending.take n)) =
        crc32c (hd ++ (body ++ d.pending.take n)) := by
      intro hs
      rw [hs, if_neg (by simp), hcrc hs, Frame.crc_append, List.append_assoc]
    have hfix : b.sum ≠ [] → n = 0 := by
      intro hne
      have hdone := hsne hne
      cases hp : d.pending with
      | nil => rw [hp] at hn; simpa using hn
      | cons x r =>
        rcases Nat.eq_zero_or_pos n with h0 | h0
        · exact h0
        · exfalso
          obtain ⟨n', rfl⟩ : ∃ n', n = n' + 1 := ⟨n - 1, by omega⟩
          rw [hp, List.take_succ_cons, Mux.runAll, Mux.step, if_pos (by simp [Mux.scanOf, hdone])] at hrun'
          cases hrun'
    have hsplit : hd ++ (body ++ d.pending.take n) ++ b.sum ++ d.pending.drop n = all := by
      rw [hall]
      by_cases hne : b.sum = []
      · rw [hne]
        simp only [List.append_nil, List.append_assoc, List.take_append_drop]
      · rw [hfix hne]
        simp
    have hact : b.pipe.act dw (.litBytes (x true)) =
        .ok ({ b.rcv with litRx := { b.rcv.litRx with buf := m.unread true } }, []) := by
      rw [hu true]; rfl
    have hq1 := run_snoc hp1 hact
    rw [List.append_nil] at hq1
    have hq3 : cmdArrived (pacts ++ [.litBytes (x true)]) ++ m.unread false = s'.out false := by
      rw [cmdArrived_append, hu false, hs'o, ← hp3]; simp [cmdArrived]
    have hq4 : litArrived (pacts ++ [.litBytes (x true)]) = s'.out true := by
      rw [litArrived_append, hs'o, hp4]; simp [litArrived]
    by_cases hc : m.sawEof = true ∧ b.sum.length ≠ 8
    · rw [if_pos hc] at e
      simp only at e
      cases e
      refine ⟨⟨hd, w, s', body ++ d.pending.take n, pacts ++ [.litBytes (x true)], hgood, hs', hs'e, hs'b, hok', hcrc',
        ?_, ?_, ?_, hq1, tame_snoc _ hp2 hp1 hact (by exact fun c hc => ht _ rfl c hc), hq3, hq4⟩, rfl⟩
      · rw [List.length_append, List.length_take]; omega
      · intro _; exact of_decide_eq_true hc.1
      · simp only
        rw [← hsplit, List.append_assoc _ (b.sum ++ _), List.append_assoc b.sum, List.take_append_drop]
        simp only [List.append_assoc]
    · rw [if_neg hc] at e
      simp only at e
      cases e
      refine ⟨⟨hd, w, s', body ++ d.pending.take n, pacts ++ [.litBytes (x true)], hgood, hs', hs'e, hs'b, hok', hcrc',
        hsl, ?_, hsplit.symm, hq1, tame_snoc _ hp2 hp1 hact (by exact fun c hc => ht _ rfl c hc), hq3, hq4⟩, rfl⟩
      intro hne
      have h0 := hfix hne
      subst h0
      simp only [List.take_zero, Mux.runAll, Option.some.injEq] at hrun'
      have : b.mux.eof = m.eof := congrArg Mux.Scan.eof hrun'
      simp only
      rw [← this]
      exact hsne hne

theorem ran_act {d d' : Dec} {all E o : List UInt8} (a : Act) (h : Ran dw d all E) (ht : TameAt d')
    (e : d.act dw a = .ok (d', o)) : Ran dw d' (all ++ fed [a]) (E ++ o) ∧ d'.skip = d.skip := by
  cases a with
  | more piece =>
    cases e
    refine ⟨?_, rfl⟩
    unfold Ran at h ⊢
    simp only [fed, List.append_nil]
    cases hst : d.stage with
    | header got =>
      rw [hst] at h
      exact ⟨h.1, by rw [h.2.1, List.append_assoc], h.2.2⟩
    | body b =>
      rw [hst] at h
      obtain ⟨hd, w, s, body, pacts, h1, h2, h3, h4, h5, h6, h7, h8, h9, h10⟩ := h
      exact ⟨hd, w, s, body, pacts, h1, h2, h3, h4, h5, h6, h7, h8, by rw [h9, List.append_assoc], h10⟩
  | input =>
    simp only [Dec.act] at e
    cases hi : d.input with
    | fail => rw [hi] at e; cases e
    | panic => rw [hi] at e; cases e
    | ok d1 =>
      rw [hi] at e
      cases e
      simp only [fed, List.append_nil]
      exact ran_input h ht hi
  | hand =>
    simp only [Dec.act] at e
    simp only [fed, List.append_nil]
    cases hst : d.stage with
    | header got => rw [hst] at e; cases e; exact ⟨by simpa using h, rfl⟩
    | body b =>
      rw [hst] at e
      cases e
      refine ⟨?_, rfl⟩
      have ht' := ht _ rfl
      unfold Ran at h ⊢
      rw [hst] at h
      obtain ⟨hd, w, s, body, pacts, h1, h2, h3, h4, h5, h6, h7, h8, h9, h10, h11, h12, h13⟩ := h
      obtain ⟨k1, k2, k3, k4, k5, k6⟩ := takeBuf_spec h5 false
      simp only [List.append_nil]
      unfold Body.hand at ht' ⊢
      by_cases hu : b.mux.unread false = []
      · rw [if_pos hu]
        exact ⟨hd, w, s, body, pacts, h1, h2, h3, h4, h5, h6, h7, h8, h9, h10, h11, h12, h13⟩
      · rw [if_neg hu] at ht' ⊢
        have hact : b.pipe.act dw (.cmdBytes (b.mux.unread false)) = .ok (Body.pipe
            { b with mux := (b.mux.takeBuf false).1,
                     rcv := { b.rcv with cmdRx := b.rcv.cmdRx.push (b.mux.takeBuf false).2.unread } }, []) := by
          unfold Body.pipe Rcv.act
          simp only
          rw [k2, k4 true (by simp)]
        have hr := run_snoc h10 hact
        rw [List.append_nil] at hr
        refine ⟨hd, w, s, body, pacts ++ [.cmdBytes (b.mux.unread false)], h1, h2, h3, h4, k1, h6, h7, h8, h9, hr,
          tame_snoc _ h11 h10 hact (by exact fun c hc => ht' c hc), ?_, ?_⟩
        · rw [cmdArrived_append]
          simp only
          rw [k3, ← h12]
          simp [cmdArrived]
        · rw [litArrived_append, h13]; simp [litArrived]
  | recycle mem =>
    simp only [Dec.act] at e
    simp only [fed, List.append_nil]
    cases hst : d.stage with
    | header got => rw [hst] at e; cases e; exact ⟨by simpa using h, rfl⟩
    | body b =>
      rw [hst] at e
      cases e
      refine ⟨?_, rfl⟩
      unfold Ran at h ⊢
      rw [hst] at h
      obtain ⟨hd, w, s, body, pacts, h1, h2, h3, h4, h5, h6, h7, h8, h9, h10, h11, h12, h13⟩ := h
      obtain ⟨k1, k2, k5, k6⟩ := recycle_spec h5 false mem
      simp only [List.append_nil]
      refine ⟨hd, w, s, body, pacts, h1, h2, h3.trans k6.symm, by rw [k5]; exact h4, k1, h6, h7,
        fun hx => k6.trans (h8 hx), h9, ?_, h11, by rw [k2]; exact h12, h13⟩
      rw [h10]
      unfold Body.pipe
      simp only
      rw [k2]
  | worker =>
    simp only [Dec.act] at e
    simp only [fed, List.append_nil]
    cases hst : d.stage with
    | header got => rw [hst] at e; cases e; exact ⟨by simpa using h, rfl⟩
    | body b =>
      rw [hst] at e
      simp only at e
      cases hw : b.rcv.worker with
      | fail => rw [hw] at e; cases e
      | panic => rw [hw] at e; cases e
      | ok r =>
        rw [hw] at e
        cases e
        refine ⟨?_, rfl⟩
        have ht' := ht _ rfl
        unfold Ran at h ⊢
        rw [hst] at h
        obtain ⟨hd, w, s, body, pacts, h1, h2, h3, h4, h5, h6, h7, h8, h9, h10, h11, h12, h13⟩ := h
        have hlit : r.litRx = b.rcv.litRx := by
          have := worker_lit b.rcv b.rcv.litRx
          have h0 : ({ b.rcv with litRx := b.rcv.litRx } : Rcv) = b.rcv := rfl
          rw [h0, hw] at this
          simp only [Codec.Res.bind, Codec.Res.ok.injEq] at this
          rw [this]
        have hact : b.pipe.act dw .worker = .ok (Body.pipe { b with rcv := r }, []) := by
          unfold Body.pipe Rcv.act
          simp only
          rw [worker_lit, hw, hlit]
          rfl
        have hr := run_snoc h10 hact
        rw [List.append_nil] at hr ⊢
        refine ⟨hd, w, s, body, pacts ++ [.worker], h1, h2, h3, h4, h5, h6, h7, h8, h9, hr,
          tame_snoc _ h11 h10 hact (by exact fun c hc => ht' c hc), ?_, ?_⟩
        · rw [cmdArrived_append, ← h12]; simp [cmdArrived]
        · rw [litArrived_append, h13]; simp [litArrived]
  | main room =>
    simp only [Dec.act] at e
    simp only [fed, List.append_nil]
    cases hst : d.stage with
    | header got => rw [hst] at e; cases e; exact ⟨by simpa using h, rfl⟩
    | body b =>
      rw [hst] at e
      simp only [Body.main] at e
      cases hw : Rcv.main dw { b.rcv with litRx := { b.rcv.litRx with buf := b.mux.unread true } } room with
      | fail => rw [hw] at e; cases e
      | panic => rw [hw] at e; cases e
      | ok x =>
        obtain ⟨r1, o1⟩ := x
        obtain ⟨k, hk⟩ := main_buf hw
        simp only at hk
        rw [drop_min] at hk
        obtain ⟨k', hk'⟩ : ∃ k', k' = min k (b.mux.unread true).length := ⟨_, rfl⟩
        rw [← hk'] at hk
        have hlen : (b.mux.unread true).length - r1.litRx.buf.length = k' := by
          rw [hk, List.length_drop]; omega
        rw [hw] at e
        simp only [Codec.Res.bind, hlen] at e
        cases e
        refine ⟨?_, rfl⟩
        have ht' := ht _ rfl
        unfold Ran at h ⊢
        rw [hst] at h
        obtain ⟨hd, w, s, body, pacts, h1, h2, h3, h4, h5, h6, h7, h8, h9, h10, h11, h12, h13⟩ := h
        obtain ⟨m1, m2, m3, m4, m5⟩ := unread_consume h5 true k' (by omega)
        have hr1 : Body.pipe { b with mux := b.mux.consume true k', rcv := r1 } = r1 := by
          unfold Body.pipe
          simp only
          rw [m2, ← hk]
        have hact : b.pipe.act dw (.main room) = .ok (Body.pipe { b with mux := b.mux.consume true k', rcv := r1 }, o) := by
          rw [hr1]; exact hw
        refine ⟨hd, w, s, body, pacts ++ [.main room], h1, h2, h3, h4, m1, h6, h7, h8, h9, run_snoc h10 hact,
          tame_snoc _ h11 h10 hact (by exact fun c hc => ht' c hc), ?_, ?_⟩
        · rw [cmdArrived_append]
          simp only
          rw [m3 false (by simp), ← h12]
          simp [cmdArrived]
        · rw [litArrived_append, h13]; simp [litArrived]

theorem ran_run : ∀ (acts : List Act) {d d' : Dec} {all E out : List UInt8},
    Ran dw d all E → Tame dw d acts → run dw d acts = .ok (d', out) →
    Ran dw d' (all ++ fed acts) (E ++ out) ∧ d'.skip = d.skip := by
  intro acts
  induction acts with
  | nil =>
    intro d d' all E out h _ e
    cases e
    exact ⟨by simpa [fed] using h, rfl⟩
  | cons a as ih =>
    intro d d' all E out h ht e
    simp only [run] at e
    cases ha : d.act dw a with
    | fail => rw [ha] at e; cases e
    | panic => rw [ha] at e; cases e
    | ok x =>
      rw [ha] at e
      simp only [Codec.Res.bind] at e
      cases hr : run dw x.1 as with
      | fail => rw [hr] at e; cases e
      | panic => rw [hr] at e; cases e
      | ok y =>
        rw [hr] at e
        cases e
        have ht1 := ht.2 x ha
        obtain ⟨h1, h2⟩ := ran_act a h ht1.head (o := x.2) ha
        obtain ⟨h3, h4⟩ := ih h1 ht1 hr
        refine ⟨?_, h4.trans h2⟩
        have : fed (a :: as) = fed [a] ++ fed as := by cases a <;> simp [fed]
        rw [this, ← List.append_assoc, ← List.append_assoc]
        exact h3

/-- **C54.**  Let a decompressor have reported success on any bytes, having carried out only commands
the window can carry out, and let `used` be the bytes it accepted.  Then, for these bytes with
anything behind them, given to a decompressor that checks no more than the first:

* under every schedule in which a beginning of these arrives, nothing fails, the bytes given out are
  a beginning of the first output, the checksum is not rejected, and success is only reported when the
  output is the first output and exactly the bytes `used` have been taken;
* once they have arrived, finitely many rounds with nonempty output buffers report success. -/
theorem success_once_partial (dw : Nat → Nat → Nat → List UInt8) (skip0 : Bool) (acts0 : List Act) (d0 : Dec)
    (out0 used : List UInt8) (h0 : run dw (.new skip0) acts0 = .ok (d0, out0)) (hv0 : d0.verdict = .success)
    (ht : Tame dw (.new skip0) acts0) (hu : fed acts0 = used ++ d0.pending)
    (skip : Bool) (hskip : skip = false → skip0 = false) (tail : List UInt8) (acts : List Act) :
    (fed acts <+: used ++ tail →
      ∃ d out, run dw (.new skip) acts = .ok (d, out) ∧ out <+: out0 ∧ d.verdict ≠ .failure ∧
        (d.verdict = .success → out = out0 ∧ fed acts = used ++ d.pending)) ∧
    (fed acts = used ++ tail →
      ∃ n, ∀ rooms : List Nat, n ≤ rooms.length → (∀ k ∈ rooms, 0 < k) →
        ∃ d, run dw (.new skip) (acts ++ frounds rooms) = .ok (d, out0) ∧ d.verdict = .success ∧ d.pending = tail) := by
  obtain ⟨hran, hsk⟩ := ran_run acts0 (ran_new skip0) ht h0
  rw [List.nil_append, List.nil_append] at hran
  unfold Dec.verdict at hv0
  unfold Ran at hran
  cases hst : d0.stage with
  | header got => rw [hst] at hv0; cases hv0
  | body b =>
    rw [hst] at hv0 hran
    simp only at hv0
    obtain ⟨h, w, s, body, pacts, hg, hrun, hse, -, -, hcrc, -, hsne, hall, hp1, hp2, hp3, hp4⟩ := hran
    split at hv0
    · cases hv0
    next hfin =>
    rw [Decidable.not_not] at hfin
    split at hv0
    · cases hv0
    next hlen =>
    rw [Decidable.not_not] at hlen
    split at hv0
    rotate_left
    · cases hv0
    next hok =>
    have hdone : s.eof = .done := by
      rw [hse]
      apply hsne
      intro h0
      rw [h0] at hlen
      cases hlen
    have hused : used = h ++ body ++ b.sum := by
      rw [hu] at hall
      exact List.append_cancel_right hall
    have hL : 8 ≤ 2 ^ w := by
      have h10 : 10 ≤ w := hg.2.2.2.1
      calc 8 ≤ 2 ^ 10 := by decide
        _ ≤ 2 ^ w := Nat.pow_le_pow_right (by decide) h10
    have hsum : sumOk skip (if skip then Crc.init else crc32c (h ++ body)) b.sum = true := by
      rw [sumOk_spec _ _ _ hlen] at hok ⊢
      refine ⟨fun hs => ?_, hok.2⟩
      have hs' : d0.skip = false := by rw [hsk]; exact hskip hs
      rw [hok.1 hs', hcrc hs', hs]
      rfl
    obtain ⟨F, tc, gs, tl, hstart, hF⟩ := start_ok hL hp1 (by exact hfin) hp2 (b.mux.unread false) []
    rw [hp3, List.append_nil, hp4] at hstart
    have hinit : FOk false dw (2 ^ w) F h body b.sum tail (.new skip) (used ++ tail) []
        (h.length + body.length + b.sum.length + todo (2 ^ w) F tc gs tl (Rcv.init (2 ^ w)) []) := by
      refine ⟨h, s, tc, gs, tl, rfl, ?_, ?_, rfl, hrun, hdone, hstart, rfl⟩
      · intro h0
        have := hg.1
        rw [h0] at this
        cases this
      · rw [hused]; simp [Dec.new]
    constructor
    · intro ⟨fut, hfut⟩
      rw [← hfut] at hinit
      obtain ⟨d, out, T', e1, f1, s1⟩ := run_ok hg hlen hL acts hinit
      have s1' : d.skip = skip := s1
      obtain ⟨g1, g2, g3, -⟩ := fok_sum hlen (by rw [s1']; exact hsum) f1
      rw [List.nil_append, ← hF] at g1
      refine ⟨d, out, e1, g1, g2, fun hsu => ?_⟩
      obtain ⟨k1, k2⟩ := g3 hsu
      rw [List.nil_append, ← hF] at k1
      refine ⟨k1, ?_⟩
      rw [← k2, ← List.append_assoc] at hfut
      exact List.append_cancel_right hfut
    · intro hfed
      rw [← hfed, ← List.append_nil (fed acts)] at hinit
      obtain ⟨d, out, T', e1, f1, s1⟩ := run_ok hg hlen hL acts hinit
      refine ⟨T', fun rooms hn hpos => ?_⟩
      obtain ⟨d', o', T'', e2, f2, s2, a2⟩ := frounds_finish hg hlen hL rooms f1 hpos (Or.inr hn)
      have s2' : d'.skip = skip := s2.trans s1
      obtain ⟨-, -, g3, g4⟩ := fok_sum hlen (by rw [s2']; exact hsum) f2
      obtain ⟨k1, k2⟩ := g3 (g4 a2)
      rw [List.nil_append, ← hF] at k1
      rw [List.append_nil] at k2
      exact ⟨d', by rw [← k1]; exact run_append _ _ _ _ _ _ _ e1 e2, g4 a2, k2⟩

/-! ## Beyond the commands the ring can carry out -/

/-- A dictionary without words. -/
def noWords : Nat → Nat → Nat → List UInt8 := fun _ _ _ => []

/-- A file of 73 bytes with window 10 and a correct checksum.  Its commands are the literal `abc`, a copy
of 1100 bytes from distance 512 and a copy of 4 bytes from distance 1026. -/
def farFile : List UInt8 :=
  [255, 229, 140, 159, 0, 10, 0, 0, 0, 0, 0, 0, 0, 0, 0, 0, 0, 23, 0, 190, 25, 177, 2, 154, 1, 0, 0, 115, 147, 189, 45,
    38, 0, 0, 0, 53, 7, 44, 172, 131, 32, 68, 225, 1, 15, 0, 40, 53, 104, 100, 85, 0, 0, 0, 128, 143, 245, 25, 6, 15, 0,
    0, 255, 254, 255, 42, 181, 166, 170, 97, 110, 115, 126]

/-- The file arrives at once, the worker reads all commands, then the main side is called with the given
output buffers. -/
def farActs (rooms : List Nat) : List Act :=
  [.more farFile, .input, .input, .hand] ++ List.replicate 24 .worker ++ rooms.map .main

/-- Success, with all bytes taken, and so many bytes of output. -/
def succeeds (n : Nat) : Codec.Res (Dec × List UInt8) → Bool
  | .ok (d, out) => decide (d.verdict = .success ∧ d.pending = [] ∧ out.length = n)
  | _ => false

theorem succeeds_spec {n : Nat} {x : Codec.Res (Dec × List UInt8)} (h : succeeds n x = true) :
    ∃ d out, x = .ok (d, out) ∧ d.verdict = .success ∧ d.pending = [] ∧ out.length = n := by
  match x, h with
  | .ok (d, out), h => exact ⟨d, out, rfl, of_decide_eq_true h⟩

/-- The run panics. -/
def panics : Codec.Res (Dec × List UInt8) → Bool
  | .panic => true
  | _ => false

theorem panics_spec {x : Codec.Res (Dec × List UInt8)} (h : panics x = true) : x = .panic := by
  cases x with
  | panic => rfl
  | fail => cases h
  | ok y => cases h

/-- Calls with small buffers. -/
def smallRooms : List Nat := List.replicate 10 1 ++ [78, 1, 1, 1, 1, 2, 2, 2, 5000]

/-- Calls with large buffers. -/
def largeRooms : List Nat := List.replicate 13 5000

theorem far_fed (rooms : List Nat) : fed (farActs rooms) = farFile := by
  have h1 : ∀ (l : List Nat), fed (l.map .main) = [] := by
    intro l
    induction l with
    | nil => rfl
    | cons a l ih => exact ih
  have h2 : ∀ (n : Nat) (l : List Act), fed (List.replicate n .worker ++ l) = fed l := by
    intro n l
    induction n with
    | zero => rfl
    | succ n ih => exact ih
  show farFile ++ fed (List.replicate 24 .worker ++ rooms.map .main) = farFile
  rw [h2, h1, List.append_nil]

theorem far_small : succeeds 1107 (run noWords (.new false) (farActs smallRooms)) = true := by decide +kernel

theorem far_large : panics (run noWords (.new false) (farActs largeRooms)) = true := by decide +kernel

/-- **C54 is false without the restriction.**  The same file, with a correct checksum, is decompressed
when the caller's output buffers happen to be small enough, and makes the decompressor panic when they
are large. -/
theorem success_depends_on_buffers : ∃ (dw : Nat → Nat → Nat → List UInt8) (file : List UInt8) (acts acts' : List Act),
    fed acts = file ∧ fed acts' = file ∧
    (∃ d out, run dw (.new false) acts = .ok (d, out) ∧ d.verdict = .success ∧ d.pending = [] ∧ out.length = 1107) ∧
    run dw (.new false) acts' = .panic :=
  ⟨noWords, farFile, farActs smallRooms, farActs largeRooms, far_fed _, far_fed _, succeeds_spec far_small,
    panics_spec far_large⟩

/-! ## The theorems are not vacuous -/

/-- A run in which every command is checked before it is carried out. -/
def tameRun (dw : Nat → Nat → Nat → List UInt8) : Dec → List Act → Bool
  | d, as =>
    (match d.stage with
      | .header _ => true
      | .body b =>
        match b.rcv.at_ with
        | .filling c => decide (Recode.Valid b.rcv.ring.len c)
        | _ => true) &&
    match as with
    | [] => true
    | a :: as =>
      match d.act dw a with
      | .ok x => tameRun dw x.1 as
      | _ => true

theorem tameAt_of {d : Dec} (h : (match d.stage with
      | .header _ => true
      | .body b =>
        match b.rcv.at_ with
        | .filling c => decide (Recode.Valid b.rcv.ring.len c)
        | _ => true) = true) : TameAt d := by
  intro b hb c hc
  rw [hb] at h
  simp only [hc] at h
  exact of_decide_eq_true h

theorem tame_of : ∀ (as : List Act) (d : Dec), tameRun dw d as = true → Tame dw d as := by
  intro as
  induction as with
  | nil =>
    intro d h
    rw [tameRun, Bool.and_eq_true] at h
    exact tameAt_of h.1
  | cons a as ih =>
    intro d h
    rw [tameRun, Bool.and_eq_true] at h
    refine ⟨tameAt_of h.1, fun x hx => ih _ ?_⟩
    have := h.2
    simp only [hx] at this
    exact this

/-- A file no compressor writes: a literal `abc` and a copy of 10 bytes from distance 3, with bytes behind the
end of both streams. -/
def oddFile : List UInt8 :=
  [255, 229, 140, 159, 0, 10, 0, 0, 0, 0, 0, 0, 0, 0, 0, 0, 0, 16, 0, 161, 155, 200, 0, 3, 8, 0, 0, 84, 20, 29, 1, 3, 8,
    0, 0, 7, 1, 18, 0, 40, 53, 104, 100, 85, 0, 0, 0, 128, 143, 245, 25, 6, 15, 0, 0, 1, 2, 3, 255, 254, 255, 122, 209,
    47, 209, 97, 110, 115, 126]

/-- It arrives in one piece. -/
def oddActs : List Act :=
  [.more oddFile, .input, .input, .hand] ++ List.replicate 16 .worker ++ List.replicate 12 (.main 20)

theorem odd_success : succeeds 13 (run noWords (.new false) oddActs) = true := by decide +kernel

theorem odd_tame : tameRun noWords (.new false) oddActs = true := by decide +kernel

/-- The hypotheses of `success_once_partial` are met by this file. -/
example : ∃ d out, run noWords (.new false) oddActs = .ok (d, out) ∧ d.verdict = .success ∧
    Tame noWords (.new false) oddActs ∧ d.pending = [] ∧ out.length = 13 := by
  obtain ⟨d, out, h1, h2, h3, h4⟩ := succeeds_spec odd_success
  exact ⟨d, out, h1, h2, tame_of _ _ odd_tame, h3, h4⟩

end Divans.File
