import Verif.CallCrash
import Verif.CallEndProps

/-!
# What can make the decompressor panic, for any bytes and any sequence of calls
-/

namespace Divans.Call
open Divans.Adaptive Divans.Pipe Divans.File

/-! ## Specification -/

/-- What a crash of a call can come from, as seen in the configuration in which it happens. -/
inductive Cause (dw : Nat → Nat → Nat → List UInt8) (c : Conf) : Prop where
  /-- The decoder of commands begins a copy, and the literal before it was announced with exactly `2^32` bytes, which
  is the length 0 in a `u32`. -/
  | hugeLiteral (k : Codec.CopySt) : c.ph = .work → c.s.b.rcv.core.at_ = .copy k → k.at_ = .countSmall →
      c.s.b.rcv.core.bk.lastLlen = 0 → Cause dw c
  /-- The decoder of commands reads that the length of a copy has more than 32 bits. -/
  | hugeCopy (k : Codec.CopySt) (n : Nat) : c.ph = .work → c.s.b.rcv.core.at_ = .copy k → k.at_ = .countMore → Reads c.s n →
      14 ≤ n → Cause dw c
  /-- The decoder of commands reads that a distance is one of the last two distances plus or minus 1 to 3, and that
  leaves the range of `i32`. -/
  | hugeDistance (k : Codec.CopySt) (n : Nat) : c.ph = .work → c.s.b.rcv.core.at_ = .copy k → k.at_ = .distMnem → Reads c.s n →
      Codec.Overflows c.s.b.rcv.core.bk.dist n → Cause dw c
  /-- The main side takes up a prediction mode with a speed byte that stands for more than `0x4000`. -/
  | badSpeed (p : Codec.Pm) (q : List Codec.Got) (f : Nat × Nat) : c.ph = .output → c.s.b.rcv.at_ = .idle →
      c.s.b.rcv.queue = .pm p :: q → f ∈ p.speeds → Lit.speedOf f = none → Cause dw c
  /-- The recoder is to copy from distance 0, or from at least as far back as the window is long. -/
  | badDistance (d n : Nat) : c.ph = .output → c.s.b.rcv.at_ = .filling (.copy d n) → 0 < n →
      (d = 0 ∨ c.s.b.rcv.ring.len ≤ d) → Cause dw c
  /-- The recoder is to insert a dictionary word that is at least as long as the window. -/
  | longWord (z i t n : Nat) : c.ph = .output → c.s.b.rcv.at_ = .filling (.dict (dw z i t) n) →
      c.s.b.rcv.ring.len ≤ (dw z i t).length → Cause dw c

/-! ## The invariant along calls -/

section
variable {dw : Nat → Nat → Nat → List UInt8} {skip : Bool} {L : Nat}

theorem init_fit (skip : Bool) (h : List UInt8) (w : Nat) : Fit dw (St.init skip h w) :=
  ⟨Codec.coreInv_init, by simp [St.init, held], by simp [St.init], by simp [St.init, Rcv.init], Lit.shape_init, rfl⟩

theorem input_hold {s t : St} {pend rest : List UInt8} {go : Bool} (h : s.input skip pend = some (t, rest, go)) :
    t.hold = s.hold ∧ t.result = s.result := by
  unfold St.input at h
  cases hb : s.b.input skip pend with
  | none => rw [hb] at h; cases h
  | some x =>
    obtain ⟨b, r⟩ := x
    rw [hb] at h
    simp only at h
    by_cases hu : b.mux.unread false ≠ []
    · rw [if_pos hu] at h
      cases hp : ({ s with b := b } : St).push with
      | none => rw [hp] at h; cases h; exact ⟨rfl, rfl⟩
      | some t' =>
        rw [hp] at h
        cases h
        exact push_hold (s := { s with b := b }) hp
    · rw [if_neg hu] at h; cases h; exact ⟨rfl, rfl⟩

/-- A step of a call: it keeps the invariant, and when it panics there is a cause. -/
theorem tick_fit {c : Conf} (hl : Live L c.s) (hL : Recode.repeatMax ≤ L) (f : Fit dw c.s) :
    (c.tick dw skip = .panic → Cause dw c) ∧ ∀ c' r, c.tick dw skip = .ok (c', r) → Fit dw c'.s := by
  unfold Conf.tick
  cases hph : c.ph with
  | input =>
    obtain ⟨t, n, go, e1, e2, e3, e4, -⟩ := input_live (skip := skip) hl c.pend
    simp only [e1]
    refine ⟨by simp, ?_⟩
    intro c' r h
    simp only [Codec.Res.ok.injEq, Prod.mk.injEq] at h
    obtain ⟨rfl, -⟩ := h
    obtain ⟨h1, h2⟩ := input_hold e1
    obtain ⟨f1, f2, f3, f4, f5, f6⟩ := f
    exact ⟨by simp only [e4]; exact f1, by simp only [h1]; exact f2, by simp only [h2]; exact f3, by simp only [e4]; exact f4,
      by simp only [e4]; exact f5, by simp only [e4]; exact f6⟩
  | work =>
    obtain ⟨h1, h2⟩ := work_fit f
    simp only
    cases hw : c.s.work with
    | fail => simp [Codec.Res.bind]
    | panic =>
      refine ⟨fun _ => ?_, by simp [Codec.Res.bind]⟩
      rcases h1 hw with ⟨h3, k, h4, h5⟩ | ⟨k, n, h3, h4, hn, h5⟩ | ⟨k, n, h3, h4, hn, h5⟩
      · exact .hugeLiteral k hph h4 h5 h3
      · exact .hugeCopy k n hph h3 h4 hn h5
      · exact .hugeDistance k n hph h3 h4 hn h5
    | ok x =>
      obtain ⟨t, p⟩ := x
      have ft := h2 t p hw
      simp only [Codec.Res.bind]
      cases p with
      | none =>
        refine ⟨by simp, ?_⟩
        intro c' r h
        cases h
        exact ft
      | some p =>
        cases p <;>
        · refine ⟨by simp, ?_⟩
          intro c' r h
          cases h
          exact ft
  | output =>
    obtain ⟨h1, h2⟩ := output_fit (dw := dw) (skip := skip) hl hL f c.room
    simp only
    cases ho : c.s.output dw skip c.room with
    | fail => simp [Codec.Res.bind]
    | panic =>
      refine ⟨fun _ => ?_, by simp [Codec.Res.bind]⟩
      rcases h1 ho with ⟨p, q, h3, h4, g, h5, h6⟩ | ⟨cmd, h3, h4⟩
      · exact .badSpeed p q g hph h3 h4 h5 h6
      · cases cmd with
        | copy d n => exact .badDistance d n hph h3 h4.1 h4.2
        | dict w n =>
          have hat := f.at_
          unfold AtOk at hat
          rw [h3] at hat
          obtain ⟨z, i, t, rfl⟩ := hat.2 w n rfl
          exact .longWord z i t n hph h3 h4
        | lit data => exact absurd h4 (by simp [Recode.Harmful])
        | other => exact absurd h4 (by simp [Recode.Harmful])
    | ok x =>
      obtain ⟨t, o, a⟩ := x
      have ft := h2 t o a ho
      simp only [Codec.Res.bind]
      cases a <;>
      · refine ⟨by simp, ?_⟩
        intro c' r h
        cases h
        exact ft

theorem loop_fit {inp : List UInt8} {R : Nat} (hL : Recode.repeatMax ≤ L) {c0 : Conf} : ∀ (fuel : Nat) {c : Conf}, During L inp R c → Fit dw c.s →
    Visits dw skip c0 c →
    (loop dw skip fuel c = some .panic → ∃ c', Visits dw skip c0 c' ∧ c'.tick dw skip = .panic ∧ Cause dw c') ∧
      ∀ c' r, loop dw skip fuel c = some (.ok (c', r)) → Fit dw c'.s := by
  intro fuel
  induction fuel with
  | zero => intro c _ _ _; exact ⟨by simp [loop], by simp [loop]⟩
  | succ fuel ih =>
    intro c hd hf hv
    obtain ⟨h1, h2⟩ := tick_fit (dw := dw) (skip := skip) hd.live hL hf
    rw [loop]
    cases ht : c.tick dw skip with
    | fail => exact ⟨by simp, by simp⟩
    | panic => exact ⟨fun _ => ⟨c, hv, ht, h1 ht⟩, by simp⟩
    | ok y =>
      obtain ⟨c', r⟩ := y
      cases r with
      | some r =>
        refine ⟨by simp, ?_⟩
        intro c'' r' h
        cases h
        exact h2 _ _ ht
      | none => exact ih (tick_during hd ht) (h2 _ _ ht) (.step hv ht)

/-- A decompressor that has got any bytes so far. -/
def DFit (dw : Nat → Nat → Nat → List UInt8) (d : Dec) : Prop :=
  match d.stage with
  | .header _ => True
  | .body s => Fit dw s

/-- The configuration in which a call of `decode` with this input starts its loop, if it gets that far: the header is
complete, and there is something behind it. -/
def Starts (d : Dec) (input : List UInt8) (room : Nat) (c : Conf) : Prop :=
  match d.stage with
  | .body s => c = ⟨s, .input, input, room, []⟩
  | .header got => ∃ h w used, Frame.headerDecode got input = .ready h w used ∧
      c = ⟨St.init d.skip h w, .input, input.drop used, room, []⟩

theorem process_fit {fuel w : Nat} {s : St} {inp : List UInt8} {before room : Nat} (h1 : 10 ≤ w) (hl : Live (2 ^ w) s) (hf : Fit dw s) :
    (process dw fuel skip s inp before room = some .panic →
      ∃ c', Visits dw skip ⟨s, .input, inp, room, []⟩ c' ∧ c'.tick dw skip = .panic ∧ Cause dw c') ∧
    ∀ r, process dw fuel skip s inp before room = some (.ok r) → DFit dw r.dec := by
  have hL : Recode.repeatMax ≤ 2 ^ w :=
    Nat.le_trans (show Recode.repeatMax ≤ 2 ^ 10 by decide) (Nat.pow_le_pow_right (by decide) h1)
  obtain ⟨k1, k2⟩ := loop_fit (dw := dw) (skip := skip) (inp := inp) (R := room) hL (c0 := ⟨s, .input, inp, room, []⟩) fuel
    (c := ⟨s, .input, inp, room, []⟩) ⟨hl, by simp, 0, Nat.zero_le _, rfl⟩ hf .here
  unfold process
  cases hlp : loop dw skip fuel ⟨s, .input, inp, room, []⟩ with
  | none => exact ⟨by simp, by simp⟩
  | some x =>
    cases x with
    | fail => exact ⟨by simp [Codec.Res.bind], by simp [Codec.Res.bind]⟩
    | panic => exact ⟨fun _ => k1 hlp, by simp [Codec.Res.bind]⟩
    | ok y =>
      refine ⟨by simp [Codec.Res.bind], ?_⟩
      intro r h
      simp only [Option.map_some, Codec.Res.bind, Option.some.injEq, Codec.Res.ok.injEq] at h
      subst h
      exact k2 y.1 y.2 hlp

theorem ready_window {got inp h : List UInt8} {w used : Nat} (hd : got.length < 16)
    (hh : Frame.headerDecode got inp = .ready h w used) : 10 ≤ w ∧ w < 25 := by
  unfold Frame.headerDecode at hh
  simp only at hh
  by_cases hp : 16 - got.length ≤ inp.length
  · rw [if_pos hp] at hh
    cases hph : Frame.parseHeader (got ++ inp.take (16 - got.length)) with
    | none => rw [hph] at hh; cases hh
    | some w' =>
      rw [hph] at hh
      cases hh
      have hlen : (got ++ inp.take (16 - got.length)).length = 16 := by
        rw [List.length_append, List.length_take]; omega
      have := ((Frame.parseHeader_iff _ hlen w).mp hph).2.2.2
      exact ⟨this.1, by omega⟩
  · rw [if_neg hp] at hh; cases hh

theorem decode_fit {d : Dec} (hd : DLive d) (hf : DFit dw d) {fuel : Nat} {inp : List UInt8} {room : Nat} :
    (d.decode dw fuel inp room = some .panic →
      ∃ c c', Starts d inp room c ∧ Visits dw d.skip c c' ∧ c'.tick dw d.skip = .panic ∧ Cause dw c') ∧
    ∀ r, d.decode dw fuel inp room = some (.ok r) → DFit dw r.dec := by
  unfold Dec.decode Starts
  cases hst : d.stage with
  | body s =>
    simp only
    unfold DLive at hd
    unfold DFit at hf
    rw [hst] at hd hf
    obtain ⟨w, h1, h2, hl⟩ := hd
    obtain ⟨k1, k2⟩ := process_fit (dw := dw) (skip := d.skip) (fuel := fuel) (inp := inp) (before := 0) (room := room) h1 hl hf
    refine ⟨fun h => ?_, k2⟩
    obtain ⟨c', h3, h4⟩ := k1 h
    exact ⟨_, c', rfl, h3, h4⟩
  | header got =>
    simp only
    unfold DLive at hd
    rw [hst] at hd
    simp only at hd
    cases hh : Frame.headerDecode got inp with
    | more g =>
      refine ⟨by simp, ?_⟩
      intro r h
      cases h
      trivial
    | fail n => exact ⟨by simp, by simp⟩
    | ready h w used =>
      simp only
      have hw : 10 ≤ w := (ready_window hd hh).1
      by_cases hu : used < inp.length
      · rw [if_pos hu]
        obtain ⟨k1, k2⟩ := process_fit (dw := dw) (skip := d.skip) (fuel := fuel) (inp := inp.drop used) (before := used) (room := room) hw
          (init_live d.skip h w) (init_fit d.skip h w)
        refine ⟨fun hx => ?_, k2⟩
        obtain ⟨c', h3, h4⟩ := k1 hx
        exact ⟨_, c', ⟨h, w, used, rfl, rfl⟩, h3, h4⟩
      · rw [if_neg hu]
        refine ⟨by simp, ?_⟩
        intro r hx
        cases hx
        exact init_fit _ _ _

theorem calls_fit : ∀ (cs : List (Nat × Nat)) {d d' : Dec} {fuel : Nat} {bytes rest out : List UInt8} {rets : List Ret}, DLive d → DFit dw d →
    calls dw fuel d bytes cs = some (.ok (d', rest, out, rets)) → DFit dw d' := by
  intro cs
  induction cs with
  | nil => intro d d' fuel bytes rest out rets _ hf e; cases e; exact hf
  | cons c cs ih =>
    intro d d' fuel bytes rest out rets hd hf e
    obtain ⟨offer, room⟩ := c
    rw [calls.eq_def] at e
    simp only at e
    cases he : d.decode dw fuel (bytes.take offer) room with
    | none => rw [he] at e; cases e
    | some x =>
      rw [he] at e
      cases x with
      | fail => cases e
      | panic => cases e
      | ok r =>
        simp only at e
        rw [Option.map_eq_some_iff] at e
        obtain ⟨y, e1, e2⟩ := e
        cases y with
        | fail => cases e2
        | panic => cases e2
        | ok y =>
          obtain ⟨d2, rest2, out2, rets2⟩ := y
          simp only [Codec.Res.bind, Codec.Res.ok.injEq, Prod.mk.injEq] at e2
          obtain ⟨rfl, rfl, rfl, rfl⟩ := e2
          exact ih (decode_kind hd he).inv ((decode_fit (dw := dw) hd hf).2 r he) e1

end

/-! ## The theorems -/

/-- **C65.**  Any bytes, offered in any pieces with any output buffers, and then one more call of `decode` with any
input and any output buffer.  If that call panics, then the loop of the call reaches a configuration in which the panic
happens and in which one of the causes listed in `Cause` holds.  In particular no table of the decoders, no buffer of
the ring and no buffer of the demultiplexer is ever accessed out of bounds otherwise, whatever the bytes. -/
theorem crash_has_a_cause_partial (dw : Nat → Nat → Nat → List UInt8) (skip : Bool) (bytes : List UInt8) (cs : List (Nat × Nat))
    {fuel fuel' room : Nat} {d : Dec} {rest out input : List UInt8} {rets : List Ret}
    (e : calls dw fuel (.new skip) bytes cs = some (.ok (d, rest, out, rets)))
    (h : d.decode dw fuel' input room = some .panic) :
    ∃ c c', Starts d input room c ∧ Visits dw d.skip c c' ∧ c'.tick dw d.skip = .panic ∧ Cause dw c' :=
  (decode_fit (calls_live cs (new_live skip) e).1 (calls_fit cs (new_live skip) trivial e)).1 h

/-- The same the other way round: as long as no configuration that the call reaches has a cause, it does not panic. -/
theorem no_cause_no_crash (dw : Nat → Nat → Nat → List UInt8) (skip : Bool) (bytes : List UInt8) (cs : List (Nat × Nat))
    {fuel fuel' room : Nat} {d : Dec} {rest out input : List UInt8} {rets : List Ret}
    (e : calls dw fuel (.new skip) bytes cs = some (.ok (d, rest, out, rets)))
    (hno : ∀ c c', Starts d input room c → Visits dw d.skip c c' → ¬ Cause dw c') :
    d.decode dw fuel' input room ≠ some .panic := by
  intro h
  obtain ⟨c, c', h1, h2, -, h3⟩ := crash_has_a_cause_partial dw skip bytes cs e h
  exact hno c c' h1 h2 h3

theorem visits_during {dw : Nat → Nat → Nat → List UInt8} {skip : Bool} {L : Nat} {inp : List UInt8} {R : Nat} {c c' : Conf}
    (h : During L inp R c) (hv : Visits dw skip c c') : During L inp R c' := by
  induction hv with
  | here => exact h
  | step _ ht ih => exact tick_during ih ht

/-- The window of every configuration reached is at least 1024 bytes long. -/
theorem window_1024 {dw : Nat → Nat → Nat → List UInt8} {d : Dec} {input : List UInt8} {room : Nat} {c c' : Conf}
    (hd : DLive d) (hs : Starts d input room c) (hv : Visits dw d.skip c c') : 1024 ≤ c'.s.b.rcv.ring.len := by
  have key : ∀ w s inp, 10 ≤ w → Live (2 ^ w) s → c = ⟨s, .input, inp, room, []⟩ → 1024 ≤ c'.s.b.rcv.ring.len := by
    intro w s inp hw hl hc
    subst hc
    have := (visits_during (inp := inp) (R := room) ⟨hl, by simp, 0, Nat.zero_le _, rfl⟩ hv).live.len
    rw [this]
    exact Nat.pow_le_pow_right (n := 2) (by decide) hw
  unfold Starts at hs
  unfold DLive at hd
  cases hst : d.stage with
  | body s =>
    rw [hst] at hs hd
    obtain ⟨w, h1, -, h2⟩ := hd
    exact key w s input h1 h2 hs
  | header got =>
    rw [hst] at hs hd
    obtain ⟨h, w, used, hh, hc⟩ := hs
    exact key w _ _ (ready_window hd hh).1 (init_live d.skip h w) hc

/-- With a dictionary whose words are shorter than 1024 bytes (the longest word of the dictionary of brotli, with the
longest transform, is much shorter), the words are never the cause. -/
theorem words_are_not_the_cause (dw : Nat → Nat → Nat → List UInt8) (hdw : ∀ z i t, (dw z i t).length < 1024)
    (skip : Bool) (bytes : List UInt8) (cs : List (Nat × Nat))
    {fuel fuel' room : Nat} {d : Dec} {rest out input : List UInt8} {rets : List Ret}
    (e : calls dw fuel (.new skip) bytes cs = some (.ok (d, rest, out, rets)))
    (h : d.decode dw fuel' input room = some .panic) :
    ∃ c c', Starts d input room c ∧ Visits dw d.skip c c' ∧ c'.tick dw d.skip = .panic ∧
      (c'.ph = .work ∧ BadCopy c'.s ∨
       c'.ph = .output ∧ c'.s.b.rcv.at_ = .idle ∧
         (∃ p q f, c'.s.b.rcv.queue = .pm p :: q ∧ f ∈ p.speeds ∧ Lit.speedOf f = none) ∨
       c'.ph = .output ∧ ∃ dist n, c'.s.b.rcv.at_ = .filling (.copy dist n) ∧ 0 < n ∧
         (dist = 0 ∨ c'.s.b.rcv.ring.len ≤ dist)) := by
  obtain ⟨c, c', h1, h2, h3, h4⟩ := crash_has_a_cause_partial dw skip bytes cs e h
  refine ⟨c, c', h1, h2, h3, ?_⟩
  cases h4 with
  | hugeLiteral k a1 a2 a3 a4 => exact Or.inl ⟨a1, Or.inl ⟨a4, k, a2, a3⟩⟩
  | hugeCopy k n a1 a2 a3 a4 a5 => exact Or.inl ⟨a1, Or.inr (Or.inl ⟨k, n, a2, a3, a4, a5⟩)⟩
  | hugeDistance k n a1 a2 a3 a4 a5 => exact Or.inl ⟨a1, Or.inr (Or.inr ⟨k, n, a2, a3, a4, a5⟩)⟩
  | badSpeed p q f a1 a2 a3 a4 a5 => exact Or.inr (Or.inl ⟨a1, a2, p, q, f, a3, a4, a5⟩)
  | badDistance dist n a1 a2 a3 a4 => exact Or.inr (Or.inr ⟨a1, dist, n, a2, a3, a4⟩)
  | longWord z i t n a1 a2 a3 =>
    have := window_1024 (calls_live cs (new_live skip) e).1 h1 h2
    have := hdw z i t
    omega

/-! ## A file that crashes the decompressor -/

/-- A file of 65 bytes with a window of 1024 bytes: one byte, and then 2 bytes from 1025 bytes back. -/
def crashFile : List UInt8 :=
  [255, 229, 140, 159, 0, 10, 0, 0, 0, 0, 0, 0, 0, 0, 0, 0, 0, 15, 0, 126, 157, 240, 64, 252, 133, 8, 0, 237, 128, 200, 56,
    2, 5, 8, 0, 1, 15, 0, 1, 50, 0, 1, 8, 0, 0, 0, 1, 10, 0, 1, 8, 0, 0, 0, 255, 254, 255, 118, 9, 46, 224, 97, 110, 115, 126]

/-- Whether a call ended with a panic. -/
def panics : Option (Codec.Res Reply) → Bool
  | some .panic => true
  | _ => false

theorem crash_at_30 : panics ((Dec.new false).decode File.noWords 30 crashFile 4096) = true := by
  decide +kernel

/-- **A decompressor can be crashed by a file.**  The first and only call of `decode`, with the 65 bytes above and an
output buffer of 4096 bytes, panics. -/
theorem crash_on_a_file (fuel : Nat) (hf : 30 ≤ fuel) : (Dec.new false).decode File.noWords fuel crashFile 4096 = some .panic := by
  have h := crash_at_30
  cases hx : (Dec.new false).decode File.noWords 30 crashFile 4096 with
  | none => rw [hx] at h; cases h
  | some x =>
    rw [hx] at h
    cases x with
    | panic => exact decode_mono hx fuel hf
    | fail => cases h
    | ok r => cases h

/-- The hypotheses of `crash_has_a_cause_partial` and `words_are_not_the_cause` are met by that file: no call, and then the
crash. -/
example : calls File.noWords 30 (.new false) crashFile [] = some (.ok (Dec.new false, crashFile, [], [])) ∧
    (Dec.new false).decode File.noWords 30 crashFile 4096 = some .panic ∧ ∀ z i t, (File.noWords z i t).length < 1024 :=
  ⟨rfl, crash_on_a_file 30 (Nat.le_refl _), fun _ _ _ => by simp [File.noWords]⟩

/-- Those of `no_cause_no_crash` by a call without input, in the middle of the header. -/
example : ∃ d rest out rets, calls File.noWords 30 (.new false) crashFile [(10, 100)] = some (.ok (d, rest, out, rets)) ∧
    ∀ c c', Starts d [] 100 c → Visits File.noWords d.skip c c' → ¬ Cause File.noWords c' := by
  refine ⟨_, _, _, _, rfl, ?_⟩
  intro c c' h _
  obtain ⟨h, w, used, hh, -⟩ := h
  cases hh

end Divans.Call
