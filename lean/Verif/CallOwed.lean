import Verif.RecodeOwed
import Verif.CallCrashProps

/-!
# How much the decompressor can still give out, whatever the bytes

Every nibble of the command stream completes at most one command, and every command stands for a bounded number of
bytes.  The entropy decoder gives at most 65536 nibbles before it takes new bytes.  So the bytes that are still to be
offered bound the bytes that can still be given out.
-/

namespace Divans.Call
open Divans.Adaptive Divans.Pipe Divans.File

variable {dw : Nat → Nat → Nat → List UInt8} {skip : Bool} {L K : Nat}

/-- Bytes that a command stands for. -/
def gotSize (dw : Nat → Nat → Nat → List UInt8) : Codec.Got → Nat
  | .copy _ n => n
  | .dict z i t => (dw z i t).length
  | .lit n _ => n
  | _ => 0

/-- Bytes that commands stand for. -/
def sizes (dw : Nat → Nat → Nat → List UInt8) (l : List Codec.Got) : Nat := (l.map (gotSize dw)).sum

theorem sizes_append (a b : List Codec.Got) : sizes dw (a ++ b) = sizes dw a + sizes dw b := by simp [sizes]

/-- Bytes that the main side has in hand. -/
def inHand (r : Rcv) : Nat :=
  match r.at_ with
  | .idle => Recode.pend r.ring
  | .content c => Recode.pend r.ring + (c.left + c.done.length)
  | .filling c => Recode.owed r.ring c
  | .finished => Recode.pend r.ring

/-- Bytes of commands that were decoded. -/
def St.owed (dw : Nat → Nat → Nat → List UInt8) (s : St) : Nat :=
  inHand s.b.rcv + sizes dw s.b.rcv.queue + sizes dw s.result + sizes dw (held s.hold)

/-- A command that can be decoded is no longer than `K`. -/
theorem gotSize_le (hK : 2 ^ 32 + 15 ≤ K) (hdw : ∀ z i t, z ≤ 24 → (dw z i t).length ≤ K) {g : Codec.Got} (h : Codec.GotOk g) :
    gotSize dw g ≤ K := by
  cases g with
  | copy d n => simp only [Codec.GotOk, gotSize] at h ⊢; omega
  | dict z i t => exact hdw z i t h.2.1
  | lit n e => simp only [Codec.GotOk, gotSize] at h ⊢; omega
  | bswitch k t st => exact Nat.zero_le _
  | pm p => exact Nat.zero_le _

/-! ## The main side -/

theorem next_owed {r r' : Rcv} {g : Codec.Got} (hat : r.at_ = .idle) (h : Rcv.next dw r g = .ok r') :
    inHand r' ≤ inHand r + gotSize dw g ∧ r'.queue = r.queue := by
  have h0 : inHand r = Recode.pend r.ring := by unfold inHand; rw [hat]
  rw [h0]
  unfold Rcv.next at h
  cases g with
  | copy d n =>
    simp only [Codec.Res.ok.injEq] at h
    subst h
    refine ⟨?_, rfl⟩
    simp only [inHand, Recode.owed, Recode.Cmd.size, gotSize]
    omega
  | dict z i t =>
    simp only [Codec.Res.ok.injEq] at h
    subst h
    refine ⟨?_, rfl⟩
    simp only [inHand, Recode.owed, Recode.Cmd.size, gotSize]
    omega
  | lit n e =>
    simp only at h
    cases hl : Recode.last8 r.ring with
    | none => rw [hl] at h; cases h
    | some b =>
      rw [hl] at h
      simp only [Codec.Res.ok.injEq] at h
      subst h
      refine ⟨?_, rfl⟩
      simp only [inHand, gotSize, List.length_nil]
      omega
  | bswitch k t st =>
    cases k with
    | lit =>
      simp only [Codec.Res.ok.injEq] at h
      subst h
      refine ⟨?_, rfl⟩
      simp only [inHand, hat, gotSize]
      omega
    | cmd =>
      simp only [Codec.Res.ok.injEq] at h
      subst h
      refine ⟨?_, rfl⟩
      simp only [inHand, Recode.owed, Recode.Cmd.size, gotSize]
      omega
    | dist =>
      simp only [Codec.Res.ok.injEq] at h
      subst h
      refine ⟨?_, rfl⟩
      simp only [inHand, Recode.owed, Recode.Cmd.size, gotSize]
      omega
  | pm p =>
    simp only at h
    cases hp : r.lbk.obsPm p with
    | fail => rw [hp] at h; cases h
    | panic => rw [hp] at h; cases h
    | ok l =>
      rw [hp] at h
      simp only [Codec.Res.bind, Codec.Res.ok.injEq] at h
      subst h
      refine ⟨?_, rfl⟩
      simp only [inHand, hat, gotSize]
      omega

/-- A step of the main side gives out what it has in hand. -/
theorem rmain_owed {r r' : Rcv} {room : Nat} {o : List UInt8} (g : Recode.Good r.ring) (h : r.main dw room = .ok (r', o)) :
    inHand r' + sizes dw r'.queue + o.length ≤ inHand r + sizes dw r.queue := by
  unfold Rcv.main at h
  cases hat : r.at_ with
  | idle =>
    rw [hat] at h
    simp only at h
    cases hq : r.queue with
    | cons c q =>
      rw [hq] at h
      simp only at h
      cases hn : Rcv.next dw { r with queue := q, at_ := .idle } c with
      | fail => rw [hn] at h; cases h
      | panic => rw [hn] at h; cases h
      | ok y =>
        rw [hn] at h
        simp only [Codec.Res.bind, Codec.Res.ok.injEq, Prod.mk.injEq] at h
        obtain ⟨rfl, rfl⟩ := h
        obtain ⟨h1, h2⟩ := next_owed (r := { r with queue := q, at_ := .idle }) rfl hn
        have h3 : inHand { r with queue := q, at_ := .idle } = inHand r := by unfold inHand; rw [hat]
        rw [h3] at h1
        rw [h2]
        simp only [sizes, List.map_cons, List.sum_cons, List.length_nil] at *
        omega
    | nil =>
      rw [hq] at h
      simp only at h
      by_cases hs : r.core.at_ = .stop
      · rw [if_pos hs] at h
        cases hf : Recode.flush r.ring room with
        | none => rw [hf] at h; cases h
        | some y =>
          obtain ⟨ring', o', res⟩ := y
          obtain ⟨f1, f2, f3, f4⟩ := Recode.flush_owed g hf
          rw [hf] at h
          cases res with
          | fail => exact absurd rfl f4
          | ok =>
            cases h
            simp only [inHand, hat, hq]
            omega
          | more =>
            cases h
            simp only [inHand, hat, hq]
            omega
      · rw [if_neg hs] at h
        cases h
        rw [hq]
        simp only [inHand, hat, List.length_nil]
        omega
  | content c =>
    rw [hat] at h
    simp only at h
    by_cases hl : c.left = 0
    · rw [if_pos hl] at h
      cases h
      simp only [inHand, hat, Recode.owed, Recode.Cmd.size, List.length_reverse, List.length_nil]
      omega
    · rw [if_neg hl] at h
      cases ha : c.ask r.lbk with
      | none => rw [ha] at h; cases h
      | some ch =>
        rw [ha] at h
        simp only at h
        cases hs : r.litRx.step ch with
        | mk rx on =>
          rw [hs] at h
          cases on with
          | none =>
            cases h
            simp only [inHand, hat, List.length_nil]
            omega
          | some n =>
            cases h
            unfold Lit.Content.take
            cases hh : c.high with
            | none =>
              simp only [inHand, hat, List.length_nil]
              omega
            | some k =>
              simp only [inHand, hat, List.length_nil, List.length_cons]
              omega
  | filling c =>
    rw [hat] at h
    simp only at h
    cases he : Recode.encodeCmd r.ring c room with
    | panic => rw [he] at h; cases h
    | spin => rw [he] at h; cases h
    | done y =>
      obtain ⟨ring', o', res⟩ := y
      obtain ⟨k1, k2⟩ := Recode.encodeLoop_owed _ g he
      rw [he] at h
      cases res with
      | fail => cases h
      | ok =>
        cases h
        have := k2 rfl
        simp only [inHand, hat]
        omega
      | more =>
        cases h
        have := k1 rfl
        simp only [inHand, hat]
        omega
  | finished =>
    rw [hat] at h
    cases h
    simp only [inHand, hat, List.length_nil]
    omega

theorem bmain_owed {b b' : File.Body} {room : Nat} {o : List UInt8} (g : Recode.Good b.rcv.ring)
    (h : b.main dw room = .ok (b', o)) :
    inHand b'.rcv + sizes dw b'.rcv.queue + o.length ≤ inHand b.rcv + sizes dw b.rcv.queue := by
  unfold File.Body.main at h
  simp only at h
  cases hr : Rcv.main dw { b.rcv with litRx := { b.rcv.litRx with buf := b.mux.unread true } } room with
  | fail => rw [hr] at h; cases h
  | panic => rw [hr] at h; cases h
  | ok y =>
    obtain ⟨r1, o1⟩ := y
    rw [hr] at h
    simp only [Codec.Res.bind, Codec.Res.ok.injEq, Prod.mk.injEq] at h
    obtain ⟨rfl, rfl⟩ := h
    exact rmain_owed (r := { b.rcv with litRx := { b.rcv.litRx with buf := b.mux.unread true } }) g hr

/-- The same for a step that changes nothing else. -/
theorem main_owed {s : St} (hl : Live L s) {b' : File.Body} {room : Nat} {o : List UInt8} (h : s.b.main dw room = .ok (b', o)) (maps : Nat) :
    ({ s with b := b', maps := maps } : St).owed dw + o.length ≤ s.owed dw ∧
      ∀ p, nibbles { s with b := b', maps := maps } p = nibbles s p := by
  obtain ⟨-, -, -, -, -, a6, -, -, a9, -⟩ := bmain_any hl.mux hl.ring h
  have := bmain_owed hl.ring h
  refine ⟨?_, fun p => ?_⟩
  · simp only [St.owed]
    omega
  · simp only [nibbles, St.bytes, a6, a9]

/-- A step of `process_eof`. -/
theorem finish_owed {s t : St} {room : Nat} {o : List UInt8} {a : After} (hl : Live L s) (h : s.finish dw skip room = .ok (t, o, a)) :
    t.owed dw + o.length ≤ s.owed dw ∧ ∀ p, nibbles t p = nibbles s p := by
  unfold St.finish at h
  cases hm : s.b.main dw room with
  | fail => rw [hm] at h; cases h
  | panic => rw [hm] at h; cases h
  | ok x =>
    obtain ⟨b', o'⟩ := x
    have key := main_owed hl hm s.maps
    rw [hm] at h
    simp only [Codec.Res.bind] at h
    by_cases hfin : b'.rcv.at_ ≠ .finished
    · rw [if_pos hfin] at h
      simp only [Codec.Res.ok.injEq, Prod.mk.injEq] at h
      obtain ⟨rfl, rfl, -⟩ := h
      exact key
    · rw [if_neg hfin] at h
      by_cases h8 : b'.sum.length ≠ 8
      · rw [if_pos h8] at h
        simp only [Codec.Res.ok.injEq, Prod.mk.injEq] at h
        obtain ⟨rfl, rfl, -⟩ := h
        exact key
      · rw [if_neg h8] at h
        by_cases hok : sumOk skip b'.crc b'.sum = true
        · rw [if_pos hok] at h
          simp only [Codec.Res.ok.injEq, Prod.mk.injEq] at h
          obtain ⟨rfl, rfl, -⟩ := h
          exact key
        · rw [if_neg hok] at h; cases h

/-- A step of the main side. -/
theorem output_owed {s t : St} {room : Nat} {o : List UInt8} {a : After} (hl : Live L s) (h : s.output dw skip room = .ok (t, o, a)) :
    t.owed dw + o.length ≤ s.owed dw ∧ ∀ p, nibbles t p = nibbles s p := by
  unfold St.output at h
  cases hat : s.b.rcv.at_ with
  | content c =>
    rw [hat] at h
    simp only at h
    cases hm : s.b.main dw room with
    | fail => rw [hm] at h; cases h
    | panic => rw [hm] at h; cases h
    | ok x =>
      rw [hm] at h
      simp only [Codec.Res.bind, Codec.Res.ok.injEq, Prod.mk.injEq] at h
      obtain ⟨rfl, rfl, -⟩ := h
      exact main_owed hl hm s.maps
  | filling c =>
    rw [hat] at h
    simp only at h
    cases hm : s.b.main dw room with
    | fail => rw [hm] at h; cases h
    | panic => rw [hm] at h; cases h
    | ok x =>
      rw [hm] at h
      simp only [Codec.Res.bind, Codec.Res.ok.injEq, Prod.mk.injEq] at h
      obtain ⟨rfl, rfl, -⟩ := h
      exact main_owed hl hm s.maps
  | finished =>
    rw [hat] at h
    exact finish_owed hl h
  | idle =>
    rw [hat] at h
    simp only at h
    cases hq : s.b.rcv.queue with
    | nil =>
      rw [hq] at h
      simp only at h
      cases hse : s.sawEnd with
      | true =>
        rw [hse] at h
        simp only [if_true] at h
        exact finish_owed hl h
      | false =>
        rw [hse] at h
        simp only [Bool.false_eq_true, if_false] at h
        obtain ⟨t', need, e1, e2, e3, -, -, -, e7, -⟩ := collect_live hl hq
        rw [e1] at h
        simp only [Codec.Res.ok.injEq, Prod.mk.injEq] at h
        obtain ⟨rfl, rfl, -⟩ := h
        obtain ⟨c1, c2⟩ := collect_hold e1
        refine ⟨?_, e7⟩
        have h3 : inHand t'.b.rcv = inHand s.b.rcv := by rw [e3]; rfl
        have h4 : t'.b.rcv.queue = s.result := by rw [e3]
        simp only [St.owed, h3, h4, c1, c2, hq, sizes, List.map_nil, List.sum_nil, List.length_nil]
        omega
    | cons g q =>
      rw [hq] at h
      simp only at h
      cases hm : s.b.main dw room with
      | fail => rw [hm] at h; cases h
      | panic => rw [hm] at h; cases h
      | ok x =>
        rw [hm] at h
        simp only [Codec.Res.bind] at h
        cases g with
        | pm p =>
          simp only at h
          by_cases h2 : s.maps = 2
          · rw [if_pos h2] at h; cases h
          · rw [if_neg h2] at h
            simp only [Codec.Res.ok.injEq, Prod.mk.injEq] at h
            obtain ⟨rfl, rfl, -⟩ := h
            exact main_owed hl hm _
        | _ =>
          simp only [Codec.Res.ok.injEq, Prod.mk.injEq] at h
          obtain ⟨rfl, rfl, -⟩ := h
          exact main_owed hl hm s.maps

/-! ## The worker -/

theorem alike_owed {s t : St} (h : Alike s t) : t.owed dw = s.owed dw := by
  obtain ⟨h1, h2, h3, h4, h5, h6, h7⟩ := h
  have : inHand t.b.rcv = inHand s.b.rcv := by unfold inHand; rw [h3, h4]
  simp only [St.owed, this, h5, h6, h7]

/-- A step of the worker: a command that it completes is paid for by the nibble that it reads. -/
theorem work_owed (hK : 2 ^ 32 + 15 ≤ K) (hdw : ∀ z i t, z ≤ 24 → (dw z i t).length ≤ K) {s t : St} {p : Option Pause}
    (hl : Live L s) (f : Fit dw s) (hw : s.work = .ok (t, p)) (m : Nat) :
    K * nibbles t m + t.owed dw ≤ K * nibbles s m + s.owed dw := by
  have hfit := (work_fit f).2 t p hw
  obtain ⟨f1, f2, f3, -, f7, f8⟩ := fill_spec hl.ext hl.good
  obtain ⟨l1, l2⟩ := fill_live hl
  have l2 := l2 m
  have fa := alike_owed (dw := dw) (fill_alike s)
  have hle : K * nibbles s.fill.1 m ≤ K * nibbles s m := Nat.mul_le_mul_left K l2
  unfold St.work at hw
  cases hh : s.hold with
  | ready g =>
    rw [hh] at hw
    simp only at hw
    by_cases hc : s.result.length < 256 ∧ (isPm g = true → (s.result.filter isPm).length < 2)
    · rw [if_pos hc] at hw
      simp only [Codec.Res.ok.injEq, Prod.mk.injEq] at hw
      obtain ⟨rfl, rfl⟩ := hw
      have e1 : nibbles { s with result := s.result ++ [g], hold := .none } m = nibbles s m := rfl
      rw [e1]
      simp only [St.owed, hh, held, sizes_append]
      simp only [sizes, List.map_nil, List.sum_nil]
      omega
    · rw [if_neg hc] at hw
      simp only [Codec.Res.ok.injEq, Prod.mk.injEq] at hw
      obtain ⟨rfl, rfl⟩ := hw
      exact Nat.le_refl _
  | decoded g =>
    rw [hh] at hw
    simp only at hw
    cases hf : s.fill.2 with
    | true =>
      rw [hf] at hw
      simp only [if_true, Codec.Res.ok.injEq, Prod.mk.injEq] at hw
      obtain ⟨rfl, rfl⟩ := hw
      have e1 : nibbles { s.fill.1 with hold := .ready g, map := s.fill.1.map && !isPm g } m = nibbles s.fill.1 m := rfl
      have e2 : ({ s.fill.1 with hold := .ready g, map := s.fill.1.map && !isPm g } : St).owed dw = s.fill.1.owed dw := by
        simp only [St.owed, f2.hold, hh, held]
      rw [e1, e2]
      omega
    | false =>
      rw [hf] at hw
      simp only [Bool.false_eq_true, if_false, Codec.Res.ok.injEq, Prod.mk.injEq] at hw
      obtain ⟨rfl, rfl⟩ := hw
      omega
  | none =>
    rw [hh] at hw
    simp only at hw
    by_cases hs : s.b.rcv.core.at_ = .stop
    · rw [if_pos hs] at hw
      simp only [Codec.Res.ok.injEq, Prod.mk.injEq] at hw
      obtain ⟨rfl, rfl⟩ := hw
      exact Nat.le_refl _
    rw [if_neg hs] at hw
    by_cases hp : (inPm s.b.rcv.core.at_ && !s.map) = true
    · rw [if_pos hp] at hw
      by_cases h0 : s.maps = 0
      · rw [if_pos h0] at hw
        simp only [Codec.Res.ok.injEq, Prod.mk.injEq] at hw
        obtain ⟨rfl, rfl⟩ := hw
        exact Nat.le_refl _
      · rw [if_neg h0] at hw
        simp only [Codec.Res.ok.injEq, Prod.mk.injEq] at hw
        obtain ⟨rfl, rfl⟩ := hw
        have e1 : nibbles ⟨s.b, s.mem, Hold.none, true, s.data, s.maps - 1, s.result, s.back, s.sawEnd, s.lent⟩ m = nibbles s m := rfl
        rw [e1]
        simp only [St.owed, hh]
        omega
    rw [if_neg hp] at hw
    cases hf : s.fill.2 with
    | false =>
      rw [hf] at hw
      simp only [Bool.false_eq_true, if_false, Codec.Res.ok.injEq, Prod.mk.injEq] at hw
      obtain ⟨rfl, rfl⟩ := hw
      omega
    | true =>
      rw [hf] at hw
      simp only [if_true] at hw
      have h0 : s.fill.1.b.rcv.cmdRx.dec.reqA = 0 := by
        rw [f7] at hf; exact avail_zero l1.good (by simpa using hf)
      cases hask : Codec.coreAsk s.fill.1.b.rcv.core with
      | none => rw [hask] at hw; cases hw
      | some a =>
        rw [hask] at hw
        simp only at hw
        cases htk : Codec.coreTake s.fill.1.b.rcv.core (take s.fill.1.b.rcv.cmdRx (.plain a.key (some a.speed))).2 with
        | fail => rw [htk] at hw; cases hw
        | panic => rw [htk] at hw; cases hw
        | ok y =>
          obtain ⟨c', o⟩ := y
          rw [htk] at hw
          simp only [Codec.Res.bind, Codec.Res.ok.injEq, Prod.mk.injEq] at hw
          obtain ⟨rfl, rfl⟩ := hw
          obtain ⟨slot, hsl⟩ : ∃ slot, (take s.fill.1.b.rcv.cmdRx (.plain a.key (some a.speed))).1.dec =
              s.fill.1.b.rcv.cmdRx.dec.advance slot := ⟨_, rfl⟩
          have hbuf : (take s.fill.1.b.rcv.cmdRx (.plain a.key (some a.speed))).1.buf = s.fill.1.b.rcv.cmdRx.buf := rfl
          obtain ⟨i1, i2⟩ := inChunk_advance l1.reqB l1.cnt h0 slot
          generalize (take s.fill.1.b.rcv.cmdRx (.plain a.key (some a.speed))).1 = rx at *
          have key : nibbles { s.fill.1 with
              b := { s.fill.1.b with rcv := { s.fill.1.b.rcv with cmdRx := rx, core := c' } }, hold := holdFor o } m + 1 ≤
              nibbles s m := by
            refine Nat.le_trans ?_ l2
            simp only [nibbles, St.bytes, hbuf, hsl]
            omega
          have hsz : sizes dw (held (holdFor o)) ≤ K := by
            have hg := hfit.hold
            simp only at hg
            cases hx : holdFor o with
            | none => simp [held, sizes]
            | decoded g =>
              rw [hx] at hg
              simpa [held, sizes] using gotSize_le hK hdw (hg g (by simp [held]))
            | ready g =>
              rw [hx] at hg
              simpa [held, sizes] using gotSize_le hK hdw (hg g (by simp [held]))
          have how : s.fill.1.owed dw = inHand s.fill.1.b.rcv + sizes dw s.fill.1.b.rcv.queue + sizes dw s.fill.1.result := by
            simp only [St.owed, f2.hold, hh, held, sizes, List.map_nil, List.sum_nil]
            omega
          have hnew : ({ s.fill.1 with
              b := { s.fill.1.b with rcv := { s.fill.1.b.rcv with cmdRx := rx, core := c' } }, hold := holdFor o } : St).owed dw =
              s.fill.1.owed dw + sizes dw (held (holdFor o)) := by
            rw [how]
            rfl
          have last : ∀ X : St, nibbles X m + 1 ≤ nibbles s m → X.owed dw = s.fill.1.owed dw + sizes dw (held (holdFor o)) →
              K * nibbles X m + X.owed dw ≤ K * nibbles s m + s.owed dw := by
            intro X h1 h2
            have hmul := Nat.mul_le_mul_left K h1
            rw [Nat.mul_add, Nat.mul_one] at hmul
            omega
          exact last _ key hnew

/-! ## A call -/

/-- A bound on what a call can still give out, with `q` bytes to be offered later, and what it has given out. -/
def Conf.bound (dw : Nat → Nat → Nat → List UInt8) (K q : Nat) (c : Conf) : Nat :=
  K * nibbles c.s (c.pend.length + q) + c.s.owed dw + c.out.length

theorem tick_owed (hK : 2 ^ 32 + 15 ≤ K) (hdw : ∀ z i t, z ≤ 24 → (dw z i t).length ≤ K) {c c' : Conf} {r : Option Ret}
    (hl : Live L c.s) (f : Fit dw c.s) (q : Nat) (h : c.tick dw skip = .ok (c', r)) : c'.bound dw K q ≤ c.bound dw K q := by
  unfold Conf.tick at h
  cases hph : c.ph with
  | input =>
    obtain ⟨t, n, go, e1, e2, e3, e4, e5, e6, -⟩ := input_live (skip := skip) hl c.pend
    rw [hph] at h
    simp only [e1, Codec.Res.ok.injEq, Prod.mk.injEq] at h
    obtain ⟨rfl, -⟩ := h
    obtain ⟨h1, h2⟩ := input_hold e1
    have hn : nibbles t ((c.pend.drop n).length + q) ≤ nibbles c.s (c.pend.length + q) := by
      unfold NoMore at e6
      simp only [nibbles] at e6 ⊢
      omega
    have := Nat.mul_le_mul_left K hn
    simp only [Conf.bound, St.owed, e4, h1, h2]
    omega
  | work =>
    rw [hph] at h
    simp only at h
    cases hw : c.s.work with
    | fail => rw [hw] at h; cases h
    | panic => rw [hw] at h; cases h
    | ok x =>
      obtain ⟨t, p⟩ := x
      have := work_owed hK hdw hl f hw (c.pend.length + q)
      rw [hw] at h
      simp only [Codec.Res.bind] at h
      have key : ∀ ph, (⟨t, ph, c.pend, c.room, c.out⟩ : Conf).bound dw K q ≤ c.bound dw K q := by
        intro ph
        simp only [Conf.bound]
        omega
      cases p with
      | none => cases h; exact key _
      | some p => cases p <;> (cases h; exact key _)
  | output =>
    rw [hph] at h
    simp only at h
    cases ho : c.s.output dw skip c.room with
    | fail => rw [ho] at h; cases h
    | panic => rw [ho] at h; cases h
    | ok x =>
      obtain ⟨t, o, a⟩ := x
      obtain ⟨h1, h2⟩ := output_owed hl ho
      have h2 := h2 (c.pend.length + q)
      rw [ho] at h
      simp only [Codec.Res.bind] at h
      have key : ∀ ph, (⟨t, ph, c.pend, c.room - o.length, c.out ++ o⟩ : Conf).bound dw K q ≤ c.bound dw K q := by
        intro ph
        simp only [Conf.bound, List.length_append, h2]
        omega
      cases a <;> (cases h; exact key _)

theorem loop_owed {inp : List UInt8} {R : Nat} (hK : 2 ^ 32 + 15 ≤ K) (hdw : ∀ z i t, z ≤ 24 → (dw z i t).length ≤ K)
    (hL : Recode.repeatMax ≤ L) (q : Nat) : ∀ (fuel : Nat) {c c' : Conf} {r : Ret}, During L inp R c → Fit dw c.s →
    loop dw skip fuel c = some (.ok (c', r)) → c'.bound dw K q ≤ c.bound dw K q := by
  intro fuel
  induction fuel with
  | zero => intro c c' r _ _ h; cases h
  | succ fuel ih =>
    intro c c' r hd hf h
    obtain ⟨-, h2⟩ := tick_fit (dw := dw) (skip := skip) hd.live hL hf
    rw [loop] at h
    cases ht : c.tick dw skip with
    | fail => rw [ht] at h; cases h
    | panic => rw [ht] at h; cases h
    | ok y =>
      obtain ⟨c1, r1⟩ := y
      have hb := tick_owed hK hdw hd.live hf q ht
      rw [ht] at h
      cases r1 with
      | some r1 => cases h; exact hb
      | none => exact Nat.le_trans (ih (tick_during hd ht) (h2 c1 none ht) h) hb

/-! ## Between calls -/

/-- A bound on what a decompressor can still give out, with `q` bytes to be offered. -/
def Dec.bound (dw : Nat → Nat → Nat → List UInt8) (K q : Nat) (d : Dec) : Nat :=
  match d.stage with
  | .header _ => K * (65537 * q)
  | .body s => K * nibbles s q + s.owed dw

theorem init_bound (skip : Bool) (h : List UInt8) (w q : Nat) :
    nibbles (St.init skip h w) q = 65537 * q ∧ (St.init skip h w).owed dw = 0 := by
  constructor
  · simp [nibbles, St.bytes, St.init, Mux.Mux.new, Rcv.init, Rx.init, inChunk, Ans.Dec.init, Mux.Mux.unread, Mux.Buf.unread]
    simp [Mux.Buf.empty]
  · simp [St.owed, St.init, inHand, Rcv.init, sizes, held, Recode.pend, Recode.St.new]

theorem process_owed (hK : 2 ^ 32 + 15 ≤ K) (hdw : ∀ z i t, z ≤ 24 → (dw z i t).length ≤ K) {fuel w : Nat} {s : St}
    {inp : List UInt8} {before room q : Nat} {r : Reply} (h1 : 10 ≤ w) (hl : Live (2 ^ w) s) (hf : Fit dw s)
    (h : process dw fuel skip s inp before room = some (.ok r)) (hq : inp.length ≤ q) :
    r.dec.bound dw K (q - (r.used - before)) + r.out.length ≤ K * nibbles s q + s.owed dw ∧ before ≤ r.used := by
  have hL : Recode.repeatMax ≤ 2 ^ w :=
    Nat.le_trans (show Recode.repeatMax ≤ 2 ^ 10 by decide) (Nat.pow_le_pow_right (by decide) h1)
  unfold process at h
  have hd : During (2 ^ w) inp room ⟨s, .input, inp, room, []⟩ := ⟨hl, by simp, 0, Nat.zero_le _, rfl⟩
  cases hx : loop dw skip fuel ⟨s, .input, inp, room, []⟩ with
  | none => rw [hx] at h; cases h
  | some x =>
    rw [hx] at h
    simp only [Option.map_some, Option.some.injEq] at h
    cases x with
    | fail => cases h
    | panic => cases h
    | ok y =>
      obtain ⟨c', ret⟩ := y
      have hb := loop_owed hK hdw hL (q - inp.length) fuel hd hf hx
      have hp : c'.pend.length ≤ inp.length := by
        obtain ⟨k, x, hk, hr⟩ := ends_loop (call_ends (dw := dw) (skip := skip) _ _ _ rfl hd (Or.inr ⟨rfl, Nat.lt_succ_self _⟩))
        have h2 := loop_mono hx (max k fuel) (Nat.le_max_right _ _)
        rw [hk _ (Nat.le_max_left _ _)] at h2
        simp only [Option.some.injEq] at h2
        obtain ⟨⟨-, -, n, b3, b4⟩, -⟩ := hr c' ret h2
        rw [b4, List.length_drop]
        omega
      simp only [Codec.Res.bind, Codec.Res.ok.injEq] at h
      subst h
      simp only [Conf.bound, List.length_nil] at hb
      simp only [Dec.bound]
      have e1 : q - (before + (inp.length - c'.pend.length) - before) = c'.pend.length + (q - inp.length) := by omega
      have e2 : inp.length + (q - inp.length) = q := by omega
      rw [e2] at hb
      rw [e1]
      exact ⟨by omega, by omega⟩

/-- A call of a decompressor: what it gives out is no longer to come. -/
theorem decode_owed (hK : 2 ^ 32 + 15 ≤ K) (hdw : ∀ z i t, z ≤ 24 → (dw z i t).length ≤ K) {d : Dec} (hd : DLive d) (hf : DFit dw d)
    {fuel room q : Nat} {inp : List UInt8} {r : Reply} (h : d.decode dw fuel inp room = some (.ok r)) (hq : inp.length ≤ q) :
    r.dec.bound dw K (q - r.used) + r.out.length ≤ d.bound dw K q := by
  obtain ⟨skip, stage⟩ := d
  cases stage with
  | body s =>
    obtain ⟨w, h1, h2, hl⟩ := hd
    exact (process_owed hK hdw h1 hl hf h hq).1
  | header got =>
    have hgot : got.length < 16 := hd
    unfold Dec.decode at h
    simp only at h
    cases hh : Frame.headerDecode got inp with
    | more got' =>
      rw [hh] at h
      simp only [Option.some.injEq, Codec.Res.ok.injEq] at h
      subst h
      simp only [Dec.bound, List.length_nil]
      exact Nat.mul_le_mul_left K (Nat.mul_le_mul_left _ (Nat.sub_le _ _))
    | fail _ => rw [hh] at h; cases h
    | ready hd' w used =>
      rw [hh] at h
      simp only at h
      obtain ⟨i1, i2⟩ := init_bound (dw := dw) skip hd' w (q - used)
      have hle : K * (65537 * (q - used)) ≤ K * (65537 * q) := Nat.mul_le_mul_left K (Nat.mul_le_mul_left _ (Nat.sub_le _ _))
      by_cases hlt : used < inp.length
      · rw [if_pos hlt] at h
        obtain ⟨k1, k2⟩ := process_owed (q := q - used) hK hdw (ready_window hgot hh).1 (init_live skip hd' w) (init_fit skip hd' w) h
          (by rw [List.length_drop]; omega)
        rw [i1, i2] at k1
        have e1 : q - used - (r.used - used) = q - r.used := by omega
        rw [e1] at k1
        simp only [Dec.bound] at k1 ⊢
        omega
      · rw [if_neg hlt] at h
        simp only [Option.some.injEq, Codec.Res.ok.injEq] at h
        subst h
        simp only [Dec.bound, i1, i2, List.length_nil]
        omega

end Divans.Call
