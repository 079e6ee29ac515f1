import Verif.Par
import Verif.CallRun

/-!
# A step of the worker's thread
-/

namespace Divans.Par
open Divans.Adaptive Divans.Pipe Divans.File
open Divans.Call

variable {cm : Bool} {dw : Nat → Nat → Nat → List UInt8} {w : Nat} {F h body tr tail : List UInt8} {skip : Bool}

/-- Another queue of commands and another count of buffers. -/
def with2 (s : Call.St) (r : List Codec.Got) (l : Nat) : Call.St := { s with result := r, lent := l }

/-- The decompressor without threads that is in the same state: the commands in the worker's own buffer are at the
end of the queue, and `n` buffers the main thread has fetched are not counted any more. -/
def St.view (p : St) (n : Nat) : Call.St := with2 p.s (p.s.result ++ p.batch) (p.s.lent - n)

/-- What always holds of the worker's own buffer and the end. -/
structure Side (p : St) : Prop where
  cap : p.batch.length ≤ 256
  free : p.force = none → p.batch.length < 256 ∧ pms p.batch = 0
  fin : p.eof = true → p.s.b.rcv.core.at_ = .stop ∧ p.batch = [] ∧ p.force = none
  saw : p.s.sawEnd = true → p.eof = true
  last : p.force = some true → p.s.b.rcv.core.at_ = .stop

/-- What is left to do in `force_push` and for the end. -/
def St.fpart (p : St) : Nat :=
  (if p.force = none then 0 else 1) + (if p.eof then 0 else if p.force = some true then 1 else 3)

/-- What is left to do. -/
def St.pot (p : St) (T : Nat) : Nat := 8 * weight p.s T + p.fpart

theorem St.weight_view (p : St) (n T : Nat) : weight (p.view n) T = weight p.s T := rfl

theorem fpart_le (p : St) : p.fpart ≤ 4 := by
  unfold St.fpart
  split <;> split <;> (try split) <;> omega

theorem pull_with2 (s : Call.St) (r : List Codec.Got) (l : Nat) : (with2 s r l).pull = with2 s.pull r l := by
  obtain ⟨b, mem, hold, map, data, maps, result, back, sawEnd, lent⟩ := s
  unfold Call.St.pull with2
  simp only
  by_cases h1 : b.rcv.cmdRx.buf ≠ []
  · rw [if_pos h1, if_pos h1]
  rw [if_neg h1, if_neg h1]
  by_cases h2 : mem ≠ [] ∧ 2 ≤ back.length
  · rw [if_pos h2, if_pos h2]
  rw [if_neg h2, if_neg h2]
  by_cases h3 : mem = []
  · simp only [if_pos h3]
    cases data <;> rfl
  · simp only [if_neg h3]
    cases data <;> rfl

theorem fill_with2 (s : Call.St) (r : List Codec.Got) (l : Nat) :
    (with2 s r l).fill = (with2 s.fill.1 r l, s.fill.2) := by
  unfold Call.St.fill
  have h0 : (with2 s r l).b = s.b := rfl
  rw [h0]
  by_cases h1 : s.b.rcv.cmdRx.dec.numPushAvail = 0
  · rw [if_pos h1, if_pos h1]
  · rw [if_neg h1, if_neg h1, pull_with2]
    rfl

/-- With a command to be passed on? -/
def isReady : Hold → Bool
  | .ready _ => true
  | _ => false

theorem work_with2 (s : Call.St) (r : List Codec.Got) (l : Nat) (hr : isReady s.hold = false) :
    (with2 s r l).work = s.work.bind fun x => .ok (with2 x.1 r l, x.2) := by
  unfold Call.St.work
  have h0 : (with2 s r l).hold = s.hold := rfl
  have h1 : (with2 s r l).b = s.b := rfl
  have h2 : (with2 s r l).map = s.map := rfl
  have h3 : (with2 s r l).maps = s.maps := rfl
  rw [h0, fill_with2]
  cases hh : s.hold with
  | ready g => rw [hh] at hr; cases hr
  | decoded g =>
    simp only
    cases s.fill.2 <;> rfl
  | none =>
    simp only [h1, h2, h3]
    by_cases hs : s.b.rcv.core.at_ = .stop
    · rw [if_pos hs, if_pos hs]; rfl
    rw [if_neg hs, if_neg hs]
    by_cases hp : (inPm s.b.rcv.core.at_ && !s.map) = true
    · rw [if_pos hp, if_pos hp]
      by_cases hm : s.maps = 0
      · rw [if_pos hm, if_pos hm]; rfl
      · rw [if_neg hm, if_neg hm]
        simp only [with2, hh, Codec.Res.bind]
    rw [if_neg hp, if_neg hp]
    cases hf : s.fill.2 with
    | false => rfl
    | true =>
      simp only [if_true]
      have h4 : (with2 s.fill.1 r l).b = s.fill.1.b := rfl
      rw [h4]
      cases Codec.coreAsk s.fill.1.b.rcv.core with
      | none => rfl
      | some a =>
        simp only
        cases Codec.coreTake s.fill.1.b.rcv.core (take s.fill.1.b.rcv.cmdRx (.plain a.key (some a.speed))).2 <;> rfl

theorem fill_same (s : Call.St) : Same s s.fill.1 := by
  unfold Call.St.fill
  by_cases h : s.b.rcv.cmdRx.dec.numPushAvail = 0
  · rw [if_pos h]; exact .rfl'
  · rw [if_neg h]
    exact (pull_same s).trans ⟨rfl, rfl, rfl, rfl, rfl, rfl, rfl, rfl, rfl, rfl, rfl, rfl⟩

/-- What a step of the worker leaves alone, and why it pauses. -/
theorem work_frame {s t : Call.St} {z : Option Pause} (e : s.work = .ok (t, z)) (hr : isReady s.hold = false) :
    t.b.rcv.at_ = s.b.rcv.at_ ∧ t.b.rcv.queue = s.b.rcv.queue ∧ t.sawEnd = s.sawEnd ∧ t.result = s.result ∧ t.lent = s.lent ∧
      (z = some .needsInput → wants s = true) ∧
      (z = some .needsOutput → s.hold = .none ∧ s.map = false ∧ s.maps = 0) ∧
      (z = none → s.b.rcv.core.at_ ≠ .stop ∨ s.hold ≠ .none) := by
  have hs := fill_same s
  have hw : s.fill.2 = false → s.b.rcv.cmdRx.dec.numPushAvail ≠ 0 := by
    intro h h0
    unfold Call.St.fill at h
    rw [if_pos h0] at h
    cases h
  unfold Call.St.work at e
  cases hh : s.hold with
  | ready g => rw [hh] at hr; cases hr
  | decoded g =>
    rw [hh] at e
    simp only at e
    cases hf : s.fill.2 with
    | true =>
      rw [hf] at e
      simp only [if_true, Codec.Res.ok.injEq, Prod.mk.injEq] at e
      obtain ⟨rfl, rfl⟩ := e
      exact ⟨hs.at_, hs.queue, hs.sawEnd, hs.result, hs.lent, by simp, by simp, by simp⟩
    | false =>
      rw [hf] at e
      simp only [Bool.false_eq_true, if_false, Codec.Res.ok.injEq, Prod.mk.injEq] at e
      obtain ⟨rfl, rfl⟩ := e
      exact ⟨hs.at_, hs.queue, hs.sawEnd, hs.result, hs.lent, fun _ => by simp [wants, hw hf, hh], by simp, by simp⟩
  | none =>
    rw [hh] at e
    simp only at e
    by_cases hst : s.b.rcv.core.at_ = .stop
    · rw [if_pos hst] at e
      simp only [Codec.Res.ok.injEq, Prod.mk.injEq] at e
      obtain ⟨rfl, rfl⟩ := e
      exact ⟨rfl, rfl, rfl, rfl, rfl, by simp, by simp, by simp⟩
    rw [if_neg hst] at e
    by_cases hp : (inPm s.b.rcv.core.at_ && !s.map) = true
    · rw [if_pos hp] at e
      by_cases hm : s.maps = 0
      · rw [if_pos hm] at e
        simp only [Codec.Res.ok.injEq, Prod.mk.injEq] at e
        obtain ⟨rfl, rfl⟩ := e
        refine ⟨rfl, rfl, rfl, rfl, rfl, by simp, fun _ => ⟨rfl, ?_, hm⟩, by simp⟩
        simp only [Bool.and_eq_true, Bool.not_eq_true'] at hp
        exact hp.2
      · rw [if_neg hm] at e
        simp only [Codec.Res.ok.injEq, Prod.mk.injEq] at e
        obtain ⟨rfl, rfl⟩ := e
        exact ⟨rfl, rfl, rfl, rfl, rfl, by simp, by simp, fun _ => Or.inl hst⟩
    rw [if_neg hp] at e
    cases hf : s.fill.2 with
    | false =>
      rw [hf] at e
      simp only [Bool.false_eq_true, if_false, Codec.Res.ok.injEq, Prod.mk.injEq] at e
      obtain ⟨rfl, rfl⟩ := e
      refine ⟨hs.at_, hs.queue, hs.sawEnd, hs.result, hs.lent, fun _ => ?_, by simp, by simp⟩
      have hp' : (inPm s.b.rcv.core.at_ && !s.map) = false := by simpa using hp
      simp [wants, hw hf, hh, hp']
    | true =>
      rw [hf] at e
      simp only [if_true] at e
      cases ha : Codec.coreAsk s.fill.1.b.rcv.core with
      | none => rw [ha] at e; cases e
      | some a =>
        rw [ha] at e
        simp only at e
        cases hc : Codec.coreTake s.fill.1.b.rcv.core (take s.fill.1.b.rcv.cmdRx (.plain a.key (some a.speed))).2 with
        | fail => rw [hc] at e; cases e
        | panic => rw [hc] at e; cases e
        | ok y =>
          rw [hc] at e
          simp only [Codec.Res.bind, Codec.Res.ok.injEq, Prod.mk.injEq] at e
          obtain ⟨rfl, rfl⟩ := e
          exact ⟨hs.at_, hs.queue, hs.sawEnd, hs.result, hs.lent, by simp, by simp, fun _ => Or.inl hst⟩

/-- What a step of the worker's thread leaves alone. -/
structure Apart (p q : St) : Prop where
  mux : q.s.b.mux = p.s.b.mux
  sum : q.s.b.sum = p.s.b.sum
  lent : q.s.lent = p.s.lent
  at_ : q.s.b.rcv.at_ = p.s.b.rcv.at_
  queue : q.s.b.rcv.queue = p.s.b.rcv.queue
  sawEnd : q.s.sawEnd = p.s.sawEnd

theorem enter_view (p : St) (e : Bool) (n : Nat) : (p.enter e).view n = p.view n := rfl

/-- The entropy decoder of the worker is fed. -/
theorem feed_ok {p : St} {n : Nat} {pend fut E : List UInt8} {T : Nat}
    (hd : BOk cm dw (2 ^ w) F h body tr tail skip (p.view n).abs pend fut E T) (he : Ext (p.view n)) (hs : Side p)
    (hf : p.force = none) (heof : p.eof = false) (hns : p.s.b.rcv.core.at_ ≠ .stop) (hwt : wants p.s = true) :
    (p.feed = none ∧ (p.s.back ≠ [] ∨ (p.s.lent ≤ n ∧ (p.s.b.mux.unread false = [] → p.s.b.mux.eof = .done → False)))) ∨
    ∃ q, p.feed = some q ∧ BOk cm dw (2 ^ w) F h body tr tail skip (q.view n).abs pend fut E T ∧ Ext (q.view n) ∧
      Side q ∧ Apart p q ∧ q.pot T < p.pot T := by
  have hav : p.s.b.rcv.cmdRx.dec.numPushAvail ≠ 0 := by
    unfold wants at hwt
    simp only [Bool.and_eq_true, decide_eq_true_eq] at hwt
    exact hwt.1
  have hg : p.s.b.rcv.cmdRx.dec.Good := bok_good (b := (p.view n).abs) hd
  have hfp : p.fpart = 3 := by simp [St.fpart, hf, heof]
  obtain ⟨g1, g2, g3, g4, g5, g6, g7, g8, g9⟩ := he
  obtain ⟨s1, s2, s3, s4, s5⟩ := hs
  unfold St.feed
  by_cases hb : p.s.b.rcv.cmdRx.buf ≠ []
  · rw [if_pos hb]
    right
    simp only
    obtain ⟨k, hk⟩ : ∃ k, k = (p.s.b.rcv.cmdRx.dec.pushData p.s.b.rcv.cmdRx.buf).2 := ⟨_, rfl⟩
    have hc := Ans.pushData_count p.s.b.rcv.cmdRx.dec p.s.b.rcv.cmdRx.buf hg
    rw [← hk] at hc ⊢
    have hbl : 0 < p.s.b.rcv.cmdRx.buf.length := List.length_pos_iff.mpr hb
    have hk0 : 0 < k := by rw [hc]; omega
    have hk1 : k ≤ p.s.b.rcv.cmdRx.dec.numPushAvail := by rw [hc]; omega
    have hk2 : k ≤ p.s.b.rcv.cmdRx.buf.length := by rw [hc]; omega
    have hmv : ((⟨p.s.setRx ⟨p.s.b.rcv.cmdRx.ses, (p.s.b.rcv.cmdRx.dec.pushData p.s.b.rcv.cmdRx.buf).1,
        p.s.b.rcv.cmdRx.buf.drop k⟩, p.batch, p.least, p.force, p.eof⟩ : St).view n).abs = moved (p.view n).abs k := by
      have hpt := pushData_take p.s.b.rcv.cmdRx.dec hg p.s.b.rcv.cmdRx.buf
      rw [← hk] at hpt
      simp only [Call.St.abs, St.view, with2, moved, Call.St.setRx, Rx.push, List.take_append_of_le_length hk2,
        List.drop_append_of_le_length hk2, hpt]
    refine ⟨_, rfl, ?_, ⟨g1, g2, g3, fun _ => g4 hb, g5, g6, g7, g8, g9⟩, ⟨s1, s2, s3, s4, s5⟩,
      ⟨rfl, rfl, rfl, rfl, rfl, rfl⟩, ?_⟩
    · rw [hmv]
      refine bok_moved hd k hk1 ?_
      simp only [Call.St.abs, St.view, with2, Rx.push, List.length_append]
      omega
    · have : (St.fpart ⟨p.s.setRx ⟨p.s.b.rcv.cmdRx.ses, (p.s.b.rcv.cmdRx.dec.pushData p.s.b.rcv.cmdRx.buf).1,
        p.s.b.rcv.cmdRx.buf.drop k⟩, p.batch, p.least, p.force, p.eof⟩) = p.fpart := rfl
      simp only [St.pot, this]
      simp only [weight, Call.St.load, Call.St.setRx, List.length_drop]
      omega
  rw [if_neg hb]
  rw [Decidable.not_not] at hb
  by_cases hm : p.s.mem ≠ []
  · rw [if_pos hm]
    by_cases h2 : 2 ≤ p.s.back.length
    · rw [if_pos h2]
      left
      refine ⟨rfl, Or.inl fun h0 => ?_⟩
      rw [h0] at h2
      simp at h2
    · rw [if_neg h2]
      right
      have hone : one p.s.mem = 1 := one_ne hm
      refine ⟨_, rfl, ?_, ?_, ?_, ⟨rfl, rfl, rfl, rfl, rfl, rfl⟩, ?_⟩
      · rw [enter_view]; exact hd
      · rw [enter_view]
        refine ⟨g1, ?_, g3, fun h0 => absurd hb h0, ?_, g6, g7, g8, g9⟩
        · simp only [St.view, with2, List.length_append, List.length_singleton]; omega
        · simp only [St.view, with2, List.length_append, List.length_singleton, one_nil] at g5 ⊢
          rw [hone] at g5
          omega
      · refine ⟨s1, by simp [St.enter], fun hx => ?_, s4, by simp [St.enter]⟩
        have hx' : p.eof = true := hx
        rw [heof] at hx'
        cases hx'
      · have : (St.enter { p with s := { p.s with mem := [], back := p.s.back ++ [p.s.mem] } } false).fpart = 4 := by
          simp [St.fpart, St.enter, heof]
        simp only [St.pot, hfp, this]
        simp only [St.enter, weight, Call.St.load, List.length_append, List.length_singleton, one_nil, hone]
        omega
  · rw [if_neg hm]
    rw [Decidable.not_not] at hm
    cases hdt : p.s.data with
    | nil =>
      left
      by_cases hbk : p.s.back = []
      · refine ⟨rfl, Or.inr ⟨?_, fun hu hdone => ?_⟩⟩
        · simp only [St.view, with2, hdt, hm, one_nil, hbk, List.length_nil] at g5
          omega
        · refine starve hd hdone hu ?_ hav hns
          simp [Call.St.abs, St.view, with2, Rx.push, hb, hdt]
      · exact ⟨rfl, Or.inl hbk⟩
    | cons d ds =>
      simp only
      right
      have hdm : d.mem ≠ [] := unread_mem (g3 d (by show d ∈ p.s.data; rw [hdt]; simp))
      refine ⟨_, rfl, ?_, ?_, ⟨s1, s2, s3, s4, s5⟩, ⟨rfl, rfl, rfl, rfl, rfl, rfl⟩, ?_⟩
      · have : (St.view ⟨{ p.s.setRx { p.s.b.rcv.cmdRx with buf := d.unread } with mem := d.mem, data := ds }, p.batch, p.least, p.force, p.eof⟩ n).abs = (p.view n).abs := by
          simp [Call.St.abs, St.view, with2, Rx.push, hb, hdt, Call.St.setRx]
        rw [this]; exact hd
      · have hg1 := g1
        have hg3 := g3
        simp only [St.view, with2, hdt, List.length_cons, hm, one_nil] at hg1 g5 hg3
        refine ⟨?_, g2, ?_, fun _ => hdm, ?_, g6, g7, g8, g9⟩
        · simp only [St.view, with2]; omega
        · intro x hx
          exact hg3 x (List.mem_cons_of_mem _ hx)
        · simp only [St.view, with2, one_ne hdm]
          simp only [Call.St.setRx]
          omega
      · simp only [St.pot]
        have : (St.fpart ⟨{ p.s.setRx { p.s.b.rcv.cmdRx with buf := d.unread } with mem := d.mem, data := ds }, p.batch, p.least, p.force, p.eof⟩) = p.fpart := rfl
        rw [this]
        simp only [weight, Call.St.load, Call.St.setRx, hdt, hb, hm, one_nil, one_ne hdm, List.map_cons, List.sum_cons, List.length_nil]
        omega

theorem pms_any (l : List Codec.Got) : l.any isPm = true → 1 ≤ pms l := by
  intro h0
  rw [List.any_eq_true] at h0
  obtain ⟨x, h1, h2⟩ := h0
  exact List.length_pos_iff.mpr (List.ne_nil_of_mem (List.mem_filter.mpr ⟨h1, h2⟩))

/-- Why the worker's thread waits. -/
def Waits (p : St) (n : Nat) : Prop :=
  p.eof = true ∨ p.s.result ≠ [] ∨ p.s.back ≠ [] ∨ p.s.b.rcv.queue ≠ [] ∨
    (p.s.lent ≤ n ∧ (p.s.b.mux.unread false = [] → p.s.b.mux.eof = .done → False))

theorem feed_ok' {p : St} {n : Nat} {pend fut E : List UInt8} {T : Nat}
    (hd : BOk cm dw (2 ^ w) F h body tr tail skip (p.view n).abs pend fut E T) (he : Ext (p.view n)) (hs : Side p)
    (hf : p.force = none) (heof : p.eof = false) (hns : p.s.b.rcv.core.at_ ≠ .stop) (hwt : wants p.s = true) :
    (Codec.Res.ok p.feed = .ok none ∧ Waits p n) ∨
    ∃ q T', Codec.Res.ok p.feed = .ok (some q) ∧ BOk cm dw (2 ^ w) F h body tr tail skip (q.view n).abs pend fut E T' ∧
      Ext (q.view n) ∧ Side q ∧ Apart p q ∧ q.pot T' < p.pot T := by
  rcases feed_ok hd he hs hf heof hns hwt with ⟨h1, h2⟩ | ⟨q, h1, h2⟩
  · refine Or.inl ⟨by rw [h1], ?_⟩
    rcases h2 with h2 | h2
    · exact Or.inr (Or.inr (Or.inl h2))
    · exact Or.inr (Or.inr (Or.inr (Or.inr h2)))
  · exact Or.inr ⟨q, T, by rw [h1], h2⟩

/-- A step of the worker without its thread. -/
def St.plain (p : St) : Codec.Res (Option St) :=
  p.s.work.bind fun x =>
    match x.2 with
    | none => .ok (some { p with s := x.1 })
    | some _ => .ok none

theorem work_force {p : St} {e : Bool} (hf : p.force = some e) : p.work = p.flush e := by
  unfold St.work; simp only [hf]

theorem work_end {p : St} (hf : p.force = none) (he : p.eof = true) : p.work = .ok none := by
  unfold St.work; simp only [hf, he, if_true]

theorem work_ready {p : St} {g : Codec.Got} (hf : p.force = none) (he : p.eof = false) (hh : p.s.hold = .ready g) :
    p.work = p.pass g := by
  unfold St.work; simp only [hf, he, hh, Bool.false_eq_true, if_false]

theorem work_rest {p : St} (hf : p.force = none) (he : p.eof = false) (hr : isReady p.s.hold = false) :
    p.work = if p.s.hold = .none ∧ p.s.b.rcv.core.at_ = .stop then .ok (some (p.enter true))
        else if wants p.s then .ok p.feed else p.plain := by
  unfold St.work St.plain
  simp only [hf, he, Bool.false_eq_true, if_false]
  cases hh : p.s.hold with
  | ready g => rw [hh] at hr; cases hr
  | decoded g => rfl
  | none => rfl

/-- A step of the worker's thread that does not need bytes. -/
theorem plain_ok {p : St} {n : Nat} {pend fut E : List UInt8} {T : Nat}
    (hd : BOk cm dw (2 ^ w) F h body tr tail skip (p.view n).abs pend fut E T) (he : Ext (p.view n)) (hs : Side p)
    (hf : p.force = none) (heof : p.eof = false) (hr : isReady p.s.hold = false) (hns : p.s.b.rcv.core.at_ ≠ .stop)
    (hwt : ¬ wants p.s = true) :
    (p.plain = .ok none ∧ Waits p n) ∨
    ∃ q T', p.plain = .ok (some q) ∧ BOk cm dw (2 ^ w) F h body tr tail skip (q.view n).abs pend fut E T' ∧
      Ext (q.view n) ∧ Side q ∧ Apart p q ∧ q.pot T' < p.pot T := by
  obtain ⟨t, z, T', e1, e2, e3, e4, e5, e6, e7, e8, e9, e10, e11, e12⟩ := work_ok hd he
  have hw2 := work_with2 p.s (p.s.result ++ p.batch) (p.s.lent - n) hr
  have hvw : (p.view n).work = (with2 p.s (p.s.result ++ p.batch) (p.s.lent - n)).work := rfl
  rw [hvw, hw2] at e1
  cases hpw : p.s.work with
  | fail => rw [hpw] at e1; cases e1
  | panic => rw [hpw] at e1; cases e1
  | ok y =>
    obtain ⟨t', z'⟩ := y
    rw [hpw] at e1
    simp only [Codec.Res.bind, Codec.Res.ok.injEq, Prod.mk.injEq] at e1
    obtain ⟨ht, rfl⟩ := e1
    obtain ⟨w1, w2, w3, w4, w8, w5, w6, w7⟩ := work_frame hpw hr
    unfold St.plain
    rw [hpw]
    simp only [Codec.Res.bind]
    cases z' with
    | some y =>
      left
      refine ⟨rfl, ?_⟩
      cases y with
      | needsInput => exact absurd (w5 rfl) hwt
      | success => exact absurd (e11 rfl) hns
      | needsOutput =>
        have := w6 rfl
        have hm := he.maps
        obtain ⟨hx1, hx2⟩ := hs.free hf
        simp only [St.view, with2, this.1, this.2.1, this.2.2, pms_append, hx2, heldPm] at hm
        by_cases hr0 : p.s.result = []
        · right; right; right; left
          intro hq
          rw [hr0, hq] at hm
          simp [pms] at hm
        · exact Or.inr (Or.inl hr0)
    | none =>
      right
      have hv : (St.mk t' p.batch p.least p.force p.eof).view n = t := by
        rw [← ht]
        simp only [St.view, w4, w8]
      refine ⟨_, T', rfl, by rw [hv]; exact e2, by rw [hv]; exact e3, ⟨hs.cap, hs.free, fun hx => ?_, fun hx => ?_, fun hx => ?_⟩,
        ⟨?_, ?_, ?_, w1, w2, w3⟩, ?_⟩
      · have hx' : p.eof = true := hx
        rw [heof] at hx'; cases hx'
      · exact hs.saw (by rw [← w3]; exact hx)
      · have hx' : p.force = some true := hx
        rw [hf] at hx'; cases hx'
      · rw [← ht] at e4; exact e4
      · rw [← ht] at e5; exact e5
      · exact w8
      · have h1 := e8 rfl
        rw [← ht] at h1
        have h2 : weight t' T' < weight p.s T := h1
        have h3 : (St.mk t' p.batch p.least p.force p.eof).fpart = p.fpart := rfl
        simp only [St.pot, h3]
        omega

/-- A step of the worker's thread. -/
theorem pwork_ok {p : St} {n : Nat} {pend fut E : List UInt8} {T : Nat}
    (hd : BOk cm dw (2 ^ w) F h body tr tail skip (p.view n).abs pend fut E T) (he : Ext (p.view n)) (hs : Side p) :
    (p.work = .ok none ∧ Waits p n) ∨
    ∃ q T', p.work = .ok (some q) ∧ BOk cm dw (2 ^ w) F h body tr tail skip (q.view n).abs pend fut E T' ∧ Ext (q.view n) ∧
      Side q ∧ Apart p q ∧ q.pot T' < p.pot T := by
  rcases hfo : p.force with _ | e
  case some =>
    have hf := hfo
    rw [work_force hf]
    have heof : p.eof = false := by
      cases hx : p.eof with
      | false => rfl
      | true => have := (hs.fin hx).2.2; rw [hf] at this; cases this
    unfold St.flush
    by_cases h1 : 256 - p.s.result.length < p.batch.length
    · rw [if_pos h1]
      left
      refine ⟨rfl, Or.inr (Or.inl fun h0 => ?_)⟩
      have := hs.cap
      rw [h0, List.length_nil] at h1
      omega
    rw [if_neg h1]
    have hm := he.maps
    simp only [St.view, with2, pms_append] at hm
    rw [if_neg (by
      rintro ⟨h2, h3⟩
      have : 2 ≤ pms p.s.result := h3
      omega)]
    right
    refine ⟨_, T, rfl, ?_, ?_, ?_, ⟨rfl, rfl, rfl, rfl, rfl, rfl⟩, ?_⟩
    · simp only [St.view, List.append_nil]
      exact hd
    · simp only [St.view, List.append_nil]
      exact he
    · refine ⟨by simp, fun _ => by simp [pms], fun hx => ?_, fun hx => ?_, by simp⟩
      · simp only [heof, Bool.false_or] at hx
        exact ⟨hs.last (by rw [hf, hx]), rfl, rfl⟩
      · have := hs.saw hx
        rw [heof] at this
        cases this
    · simp only [St.pot, St.fpart, hf, heof]
      have : weight ({ p.s with result := p.s.result ++ p.batch } : Call.St) T = weight p.s T := rfl
      rw [this]
      cases e <;> simp
  case none =>
    have hf := hfo
    rcases Bool.eq_false_or_eq_true p.eof with heof | heof
    · rw [work_end hf heof]
      exact Or.inl ⟨rfl, Or.inl heof⟩
    have hfp : p.fpart = 3 := by simp [St.fpart, hf, heof]
    cases hh : p.s.hold with
    | ready g =>
      rw [work_ready hf heof hh]
      right
      obtain ⟨c1, c2⟩ := hs.free hf
      have hT : p.s.b.rcv.core.at_ ≠ .stop := fun h0 => by
        have := he.stop h0
        have h1 : (p.view n).hold = p.s.hold := rfl
        rw [h1, hh] at this; cases this
      obtain ⟨q, hq⟩ : ∃ q : St, q = { p with s := { p.s with hold := .none }, batch := p.batch ++ [g] } := ⟨_, rfl⟩
      have hqv : BOk cm dw (2 ^ w) F h body tr tail skip (q.view n).abs pend fut E T := by
        have : (q.view n).abs = (p.view n).abs := by
          rw [hq]
          simp [Call.St.abs, St.view, with2, hh, held]
        rw [this]; exact hd
      have hqe : Ext (q.view n) := by
        obtain ⟨g1, g2, g3, g4, g5, g6, g7, g8, g9⟩ := he
        rw [hq]
        refine ⟨g1, g2, g3, g4, g5, ?_, by simp [St.view, with2], fun _ => rfl, fun hx => absurd (g9 hx).1 hT⟩
        simp only [St.view, with2, hh, heldPm, pms_append, pms_one] at g6 ⊢
        omega
      have hqa : Apart p q := by rw [hq]; exact ⟨rfl, rfl, rfl, rfl, rfl, rfl⟩
      have hqw : weight q.s T + 1 = weight p.s T := by
        rw [hq]
        simp only [weight, Call.St.load, hh, Hold.weight]
        omega
      have hqb : q.batch = p.batch ++ [g] := by rw [hq]
      have hqf : q.eof = false := by rw [hq]; exact heof
      have hqs : q.s.sawEnd = p.s.sawEnd := by rw [hq]
      have hps : p.pass g = .ok (some (if isPm g ∨ q.batch.length = 256 ∨ q.batch.length = p.least then q.enter false else q)) := by
        unfold St.pass
        rw [if_neg (by omega)]
        simp only
        rw [hq]
      rw [hps]
      have hfp' : q.fpart ≤ 4 := fpart_le q
      have hfp'' := fpart_le (q.enter false)
      have hcap : q.batch.length ≤ 256 := by rw [hqb, List.length_append, List.length_singleton]; omega
      have hsaw : q.s.sawEnd = true → q.eof = true := by
        intro hx
        rw [hqs] at hx
        have := hs.saw hx
        rw [heof] at this
        cases this
      by_cases hc : isPm g = true ∨ q.batch.length = 256 ∨ q.batch.length = p.least
      · rw [if_pos hc]
        refine ⟨_, T, rfl, hqv, hqe, ⟨hcap, by simp [St.enter], fun hx => ?_, hsaw, by simp [St.enter]⟩,
          ⟨hqa.1, hqa.2, hqa.3, hqa.4, hqa.5, hqa.6⟩, ?_⟩
        · have hx' : q.eof = true := hx
          rw [hqf] at hx'
          cases hx'
        · have : weight (q.enter false).s T = weight q.s T := rfl
          simp only [St.pot, this]
          omega
      · rw [if_neg hc]
        refine ⟨_, T, rfl, hqv, hqe, ⟨hcap, fun _ => ⟨?_, ?_⟩, fun hx => ?_, hsaw, fun hx => ?_⟩, hqa, ?_⟩
        · rcases Nat.lt_or_ge q.batch.length 256 with h0 | h0
          · exact h0
          · exact absurd (Or.inr (Or.inl (by omega))) hc
        · have : isPm g = false := by
            cases hg : isPm g with
            | false => rfl
            | true => exact absurd (Or.inl hg) hc
          rw [hqb, pms_append, pms_one, c2, this]
          rfl
        · rw [hqf] at hx; cases hx
        · have : q.force = none := by rw [hq]; exact hf
          rw [this] at hx
          cases hx
        · simp only [St.pot]
          omega
    | decoded g =>
      rw [work_rest hf heof (by rw [hh]; rfl), if_neg (by rw [hh]; simp)]
      have hT : p.s.b.rcv.core.at_ ≠ .stop := fun h0 => by
        have := he.stop h0
        have h1 : (p.view n).hold = p.s.hold := rfl
        rw [h1, hh] at this; cases this
      by_cases hw : wants p.s = true
      · rw [if_pos hw]
        exact feed_ok' hd he hs hf heof hT hw
      · rw [if_neg hw]
        exact plain_ok hd he hs hf heof (by rw [hh]; rfl) hT hw
    | none =>
      rw [work_rest hf heof (by rw [hh]; rfl)]
      by_cases hT : p.s.b.rcv.core.at_ = .stop
      · rw [if_pos ⟨hh, hT⟩]
        right
        refine ⟨_, T, rfl, hd, he, ⟨hs.cap, by simp [St.enter], fun hx => ?_, hs.saw, fun _ => hT⟩,
          ⟨rfl, rfl, rfl, rfl, rfl, rfl⟩, ?_⟩
        · have hx' : p.eof = true := hx
          rw [heof] at hx'
          cases hx'
        · have h1 : weight (p.enter true).s T = weight p.s T := rfl
          have h2 : (p.enter true).fpart = 2 := by simp [St.fpart, St.enter, heof]
          simp only [St.pot, h1, h2, hfp]
          omega
      rw [if_neg (fun h0 => hT h0.2)]
      by_cases hw : wants p.s = true
      · rw [if_pos hw]
        exact feed_ok' hd he hs hf heof hT hw
      · rw [if_neg hw]
        exact plain_ok hd he hs hf heof (by rw [hh]; rfl) hT hw

end Divans.Par
