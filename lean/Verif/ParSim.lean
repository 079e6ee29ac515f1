import Verif.ParRun
import Verif.CallAnyProps

/-!
# Every schedule of the decompressor with a thread is a schedule of `Verif.File`, for any bytes

The simulation of `Verif.CallFile` carries over: with the commands in the worker's own buffer at the end of the queue
(`St.view`), a step of either thread is one or more steps of the decompressor of `Verif.File`, or none.
-/

namespace Divans.Call
open Divans.Adaptive Divans.Pipe Divans.File

/-- Bytes are moved into the worker's entropy decoder, in some way. -/
theorem Sim.moves {s t : St} {b : File.Body} (h : Sim s b) (j : Nat) (hj1 : j ≤ s.abs.rcv.cmdRx.dec.numPushAvail)
    (hj2 : j ≤ s.abs.rcv.cmdRx.buf.length) (ej : t.abs = moved s.abs j)
    (h1 : t.b.rcv.core.at_ = .stop → t.hold = .none) (h2 : t.sawEnd = true → t.b.rcv.core.at_ = .stop ∧ t.result = []) : Sim t b := by
  refine ⟨?_, h.good, h.reqB, h1, h2⟩
  right
  rcases h.near with e | ⟨k, hk1, hk2, e⟩
  · rw [e] at hj1 hj2 ej
    exact ⟨j, hj1, hj2, ej⟩
  have hav : s.abs.rcv.cmdRx.dec.numPushAvail = b.rcv.cmdRx.dec.numPushAvail - k := by
    rw [e]
    show (b.rcv.cmdRx.dec.pushData (b.rcv.cmdRx.buf.take k)).1.numPushAvail = _
    rw [Ans.pushData_avail _ _ h.good, List.length_take, Nat.min_eq_left hk2]
  have hln : s.abs.rcv.cmdRx.buf.length = b.rcv.cmdRx.buf.length - k := by
    rw [e]
    show (b.rcv.cmdRx.buf.drop k).length = _
    rw [List.length_drop]
  exact ⟨k + j, by omega, by omega, by rw [ej, e, moved_moved b h.good k j]⟩

end Divans.Call

namespace Divans.Par
open Divans.Adaptive Divans.Pipe Divans.File
open Divans.Call

variable {dw : Nat → Nat → Nat → List UInt8} {skip : Bool}

/-! ## The worker's thread -/

/-- The entropy decoder of the worker is fed. -/
theorem feed_side {p q : St} (hs : Side p) (heof : p.eof = false) (e : p.feed = some q) : Side q := by
  obtain ⟨s1, s2, s3, s4, s5⟩ := hs
  unfold St.feed at e
  by_cases hb : p.s.b.rcv.cmdRx.buf ≠ []
  · rw [if_pos hb] at e
    cases e
    exact ⟨s1, s2, s3, s4, s5⟩
  rw [if_neg hb] at e
  by_cases hm : p.s.mem ≠ []
  · rw [if_pos hm] at e
    by_cases h2 : 2 ≤ p.s.back.length
    · rw [if_pos h2] at e; cases e
    · rw [if_neg h2] at e
      cases e
      refine ⟨s1, by simp [St.enter], fun hx => ?_, s4, by simp [St.enter]⟩
      have hx' : p.eof = true := hx
      rw [heof] at hx'
      cases hx'
  · rw [if_neg hm] at e
    cases hdt : p.s.data with
    | nil => rw [hdt] at e; cases e
    | cons d ds =>
      rw [hdt] at e
      cases e
      exact ⟨s1, s2, s3, s4, s5⟩

theorem feed_sim {p q : St} {b : File.Body} (h : Sim (p.view 0) b) (e : p.feed = some q) : Sim (q.view 0) b := by
  have hg : p.s.b.rcv.cmdRx.dec.Good := h.sdec.1
  unfold St.feed at e
  by_cases hb : p.s.b.rcv.cmdRx.buf ≠ []
  · rw [if_pos hb] at e
    simp only at e
    obtain ⟨k, hk⟩ : ∃ k, k = (p.s.b.rcv.cmdRx.dec.pushData p.s.b.rcv.cmdRx.buf).2 := ⟨_, rfl⟩
    have hc := Ans.pushData_count p.s.b.rcv.cmdRx.dec p.s.b.rcv.cmdRx.buf hg
    rw [← hk] at hc e
    have hk2 : k ≤ p.s.b.rcv.cmdRx.buf.length := by rw [hc]; omega
    cases e
    refine h.moves k ?_ ?_ ?_ h.stop h.fin
    · show k ≤ p.s.b.rcv.cmdRx.dec.numPushAvail
      omega
    · simp only [Call.St.abs, St.view, with2, Rx.push, List.length_append]
      omega
    · have hpt := pushData_take p.s.b.rcv.cmdRx.dec hg p.s.b.rcv.cmdRx.buf
      rw [← hk] at hpt
      simp only [Call.St.abs, St.view, with2, moved, Call.St.setRx, Rx.push, List.take_append_of_le_length hk2,
        List.drop_append_of_le_length hk2, hpt]
  rw [if_neg hb] at e
  rw [Decidable.not_not] at hb
  by_cases hm : p.s.mem ≠ []
  · rw [if_pos hm] at e
    by_cases h2 : 2 ≤ p.s.back.length
    · rw [if_pos h2] at e; cases e
    · rw [if_neg h2] at e
      cases e
      rw [enter_view]
      exact h.congr rfl h.stop h.fin
  · rw [if_neg hm] at e
    cases hdt : p.s.data with
    | nil => rw [hdt] at e; cases e
    | cons d ds =>
      rw [hdt] at e
      cases e
      refine h.congr ?_ h.stop h.fin
      simp [Call.St.abs, St.view, with2, Rx.push, hb, hdt, Call.St.setRx]

/-- A step of the worker's thread. -/
theorem work_sim {p q : St} {b : File.Body} (h : Sim (p.view 0) b) (hs : Side p) (e : p.work = .ok (some q)) :
    (∃ b', Goes dw skip b b' [] ∧ Sim (q.view 0) b') ∧ Side q := by
  have hstop : p.s.b.rcv.core.at_ = .stop → p.s.hold = .none := h.stop
  rcases hfo : p.force with _ | z
  case some =>
    have hf := hfo
    rw [work_force hf] at e
    have heof : p.eof = false := by
      cases hx : p.eof with
      | false => rfl
      | true => have := (hs.fin hx).2.2; rw [hf] at this; cases this
    unfold St.flush at e
    by_cases h1 : 256 - p.s.result.length < p.batch.length
    · rw [if_pos h1] at e; cases e
    rw [if_neg h1] at e
    by_cases h2 : p.batch.any isPm = true ∧ 2 ≤ (p.s.result.filter isPm).length
    · rw [if_pos h2] at e; cases e
    rw [if_neg h2] at e
    simp only [Codec.Res.ok.injEq, Option.some.injEq] at e
    subst e
    refine ⟨⟨b, .rfl', ?_⟩, ⟨by simp, fun _ => by simp [pms], fun hx => ?_, fun hx => ?_, by simp⟩⟩
    · simp only [St.view, List.append_nil]
      exact h
    · simp only [heof, Bool.false_or] at hx
      exact ⟨hs.last (by rw [hf, hx]), rfl, rfl⟩
    · have := hs.saw hx
      rw [heof] at this
      cases this
  case none =>
    have hf := hfo
    rcases Bool.eq_false_or_eq_true p.eof with heof | heof
    · rw [work_end hf heof] at e; cases e
    have hsaw : ¬ p.s.sawEnd = true := fun hx => by have := hs.saw hx; rw [heof] at this; cases this
    have rest : isReady p.s.hold = false → p.work = .ok (some q) →
        (∃ b', Goes dw skip b b' [] ∧ Sim (q.view 0) b') ∧ Side q := by
      intro hr e
      rw [work_rest hf heof hr] at e
      by_cases hst : p.s.hold = .none ∧ p.s.b.rcv.core.at_ = .stop
      · rw [if_pos hst] at e
        cases e
        refine ⟨⟨b, .rfl', by rw [enter_view]; exact h⟩, hs.cap, by simp [St.enter], fun hx => ?_, hs.saw, fun _ => hst.2⟩
        have hx' : p.eof = true := hx
        rw [heof] at hx'
        cases hx'
      rw [if_neg hst] at e
      by_cases hw : wants p.s = true
      · rw [if_pos hw] at e
        simp only [Codec.Res.ok.injEq] at e
        exact ⟨⟨b, .rfl', feed_sim h e⟩, feed_side hs heof e⟩
      rw [if_neg hw] at e
      unfold St.plain at e
      cases hpw : p.s.work with
      | fail => rw [hpw] at e; cases e
      | panic => rw [hpw] at e; cases e
      | ok y =>
        obtain ⟨t, z⟩ := y
        rw [hpw] at e
        simp only [Codec.Res.bind] at e
        cases z with
        | some z => cases e
        | none =>
          cases e
          obtain ⟨w1, w2, w3, w4, w8, -⟩ := work_frame hpw hr
          have hv := work_with2 p.s (p.s.result ++ p.batch) (p.s.lent - 0) hr
          rw [hpw] at hv
          simp only [Codec.Res.bind] at hv
          have hv' : (p.view 0).work = .ok (with2 t (p.s.result ++ p.batch) (p.s.lent - 0), none) := hv
          obtain ⟨b', g, hs'⟩ := h.work (dw := dw) (skip := skip) hv'
          refine ⟨⟨b', g, ?_⟩, hs.cap, hs.free, fun hx => ?_, fun hx => ?_, fun hx => ?_⟩
          · have : (St.mk t p.batch p.least p.force p.eof).view 0 = with2 t (p.s.result ++ p.batch) (p.s.lent - 0) := by
              simp only [St.view, w4, w8]
            rw [this]
            exact hs'
          · have hx' : p.eof = true := hx
            rw [heof] at hx'; cases hx'
          · exact hs.saw (by rw [← w3]; exact hx)
          · have hx' : p.force = some true := hx
            rw [hf] at hx'; cases hx'
    cases hh : p.s.hold with
    | decoded g => exact rest (by rw [hh]; rfl) e
    | none => exact rest (by rw [hh]; rfl) e
    | ready g =>
      rw [work_ready hf heof hh] at e
      obtain ⟨c1, c2⟩ := hs.free hf
      have hT : p.s.b.rcv.core.at_ ≠ .stop := fun h0 => by
        have := hstop h0
        rw [hh] at this; cases this
      obtain ⟨r, hr⟩ : ∃ r : St, r = { p with s := { p.s with hold := .none }, batch := p.batch ++ [g] } := ⟨_, rfl⟩
      have hrv : Sim (r.view 0) b := by
        refine h.congr ?_ (fun _ => by rw [hr]; rfl) fun hx => ?_
        · rw [hr]
          simp [Call.St.abs, St.view, with2, hh, held]
        · have hx' : p.s.sawEnd = true := by rw [hr] at hx; exact hx
          exact absurd hx' hsaw
      have hps : p.pass g = .ok (some (if isPm g ∨ r.batch.length = 256 ∨ r.batch.length = p.least then r.enter false else r)) := by
        unfold St.pass
        rw [if_neg (by omega)]
        simp only
        rw [hr]
      rw [hps] at e
      have hrb : r.batch = p.batch ++ [g] := by rw [hr]
      have hrf : r.eof = false := by rw [hr]; exact heof
      have hrs : r.s.sawEnd = true → r.eof = true := by
        intro hx
        rw [hr] at hx
        exact absurd hx hsaw
      have hcap : r.batch.length ≤ 256 := by rw [hrb, List.length_append, List.length_singleton]; omega
      by_cases hc : isPm g = true ∨ r.batch.length = 256 ∨ r.batch.length = p.least
      · rw [if_pos hc] at e
        cases e
        refine ⟨⟨b, .rfl', by rw [enter_view]; exact hrv⟩, hcap, by simp [St.enter], fun hx => ?_, hrs, by simp [St.enter]⟩
        have hx' : r.eof = true := hx
        rw [hrf] at hx'
        cases hx'
      · rw [if_neg hc] at e
        cases e
        refine ⟨⟨b, .rfl', hrv⟩, hcap, fun _ => ⟨?_, ?_⟩, fun hx => ?_, hrs, fun hx => ?_⟩
        · rcases Nat.lt_or_ge q.batch.length 256 with h0 | h0
          · exact h0
          · exact absurd (Or.inr (Or.inl (by omega))) hc
        · have : isPm g = false := by
            cases hg : isPm g with
            | false => rfl
            | true => exact absurd (Or.inl hg) hc
          rw [hrb, pms_append, pms_one, c2, this]
          rfl
        · rw [hrf] at hx; cases hx
        · have : q.force = none := by rw [hr]; exact hf
          rw [this] at hx
          cases hx

/-! ## The main thread -/

theorem refill_with2 (s : Call.St) (r : List Codec.Got) (need : Bool) :
    (with2 s r s.lent).refill need = (with2 (s.refill need).1 r (s.refill need).1.lent, (s.refill need).2) := by
  unfold Call.St.refill
  rw [push_with2 s r s.lent 0 rfl]
  cases s.push <;> rfl

theorem refill_keeps (s : Call.St) (need : Bool) :
    (s.refill need).1.result = s.result ∧ (s.refill need).1.b.rcv = s.b.rcv ∧ (s.refill need).1.sawEnd = s.sawEnd := by
  unfold Call.St.refill
  cases hp : s.push with
  | none => exact ⟨rfl, rfl, rfl⟩
  | some t =>
    obtain ⟨h1, h2, -, h4⟩ := push_keeps hp
    exact ⟨h2, h1, h4⟩

theorem output_with2 (s : Call.St) (r : List Codec.Got) (l room : Nat) (hf : fetches s = false) :
    (with2 s r l).output dw skip room = (s.output dw skip room).bind fun x => .ok (with2 x.1 r l, x.2) := by
  have hf' : fetches (with2 s r l) = false := hf
  rw [output_eq _ _ hf, output_eq _ _ hf']
  have h1 : (with2 s r l).b = s.b := rfl
  have h2 : (with2 s r l).maps = s.maps := rfl
  rw [h1, h2]
  cases s.b.main dw room with
  | fail => rfl
  | panic => rfl
  | ok x =>
    simp only [Codec.Res.bind]
    cases nextOf skip s.b s.maps x <;> rfl

theorem output_keeps {s t : Call.St} {room : Nat} {o : List UInt8} {a : Call.After} (hf : fetches s = false)
    (e : s.output dw skip room = .ok (t, o, a)) :
    t.result = s.result ∧ t.lent = s.lent ∧ t.sawEnd = s.sawEnd ∧ t.b.rcv.core = s.b.rcv.core ∧ t.hold = s.hold ∧
      t.data = s.data ∧ t.mem = s.mem ∧ t.back = s.back := by
  rw [output_eq _ _ hf] at e
  cases hm : s.b.main dw room with
  | fail => rw [hm] at e; cases e
  | panic => rw [hm] at e; cases e
  | ok x =>
    rw [hm] at e
    simp only [Codec.Res.bind] at e
    have hcore : x.1.rcv.core = s.b.rcv.core := by
      unfold Body.main at hm
      cases hm2 : Rcv.main dw { s.b.rcv with litRx := { s.b.rcv.litRx with buf := s.b.mux.unread true } } room with
      | ok z =>
        simp only [hm2, Codec.Res.bind, Codec.Res.ok.injEq] at hm
        have := main_frame hm2
        rw [← hm]
        exact this.2.1
      | fail => simp only [hm2, Codec.Res.bind] at hm; cases hm
      | panic => simp only [hm2, Codec.Res.bind] at hm; cases hm
    cases hn : nextOf skip s.b s.maps x with
    | fail => rw [hn] at e; cases e
    | panic => rw [hn] at e; cases e
    | ok y =>
      rw [hn] at e
      cases e
      exact ⟨rfl, rfl, rfl, hcore, rfl, rfl, rfl, rfl⟩

/-- A step of the main thread. -/
theorem ptick_sim {c c' : Conf} {r : Option Ret} {b : File.Body} {p fut : List UInt8} (h : Sim (c.p.view 0) b) (hsd : Side c.p)
    (hp : p.length ≤ 1) (hpp : p <+: c.pend ++ fut) (e : c.tick dw skip = .ok (some (c', r))) :
    (∃ b' p' x o, Tracks dw ⟨skip, .body b, p⟩ ⟨skip, .body b', p'⟩ x o ∧ Sim (c'.p.view 0) b' ∧ p'.length ≤ 1 ∧
      p' <+: c'.pend ++ fut ∧ c.pend = x ++ c'.pend ∧ c'.out = c.out ++ o ∧
      (r = some .success → File.Dec.verdict ⟨skip, .body b', p'⟩ = .success)) ∧ Side c'.p := by
  obtain ⟨q, ph, pend, room, out⟩ := c
  simp only at h hsd hpp
  unfold Conf.tick at e
  obtain ⟨s1, s2, s3, s4, s5⟩ := hsd
  cases ph with
  | input =>
    simp only at e
    cases hi : q.s.input skip pend with
    | none => rw [hi] at e; cases e
    | some y =>
      obtain ⟨t, rest, go⟩ := y
      rw [hi] at e
      simp only [Codec.Res.ok.injEq, Option.some.injEq, Prod.mk.injEq] at e
      obtain ⟨e1, e2⟩ := e
      have hv := input_with2 (skip := skip) q.s (q.s.result ++ q.batch) pend
      rw [hi] at hv
      have hv' : (q.view 0).input skip pend = some (with2 t (q.s.result ++ q.batch) t.lent, rest, go) := hv
      obtain ⟨acts, b', p', x, a1, a2, a3, a4, a5, a6⟩ := h.input (dw := dw) hp hpp hv'
      obtain ⟨f1, f2, f3⟩ := input_frame hi
      subst e1
      refine ⟨⟨b', p', x, [], ⟨acts, a1, a6⟩, ?_, a3, a4, a5, by simp, fun hr => ?_⟩,
        s1, s2, by simp only [f2]; exact s3, by simp only [f3]; exact s4, by simp only [f2]; exact s5⟩
      · rw [← f1] at a2; exact a2
      · rw [← e2] at hr
        split at hr <;> cases hr
  | giving ms need =>
    cases ms with
    | nil =>
      simp only [Codec.Res.ok.injEq, Option.some.injEq, Prod.mk.injEq] at e
      obtain ⟨rfl, e2⟩ := e
      refine ⟨⟨b, p, [], [], Goes.rfl'.tracks p, h, hp, hpp, rfl, by simp, fun hr => ?_⟩, s1, s2, s3, s4, s5⟩
      rw [← e2] at hr
      split at hr <;> cases hr
    | cons m ms =>
      simp only at e
      by_cases hl : q.s.lent = 0
      · rw [Call.St.giveBack, if_pos hl] at e; cases e
      rw [giveBack_one m q.s need hl] at e
      simp only [Codec.Res.ok.injEq, Option.some.injEq, Prod.mk.injEq] at e
      obtain ⟨rfl, rfl⟩ := e
      obtain ⟨u, hu⟩ : ∃ u : Call.St, u = { q.s with lent := q.s.lent - 1 } := ⟨_, rfl⟩
      have h0 : Sim (with2 u (q.s.result ++ q.batch) u.lent) b := by
        rw [hu]
        exact h.congr rfl h.stop h.fin
      obtain ⟨⟨b1, g1, k1⟩, -⟩ := h0.refill (dw := dw) (skip := skip) need
      obtain ⟨b2, g2, k2⟩ := k1.recycle (dw := dw) (skip := skip) m
      rw [refill_with2] at k2
      obtain ⟨f1, f2, f3⟩ := refill_keeps u need
      have hur : u.result = q.s.result ∧ u.b = q.s.b ∧ u.sawEnd = q.s.sawEnd := by rw [hu]; exact ⟨rfl, rfl, rfl⟩
      rw [← hu]
      refine ⟨⟨b2, p, [], [], (g1.trans g2).tracks p, ?_, hp, hpp, rfl, by simp, by simp⟩, s1, s2, ?_, ?_, ?_⟩
      · have hv : (St.mk (recycled (u.refill need).1 m) q.batch q.least q.force q.eof).view 0 =
            recycled (with2 (u.refill need).1 (q.s.result ++ q.batch) (u.refill need).1.lent) m := by
          rw [← hur.1, ← f1]; rfl
        simp only [hv]
        exact k2
      · simp only [recycled, f2, hur.2.1]; exact s3
      · simp only [recycled, f3, hur.2.2]; exact s4
      · simp only [recycled, f2, hur.2.1]; exact s5
  | output =>
    simp only at e
    cases hf : fetches q.s with
    | true =>
      rw [hf] at e
      simp only [if_true] at e
      have hq : q.s.b.rcv.queue = [] := by
        unfold fetches at hf
        simp only [Bool.and_eq_true, List.isEmpty_iff] at hf
        exact hf.1.2
      by_cases hw : q.s.result = [] ∧ q.s.back = [] ∧ q.eof = false
      · rw [if_pos hw] at e; cases e
      rw [if_neg hw] at e
      simp only [Codec.Res.ok.injEq, Option.some.injEq, Prod.mk.injEq] at e
      obtain ⟨rfl, rfl⟩ := e
      refine ⟨⟨b, p, [], [], Goes.rfl'.tracks p, ?_, hp, hpp, rfl, by simp, by simp⟩, s1, s2, s3, fun hx => hx, s5⟩
      refine h.congr ?_ h.stop fun hx => ?_
      · simp [Call.St.abs, St.view, with2, hq]
      · obtain ⟨u1, u2, -⟩ := s3 hx
        exact ⟨u1, by simp [St.view, with2, u2]⟩
    | false =>
      rw [hf] at e
      simp only [Bool.false_eq_true, if_false] at e
      by_cases hr : returnsMap q.s = true ∧ q.s.maps = 2
      · rw [if_pos hr] at e; cases e
      rw [if_neg hr] at e
      cases ho : q.s.output dw skip room with
      | fail => rw [ho] at e; cases e
      | panic => rw [ho] at e; cases e
      | ok y =>
        obtain ⟨t, o, a⟩ := y
        rw [ho] at e
        simp only [Codec.Res.bind] at e
        have hv := output_with2 (dw := dw) (skip := skip) q.s (q.s.result ++ q.batch) (q.s.lent - 0) room hf
        rw [ho] at hv
        simp only [Codec.Res.bind] at hv
        have hv' : (q.view 0).output dw skip room = .ok (with2 t (q.s.result ++ q.batch) (q.s.lent - 0), o, a) := hv
        obtain ⟨b', g, hs, hverd⟩ := h.output hv'
        obtain ⟨f1, f2, f3, f4, -⟩ := output_keeps hf ho
        have hview : (St.mk t q.batch q.least q.force q.eof).view 0 = with2 t (q.s.result ++ q.batch) (q.s.lent - 0) := by
          simp only [St.view, f1, f2]
        have hside : Side (St.mk t q.batch q.least q.force q.eof) :=
          ⟨s1, s2, by simp only [f4]; exact s3, by simp only [f3]; exact s4, by simp only [f4]; exact s5⟩
        cases a with
        | go =>
          simp only [Codec.Res.ok.injEq, Option.some.injEq, Prod.mk.injEq] at e
          obtain ⟨rfl, rfl⟩ := e
          exact ⟨⟨b', p, [], o, g.tracks p, by simp only [hview]; exact hs, hp, hpp, rfl, rfl, by simp⟩, hside⟩
        | yield =>
          simp only [Codec.Res.ok.injEq, Option.some.injEq, Prod.mk.injEq] at e
          obtain ⟨rfl, rfl⟩ := e
          exact ⟨⟨b', p, [], o, g.tracks p, by simp only [hview]; exact hs, hp, hpp, rfl, rfl, by simp⟩, hside⟩
        | ret v =>
          simp only [Codec.Res.ok.injEq, Option.some.injEq, Prod.mk.injEq] at e
          obtain ⟨rfl, rfl⟩ := e
          refine ⟨⟨b', p, [], o, g.tracks p, by simp only [hview]; exact hs, hp, hpp, rfl, rfl, fun hr => hverd ?_ p⟩, hside⟩
          simp only [Option.some.injEq] at hr
          rw [hr]

/-! ## Calls -/

theorem ends_sim {c c' : Conf} {r : Ret} (he : Ends dw skip c c' r) : ∀ {b : File.Body} {p fut : List UInt8}, Sim (c.p.view 0) b →
    Side c.p → p.length ≤ 1 → p <+: c.pend ++ fut →
    (∃ b' p' x o, Tracks dw ⟨skip, .body b, p⟩ ⟨skip, .body b', p'⟩ x o ∧ Sim (c'.p.view 0) b' ∧ p'.length ≤ 1 ∧
      p' <+: c'.pend ++ fut ∧ c.pend = x ++ c'.pend ∧ c'.out = c.out ++ o ∧
      (r = .success → File.Dec.verdict ⟨skip, .body b', p'⟩ = .success)) ∧ Side c'.p := by
  induction he with
  | last e =>
    intro b p fut h hs hp hpp
    obtain ⟨⟨b', p', x, o, k1, k2, k3, k4, k5, k6, k7⟩, k8⟩ := ptick_sim h hs hp hpp e
    exact ⟨⟨b', p', x, o, k1, k2, k3, k4, k5, k6, fun hr => k7 (by rw [hr])⟩, k8⟩
  | step st _ ih =>
    intro b p fut h hs hp hpp
    cases st with
    | main e =>
      obtain ⟨⟨b', p', x, o, k1, k2, k3, k4, k5, k6, -⟩, k8⟩ := ptick_sim h hs hp hpp e
      obtain ⟨⟨b2, p2, x2, o2, j1, j2, j3, j4, j5, j6, j7⟩, j8⟩ := ih k2 k8 k3 k4
      exact ⟨⟨b2, p2, x ++ x2, o ++ o2, k1.trans j1, j2, j3, j4, by rw [k5, j5, List.append_assoc],
        by rw [j6, k6, List.append_assoc], j7⟩, j8⟩
    | worker e =>
      obtain ⟨⟨b', g, k2⟩, k8⟩ := work_sim (dw := dw) (skip := skip) h hs e
      obtain ⟨⟨b2, p2, x2, o2, j1, j2, j3, j4, j5, j6, j7⟩, j8⟩ := ih k2 k8 hp hpp
      exact ⟨⟨b2, p2, x2, o2, (g.tracks p).trans j1, j2, j3, j4, j5, j6, j7⟩, j8⟩

/-- A decompressor with a thread and one of `Verif.File` that has been offered at most the first byte of what comes. -/
def PPair (d : Dec) (f : File.Dec) (fut : List UInt8) : Prop :=
  f.skip = d.skip ∧ f.pending.length ≤ 1 ∧ f.pending <+: fut ∧
    match d.stage, f.stage with
    | .header got, .header got' => got' = got ∧ got.length < 16 ∧ f.pending = []
    | .body p, .body b => Sim (p.view 0) b ∧ Side p
    | _, _ => False

theorem body_sim {c c' : Conf} {v : Ret} {before : Nat} {fut p : List UInt8} {b : File.Body} (h : Sim (c.p.view 0) b)
    (hs : Side c.p) (hp : p.length ≤ 1) (hpp : p <+: c.pend ++ fut) (ho : c.out = []) (e : Ends dw skip c c' v) :
    ∃ f x, Tracks dw ⟨skip, .body b, p⟩ f x (c'.reply skip c.pend before v).out ∧
      PPair (c'.reply skip c.pend before v).dec f (c.pend.drop x.length ++ fut) ∧
      (c'.reply skip c.pend before v).used = before + x.length ∧ x <+: c.pend ∧ (v = .success → f.verdict = .success) := by
  obtain ⟨⟨b', p', x, o, t, hs', hl, hq, hd, hu, hv⟩, hsd⟩ := ends_sim e h hs hp hpp
  rw [ho, List.nil_append] at hu
  refine ⟨⟨skip, .body b', p'⟩, x, by simp only [Conf.reply, hu]; exact t, ⟨rfl, hl, ?_, hs', hsd⟩, ?_, ⟨_, hd.symm⟩, hv⟩
  · rw [hd, List.drop_left]; exact hq
  · simp only [Conf.reply]
    rw [hd, List.length_append]
    omega

theorem init_sim (h : List UInt8) (w : Nat) : Sim ((St.init skip h w).view 0)
    { mux := Mux.Mux.new
      crc := if skip then Crc.init else Crc.update Crc.init h
      sum := []
      rcv := Rcv.init (2 ^ w) } ∧ Side (St.init skip h w) :=
  ⟨sim_init h w, ⟨by simp [St.init], fun _ => by simp [St.init, pms], by simp [St.init], by simp [St.init, Call.St.init],
    by simp [St.init]⟩⟩

theorem returns_sim {room : Nat} {d : Dec} {f : File.Dec} {inp fut : List UInt8} {r : Reply}
    (h : PPair d f (inp ++ fut)) (e : d.Returns dw inp room r) :
    ∃ f' x, Tracks dw f f' x r.out ∧ PPair r.dec f' (inp.drop x.length ++ fut) ∧ r.used = x.length ∧ x <+: inp ∧
      (r.ret = .success → f'.verdict = .success) := by
  obtain ⟨skip, stage⟩ := d
  obtain ⟨skip', fstage, p⟩ := f
  obtain ⟨rfl, hl, hpp, hst⟩ := h
  simp only at hl hpp
  unfold Dec.Returns Dec.begin at e
  cases stage with
  | body s =>
    cases fstage with
    | header got => exact hst.elim
    | body b =>
      simp only at e
      obtain ⟨c', v, e1, rfl⟩ := e
      obtain ⟨f, x, h1, h2, h3, h4, h5⟩ := body_sim (c := ⟨s, .input, inp, room, []⟩) (before := 0) hst.1 hst.2 hl hpp rfl e1
      exact ⟨f, x, h1, h2, by rw [h3, Nat.zero_add], h4, h5⟩
  | header got =>
    cases fstage with
    | body b => exact hst.elim
    | header got' =>
      obtain ⟨rfl, hlt, hp⟩ := hst
      simp only at hp e
      subst hp
      unfold Frame.headerDecode at e
      simp only at e
      by_cases hin : inp.length ≥ 16 - got'.length
      · rw [if_pos hin] at e
        cases hph : Frame.parseHeader (got' ++ inp.take (16 - got'.length)) with
        | none => rw [hph] at e; exact e.elim
        | some w =>
          rw [hph] at e
          simp only at e
          have hlen : (inp.take (16 - got'.length)).length = 16 - got'.length := by rw [List.length_take]; omega
          have ht : Tracks dw ⟨skip', .header got', []⟩ ⟨skip', .body
              { mux := Mux.Mux.new
                crc := if skip' then Crc.init else Crc.update Crc.init (got' ++ inp.take (16 - got'.length))
                sum := []
                rcv := Rcv.init (2 ^ w) }, []⟩ (inp.take (16 - got'.length)) [] := by
            refine ⟨[.more (inp.take (16 - got'.length)), .input], ?_, by rw [fed_more]; simp⟩
            simp only [File.run, File.Dec.act, Codec.Res.bind, File.Dec.input, List.nil_append, Frame.headerDecode, hlen,
              ge_iff_le, Nat.le_refl, if_true, List.take_take, Nat.min_self, hph, List.append_nil]
            rw [List.drop_of_length_le (by omega)]
          by_cases hlt' : 16 - got'.length < inp.length
          · rw [if_pos hlt'] at e
            simp only at e
            obtain ⟨c', v, e1, rfl⟩ := e
            obtain ⟨f, x, h1, h2, h3, h4, h5⟩ := body_sim
              (c := ⟨St.init skip' (got' ++ inp.take (16 - got'.length)) w, .input, inp.drop (16 - got'.length), room, []⟩)
              (before := 16 - got'.length) (fut := fut) (p := []) (init_sim _ _).1 (init_sim _ _).2 (Nat.zero_le 1) (List.nil_prefix) rfl e1
            refine ⟨f, inp.take (16 - got'.length) ++ x, ht.trans h1, ?_, by rw [h3, List.length_append, hlen], ?_, h5⟩
            · rw [List.length_append, hlen, ← List.drop_drop]; exact h2
            · conv_rhs => rw [← List.take_append_drop (16 - got'.length) inp]
              exact List.prefix_append_right_inj _ |>.mpr h4
          · rw [if_neg hlt'] at e
            simp only at e
            subst e
            refine ⟨_, inp.take (16 - got'.length), ht, ⟨rfl, Nat.zero_le 1, List.nil_prefix, init_sim _ _⟩, hlen.symm,
              List.take_prefix _ _, fun h => by cases h⟩
      · rw [if_neg hin] at e
        simp only at e
        subst e
        refine ⟨⟨skip', .header (got' ++ inp), []⟩, inp, ⟨[.more inp, .input], ?_, by rw [fed_more]; simp⟩,
          ⟨rfl, Nat.zero_le 1, List.nil_prefix, rfl, ?_, rfl⟩, rfl, List.prefix_rfl, fun h => by cases h⟩
        · simp only [File.run, File.Dec.act, Codec.Res.bind, File.Dec.input, List.nil_append, Frame.headerDecode,
            if_neg hin, List.append_nil]
        · rw [List.length_append]; omega

theorem ppair_new (skip : Bool) (l : List UInt8) : PPair (.new skip) (.new skip) l :=
  ⟨rfl, Nat.zero_le 1, List.nil_prefix, rfl, by decide, rfl⟩

end Divans.Par
