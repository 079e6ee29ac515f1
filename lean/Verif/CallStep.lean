import Verif.CallInput

/-!
# A step of the worker, a step of the main side
-/

namespace Divans.Call
open Divans.Adaptive Divans.Pipe Divans.File

variable {cm : Bool} {dw : Nat → Nat → Nat → List UInt8} {w : Nat} {F h body tr tail : List UInt8} {skip : Bool}

/-- With all bytes of the command stream in its hands the worker does not starve. -/
theorem starve {b : File.Body} {pend fut E : List UInt8} {T : Nat}
    (hd : BOk cm dw (2 ^ w) F h body tr tail skip b pend fut E T) (hdone : b.mux.eof = .done)
    (hu : b.mux.unread false = []) (hb : b.rcv.cmdRx.buf = []) (hav : b.rcv.cmdRx.dec.numPushAvail ≠ 0)
    (hns : b.rcv.core.at_ ≠ .stop) : False := by
  obtain ⟨bdone, brest, srest, rest, tc, gs, tl, h1, h2, h3, h4, h5, h6, h7, ⟨q1, q2, q3, q4⟩, h9⟩ := hd
  have hbr : brest = [] := by
    cases hq : brest with
    | nil => rfl
    | cons z zs => rw [hq] at h6; exact absurd hdone h6.cons.1
  rw [hbr] at h6
  have hr := h6.nil.2 false
  have key : ∀ {ch : Choice Codec.Key Unit} {n : Nat} {tr' : Trace Codec.Key Unit},
      Feeds cm ((ch, n) :: tr') (b.mux.unread false ++ rest false) b.rcv.cmdRx → False := by
    intro ch n tr' hf
    rcases hf.step with ⟨rx, e1, -⟩ | ⟨rx, -, -, hfut, -⟩
    · have ha := Ans.pushData_avail b.rcv.cmdRx.dec [] hf.good
      unfold Rx.step at e1
      rw [hb] at e1
      simp only at e1
      rw [if_pos (by rw [ha]; simpa using hav)] at e1
      cases e1
    · rw [hu, hr] at hfut
      exact hfut rfl
  cases q2 with
  | stop hs => exact hns hs
  | more ha _ _ => exact key q1
  | got ha _ _ => exact key q1

theorem pms_append (a b : List Codec.Got) : pms (a ++ b) = pms a + pms b := by simp [pms]

theorem pms_one (g : Codec.Got) : pms [g] = if isPm g then 1 else 0 := by
  unfold pms
  cases hg : isPm g <;> simp [List.filter, hg]

/-- A step of the worker. -/
theorem work_ok {s : St} {pend fut E : List UInt8} {T : Nat}
    (hd : BOk cm dw (2 ^ w) F h body tr tail skip s.abs pend fut E T) (he : Ext s) :
    ∃ t p T', s.work = .ok (t, p) ∧ BOk cm dw (2 ^ w) F h body tr tail skip t.abs pend fut E T' ∧ Ext t ∧
      t.b.mux = s.b.mux ∧ t.b.sum = s.b.sum ∧ t.lent = s.lent ∧ weight t T' ≤ weight s T ∧
      (p = none → weight t T' < weight s T) ∧
      (p = some .needsInput → (weight t T' < weight s T ∨ t.back ≠ [] ∨ s.lent = 0) ∧
        (s.lent = 0 → s.b.mux.unread false = [] → s.b.mux.eof = .done → False)) ∧
      (p = some .needsOutput → s.result ≠ [] ∨ s.b.rcv.queue ≠ []) ∧
      (p = some .success → s.b.rcv.core.at_ = .stop) ∧
      (p = some .needsOutput ∨ p = some .success → t = s) := by
  have hg : s.b.rcv.cmdRx.dec.Good := bok_good (b := s.abs) hd
  obtain ⟨f1, f2, f3, ⟨k, f4, f5, f6⟩, f7, f8⟩ := fill_spec he hg
  have hfd : BOk cm dw (2 ^ w) F h body tr tail skip s.fill.1.abs pend fut E T := by
    rw [f6]; exact bok_moved hd k f4 f5
  have hfw : weight s.fill.1 T ≤ weight s T := by
    simp only [weight, f2.hold, f2.maps]; omega
  -- waiting for bytes
  have hwait : s.fill.2 = false → s.b.rcv.core.at_ ≠ .stop →
      (weight s.fill.1 T < weight s T ∨ s.fill.1.back ≠ [] ∨ s.lent = 0) ∧
        (s.lent = 0 → s.b.mux.unread false = [] → s.b.mux.eof = .done → False) := by
    intro hf hns
    obtain ⟨u1, u2⟩ := f8 hf
    constructor
    · rcases u2 with u | u | u
      · left; simp only [weight, f2.hold, f2.maps]; omega
      · exact Or.inr (Or.inl u)
      · exact Or.inr (Or.inr u)
    · intro h0 hu hdone
      have hl := f1.lent
      rw [f2.lent, h0] at hl
      have hdat : s.fill.1.data = [] := List.eq_nil_of_length_eq_zero (by omega)
      refine starve hfd (by show s.fill.1.b.mux.eof = _; rw [f2.mux]; exact hdone)
        (by show s.fill.1.b.mux.unread false = _; rw [f2.mux]; exact hu) ?_ ?_
        (by show s.fill.1.b.rcv.core.at_ ≠ _; rw [f2.core]; exact hns)
      · simp [St.abs, Rx.push, u1, hdat]
      · show s.fill.1.b.rcv.cmdRx.dec.numPushAvail ≠ 0
        rw [f7] at hf
        simpa using hf
  unfold St.work
  cases hh : s.hold with
  | ready g =>
    simp only
    have hT : s.b.rcv.core.at_ ≠ .stop := fun h0 => by
      have := he.stop h0; rw [hh] at this; cases this
    by_cases hc : s.result.length < 256 ∧ (isPm g = true → (s.result.filter isPm).length < 2)
    · rw [if_pos hc]
      have habs : ({ s with result := s.result ++ [g], hold := .none } : St).abs = s.abs := by
        simp [St.abs, hh, held]
      have hw : weight { s with result := s.result ++ [g], hold := .none } T + 1 = weight s T := by
        simp only [weight, hh, St.load, Hold.weight]; omega
      refine ⟨_, none, T, rfl, by rw [habs]; exact hd, ?_, rfl, rfl, rfl, by omega, fun _ => by omega, by simp, by simp, by simp, by simp⟩
      obtain ⟨g1, g2, g3, g4, g5, g6, g7, g8, g9⟩ := he
      refine ⟨g1, g2, g3, g4, g5, ?_, by simp, fun _ => rfl, fun hx => absurd (g9 hx).1 hT⟩
      rw [hh] at g6
      simp only [heldPm, pms_append, pms_one] at g6 ⊢
      omega
    · rw [if_neg hc]
      refine ⟨s, _, T, rfl, hd, he, rfl, rfl, rfl, Nat.le_refl _, by simp, by simp, fun _ => ?_, by simp, fun _ => rfl⟩
      left
      intro h0
      apply hc
      rw [h0]
      exact ⟨by simp, fun _ => by simp⟩
  | decoded g =>
    simp only
    have hT : s.b.rcv.core.at_ ≠ .stop := fun h0 => by
      have := he.stop h0; rw [hh] at this; cases this
    cases hf : s.fill.2 with
    | true =>
      simp only [if_true]
      have habs : ({ s.fill.1 with hold := .ready g, map := s.fill.1.map && !isPm g } : St).abs = s.fill.1.abs := by
        simp [St.abs, f2.hold, hh, held]
      have hw : weight { s.fill.1 with hold := .ready g, map := s.fill.1.map && !isPm g } T + 1 = weight s.fill.1 T := by
        simp only [weight, f2.hold, hh, St.load, Hold.weight]; omega
      refine ⟨_, none, T, rfl, by rw [habs]; exact hfd, ?_, f2.mux, f2.sum, f2.lent,
        Nat.le_trans (Nat.le_of_lt (Nat.lt_of_succ_le (Nat.le_of_eq hw))) hfw,
        fun _ => Nat.lt_of_lt_of_le (Nat.lt_of_succ_le (Nat.le_of_eq hw)) hfw, by simp, by simp, by simp, by simp⟩
      obtain ⟨g1, g2, g3, g4, g5, g6, g7, g8, g9⟩ := f1
      refine ⟨g1, g2, g3, g4, g5, ?_, by simp, ?_, ?_⟩
      · rw [f2.hold, hh] at g6
        simp only [heldPm] at g6 ⊢
        cases hp : isPm g with
        | false => simpa [hp] using g6
        | true =>
          have hm : s.fill.1.map = true := by
            cases g with
            | pm p => exact g7 p (by rw [f2.hold, hh])
            | _ => cases hp
          rw [hm] at g6
          simp only [Bool.toNat_true] at g6
          simp [hm]
          omega
      · intro h0
        rw [f2.core] at h0
        exact absurd h0 hT
      · intro hx
        have := (g9 hx).1
        rw [f2.core] at this
        exact absurd this hT
    | false =>
      simp only [Bool.false_eq_true, if_false]
      exact ⟨_, _, T, rfl, hfd, f1, f2.mux, f2.sum, f2.lent, hfw, by simp, fun _ => hwait hf hT, by simp, by simp, by simp⟩
  | none =>
    simp only
    by_cases hs : s.b.rcv.core.at_ = .stop
    · rw [if_pos hs]
      exact ⟨s, _, T, rfl, hd, he, rfl, rfl, rfl, Nat.le_refl _, by simp, by simp, by simp, fun _ => hs, fun _ => rfl⟩
    rw [if_neg hs]
    by_cases hp : (inPm s.b.rcv.core.at_ && !s.map) = true
    · rw [if_pos hp]
      have hmap : s.map = false := by
        simp only [Bool.and_eq_true, Bool.not_eq_true'] at hp; exact hp.2
      have hm := he.maps
      rw [hh, hmap] at hm
      simp only [heldPm, Bool.toNat_false] at hm
      by_cases h0 : s.maps = 0
      · rw [if_pos h0]
        refine ⟨s, _, T, rfl, hd, he, rfl, rfl, rfl, Nat.le_refl _, by simp, by simp, fun _ => ?_, by simp, fun _ => rfl⟩
        by_cases hr : s.result = []
        · right
          intro hq
          rw [h0, hr, hq] at hm
          simp [pms] at hm
        · exact Or.inl hr
      · rw [if_neg h0]
        have hw : weight { s with maps := s.maps - 1, map := true } T + 1 = weight s T := by
          simp only [weight, St.load]; omega
        have hs' : (⟨s.b, s.mem, Hold.none, true, s.data, s.maps - 1, s.result, s.back, s.sawEnd, s.lent⟩ : St) =
            { s with maps := s.maps - 1, map := true } := by simp [hh]
        rw [hs']
        refine ⟨_, none, T, rfl, hd, ?_, rfl, rfl, rfl, by omega, fun _ => by omega, by simp, by simp, by simp, by simp⟩
        obtain ⟨g1, g2, g3, g4, g5, g6, g7, g8, g9⟩ := he
        refine ⟨g1, g2, g3, g4, g5, ?_, fun _ _ => rfl, g8, g9⟩
        rw [hh, hmap] at g6
        simp only [heldPm, Bool.toNat_false, Bool.toNat_true, hh] at g6 ⊢
        omega
    rw [if_neg hp]
    cases hf : s.fill.2 with
    | false =>
      simp only [Bool.false_eq_true, if_false]
      exact ⟨_, _, T, rfl, hfd, f1, f2.mux, f2.sum, f2.lent, hfw, by simp, fun _ => hwait hf hs, by simp, by simp, by simp⟩
    | true =>
      simp only [if_true]
      have h0 : s.fill.1.b.rcv.cmdRx.dec.numPushAvail = 0 := by
        rw [f7] at hf; simpa using hf
      obtain ⟨a, c', o, T', n1, n2, n3, n4⟩ := nibble_ok hfd (by rw [f2.hold, hh]) h0 (by rw [f2.core]; exact hs)
      have key : weight (nibbled s.fill.1 (take s.fill.1.b.rcv.cmdRx (.plain a.key (some a.speed))).1 c' o) T' < weight s T := by
        have hl : (nibbled s.fill.1 (take s.fill.1.b.rcv.cmdRx (.plain a.key (some a.speed))).1 c' o).load = s.fill.1.load := rfl
        have h2 : (holdFor o).weight ≤ 2 := by cases holdFor o <;> simp [Hold.weight]
        simp only [weight, hl] at hfw ⊢
        simp only [nibbled]
        omega
      simp only [n1]
      rw [n2]
      refine ⟨_, none, T', rfl, n3, ?_, f2.mux, f2.sum, f2.lent, ?_, fun _ => ?_, by simp, by simp, by simp, by simp⟩
      · obtain ⟨g1, g2, g3, g4, g5, g6, g7, g8, g9⟩ := f1
        refine ⟨g1, g2, g3, g4, g5, ?_, ?_, ?_, ?_⟩
        · rw [f2.hold, hh] at g6
          simp only [heldPm_holdFor]
          exact g6
        · intro p hpm
          have ho := holdFor_pm hpm
          subst ho
          have := (coreTake_some n2).2 rfl
          rw [f2.core] at this
          rw [this] at hp
          simp only [Bool.true_and, Bool.not_eq_true', Bool.not_eq_false] at hp
          exact f2.map.trans hp
        · intro hst
          simp only at hst
          cases o with
          | none => rfl
          | some g => rw [(coreTake_some n2).1] at hst; cases hst
        · intro hx
          have := (g9 hx).1
          rw [f2.core] at this
          exact absurd this hs
      · exact Nat.le_of_lt key
      · exact key

/-- A step of the main side that is a step of its decoders. -/
theorem smain_ok (hw : 8 ≤ 2 ^ w) (room : Nat) {s : St} {pend fut E : List UInt8} {T : Nat}
    (hd : BOk cm dw (2 ^ w) F h body tr tail skip s.abs pend fut E T)
    (hor : s.b.rcv.at_ ≠ .idle ∨ s.b.rcv.queue ≠ [] ∨ s.result ++ held s.hold = []) :
    ∃ b' o T', s.b.main dw room = .ok (b', o) ∧ o.length ≤ room ∧
      BOk cm dw (2 ^ w) F h body tr tail skip ({ s with b := b' } : St).abs pend fut (E ++ o) T' ∧ T' ≤ T ∧
      b'.mux.eof = s.b.mux.eof ∧ b'.mux.btd = s.b.mux.btd ∧ b'.mux.unread false = s.b.mux.unread false ∧ b'.sum = s.b.sum ∧
      b'.rcv.cmdRx = s.b.rcv.cmdRx ∧ b'.rcv.core = s.b.rcv.core ∧
      b'.rcv.queue = (if s.b.rcv.at_ = .idle then s.b.rcv.queue.tail else s.b.rcv.queue) ∧
      (∀ c, s.b.rcv.at_ = .content c → (b'.rcv.at_ = .content c ∧ s.b.mux.eof ≠ .done) ∨
        (b'.rcv.at_ ≠ .content c ∧ T' < T)) ∧
      (∀ c, s.b.rcv.at_ = .filling c → (b'.rcv.at_ = .filling c ∧ o.length = room) ∨ (b'.rcv.at_ = .idle ∧ T' < T)) ∧
      (s.b.rcv.at_ = .idle → s.b.rcv.queue ≠ [] → T' < T) ∧
      (s.b.rcv.at_ = .idle → s.abs.rcv.queue = [] → s.b.rcv.core.at_ = .stop →
        b'.rcv.at_ = .finished ∨ (b'.rcv.at_ = .idle ∧ o.length = room)) ∧
      (s.b.rcv.at_ = .finished → b'.rcv.at_ = .finished ∧ o = []) := by
  obtain ⟨b0, o, T', e1, e2, e3, e4, e5, e6, e7, e8, e9, c1, c2, c3, c4, c5⟩ := bmain_ok hw room hd
  rw [body_main_ext s room hor] at e1
  cases hm : s.b.main dw room with
  | fail => rw [hm] at e1; cases e1
  | panic => rw [hm] at e1; cases e1
  | ok x =>
    obtain ⟨b', o'⟩ := x
    rw [hm] at e1
    simp only [Codec.Res.bind, Codec.Res.ok.injEq, Prod.mk.injEq] at e1
    obtain ⟨rfl, rfl⟩ := e1
    have hfr : b'.rcv.cmdRx = s.b.rcv.cmdRx ∧ b'.rcv.core = s.b.rcv.core ∧
        b'.rcv.queue = (if s.b.rcv.at_ = .idle then s.b.rcv.queue.tail else s.b.rcv.queue) := by
      unfold File.Body.main at hm
      simp only at hm
      cases hr : Rcv.main dw { s.b.rcv with litRx := { s.b.rcv.litRx with buf := s.b.mux.unread true } } room with
      | fail => rw [hr] at hm; cases hm
      | panic => rw [hr] at hm; cases hm
      | ok y =>
        rw [hr] at hm
        simp only [Codec.Res.bind, Codec.Res.ok.injEq, Prod.mk.injEq] at hm
        obtain ⟨rfl, rfl⟩ := hm
        have := main_frame hr
        exact this
    refine ⟨b', o', T', rfl, e2, e3, e4, e5, e6, e7, e8, hfr.1, hfr.2.1, hfr.2.2, c1, c2, ?_, ?_, c5⟩
    · intro h1 h2
      refine c3 h1 ?_
      simp only [St.abs]
      intro h3
      exact h2 (List.append_eq_nil_iff.mp h3).1
    · intro h1 h2 h3
      rcases c4 h1 h2 h3 with h4 | h4
      · exact Or.inl h4.1
      · exact Or.inr h4

/-- The main side is about to fetch commands. -/
def Fetching (s : St) : Prop := s.b.rcv.at_ = .idle ∧ s.b.rcv.queue = [] ∧ s.sawEnd = false

theorem finish_ok (hw : 8 ≤ 2 ^ w) (htl : tr.length = 8)
    (hsum : sumOk skip (if skip then Crc.init else Crc.crc32c (h ++ body)) tr = true) (room : Nat) {s : St}
    {pend fut E : List UInt8} {T : Nat}
    (hd : BOk cm dw (2 ^ w) F h body tr tail skip s.abs pend fut E T) (he : Ext s)
    (hat : s.b.rcv.at_ = .finished ∨ (s.b.rcv.at_ = .idle ∧ s.b.rcv.queue = [] ∧ s.sawEnd = true)) :
    ∃ t o r T', s.finish dw skip room = .ok (t, o, .ret r) ∧ o.length ≤ room ∧
      BOk cm dw (2 ^ w) F h body tr tail skip t.abs pend fut (E ++ o) T' ∧ Ext t ∧
      t.b.mux.eof = s.b.mux.eof ∧ t.b.mux.btd = s.b.mux.btd ∧ t.b.sum = s.b.sum ∧
      (r = .needsInput → s.b.sum.length ≠ 8) ∧ (r = .needsOutput → o.length = room) ∧
      (r = .success → E ++ o = F.drop (2 ^ w) ∧ pend ++ fut = tail) := by
  have hor : s.b.rcv.at_ ≠ .idle ∨ s.b.rcv.queue ≠ [] ∨ s.result ++ held s.hold = [] := by
    rcases hat with h1 | ⟨h1, h2, h3⟩
    · left; rw [h1]; simp
    · right; right
      obtain ⟨f1, f2⟩ := he.fin h3
      rw [f2, he.stop f1]; rfl
  obtain ⟨b', o, T', e1, e2, e3, e4, e5, e6, e7, e8, e9, e10, e11, c1, c2, c3, c4, c5⟩ := smain_ok hw room hd hor
  have hext : Ext { s with b := b' } := by
    obtain ⟨g1, g2, g3, g4, g5, g6, g7, g8, g9⟩ := he
    refine ⟨g1, g2, g3, by simp only [e9]; exact g4, g5, ?_, g7, by simp only [e10]; exact g8, by simp only [e10]; exact g9⟩
    have : b'.rcv.queue = s.b.rcv.queue := by
      rw [e11]
      rcases hat with h1 | ⟨h1, h2, h3⟩
      · rw [h1, if_neg (by simp)]
      · rw [h2]; simp
    simp only [this]
    exact g6
  obtain ⟨-, v1, v2, -⟩ := fok_sum (d := ⟨skip, .body ({ s with b := b' } : St).abs, pend⟩) htl hsum e3
  unfold St.finish
  rw [e1]
  simp only [Codec.Res.bind]
  have hv : Dec.verdict ⟨skip, .body ({ s with b := b' } : St).abs, pend⟩ =
      (if b'.rcv.at_ ≠ .finished then .running else if b'.sum.length ≠ 8 then .needInput
        else if sumOk skip b'.crc b'.sum then .success else .failure) := rfl
  rw [hv] at v1 v2
  by_cases hfin : b'.rcv.at_ = .finished
  · rw [if_neg (by simp [hfin])]
    rw [if_neg (by simp [hfin])] at v1 v2
    by_cases h8 : b'.sum.length = 8
    · rw [if_neg (by simp [h8])]
      rw [if_neg (by simp [h8])] at v1 v2
      by_cases hok : sumOk skip b'.crc b'.sum = true
      · rw [if_pos hok]
        rw [if_pos hok] at v2
        exact ⟨_, o, .success, T', rfl, e2, e3, hext, e5, e6, e8, by simp, by simp, fun _ => v2 rfl⟩
      · rw [if_neg hok] at v1
        exact absurd rfl v1
    · rw [if_pos h8]
      exact ⟨_, o, .needsInput, T', rfl, e2, e3, hext, e5, e6, e8, fun _ => by rw [← e8]; exact h8, by simp, by simp⟩
  · rw [if_pos hfin]
    refine ⟨_, o, .needsOutput, T', rfl, e2, e3, hext, e5, e6, e8, by simp, fun _ => ?_, by simp⟩
    rcases hat with h1 | ⟨h1, h2, h3⟩
    · exact absurd (c5 h1).1 hfin
    · obtain ⟨f1, f2⟩ := he.fin h3
      rcases c4 h1 (by simp [St.abs, h2, f2, he.stop f1, held]) f1 with h4 | h4
      · exact absurd h4 hfin
      · exact h4.2

/-- A step of the main side. -/
theorem output_ok (hw : 8 ≤ 2 ^ w) (htl : tr.length = 8)
    (hsum : sumOk skip (if skip then Crc.init else Crc.crc32c (h ++ body)) tr = true) (room : Nat) {s : St}
    {pend fut E : List UInt8} {T : Nat}
    (hd : BOk cm dw (2 ^ w) F h body tr tail skip s.abs pend fut E T) (he : Ext s) :
    ∃ t o a T', s.output dw skip room = .ok (t, o, a) ∧ o.length ≤ room ∧
      BOk cm dw (2 ^ w) F h body tr tail skip t.abs pend fut (E ++ o) T' ∧ Ext t ∧
      t.b.mux.eof = s.b.mux.eof ∧ t.b.mux.btd = s.b.mux.btd ∧ t.b.sum = s.b.sum ∧
      (a = .go → weight t T' < weight s T ∨
        (weight t T' ≤ weight s T ∧ Fetching s ∧ (t.b.rcv.queue ≠ [] ∨ t.sawEnd = true))) ∧
      (a = .yield → weight t T' < weight s T ∨
        (weight t T' ≤ weight s T ∧ Fetching s ∧ s.result = [] ∧ s.b.rcv.core.at_ ≠ .stop ∧ s.back = [])) ∧
      (a = .ret .needsInput → s.b.mux.eof ≠ .done ∨ s.b.sum.length ≠ 8) ∧
      (a = .ret .needsOutput → o.length = room) ∧
      (a = .ret .success → E ++ o = F.drop (2 ^ w) ∧ pend ++ fut = tail) := by
  -- the state after a step of the decoders that leaves the queue alone
  have hkeep : ∀ {b' : File.Body}, b'.rcv.cmdRx = s.b.rcv.cmdRx → b'.rcv.core = s.b.rcv.core →
      b'.rcv.queue = s.b.rcv.queue → Ext { s with b := b' } := by
    intro b' e9 e10 e11
    obtain ⟨g1, g2, g3, g4, g5, g6, g7, g8, g9⟩ := he
    exact ⟨g1, g2, g3, by simp only [e9]; exact g4, g5, by simp only [e11]; exact g6, g7, by simp only [e10]; exact g8,
      by simp only [e10]; exact g9⟩
  have hwt : ∀ {b' : File.Body} {T' : Nat}, b'.mux.unread false = s.b.mux.unread false → b'.rcv.cmdRx = s.b.rcv.cmdRx → T' < T →
      weight { s with b := b' } T' + 8 ≤ weight s T := by
    intro b' T' h1 h2 h3
    simp only [weight, St.load, h1, h2]
    omega
  unfold St.output
  cases hat : s.b.rcv.at_ with
  | content c =>
    obtain ⟨b', o, T', e1, e2, e3, e4, e5, e6, e7, e8, e9, e10, e11, c1, c2, c3, c4, c5⟩ :=
      smain_ok hw room hd (Or.inl (by rw [hat]; simp))
    rw [hat, if_neg (by simp)] at e11
    simp only
    rw [e1]
    simp only [Codec.Res.bind]
    rcases c1 c hat with ⟨u1, u2⟩ | ⟨u1, u2⟩
    · rw [if_pos u1]
      exact ⟨_, o, _, T', rfl, e2, e3, hkeep e9 e10 e11, e5, e6, e8, by simp, by simp, fun _ => Or.inl u2, by simp, by simp⟩
    · rw [if_neg u1]
      have := hwt e7 e9 u2
      exact ⟨_, o, _, T', rfl, e2, e3, hkeep e9 e10 e11, e5, e6, e8, fun _ => Or.inl (by omega), by simp, by simp, by simp, by simp⟩
  | filling c =>
    obtain ⟨b', o, T', e1, e2, e3, e4, e5, e6, e7, e8, e9, e10, e11, c1, c2, c3, c4, c5⟩ :=
      smain_ok hw room hd (Or.inl (by rw [hat]; simp))
    rw [hat, if_neg (by simp)] at e11
    simp only
    rw [e1]
    simp only [Codec.Res.bind]
    rcases c2 c hat with ⟨u1, u2⟩ | ⟨u1, u2⟩
    · rw [if_pos u1]
      exact ⟨_, o, _, T', rfl, e2, e3, hkeep e9 e10 e11, e5, e6, e8, by simp, by simp, by simp, fun _ => u2, by simp⟩
    · rw [if_neg (by rw [u1]; simp)]
      have := hwt e7 e9 u2
      exact ⟨_, o, _, T', rfl, e2, e3, hkeep e9 e10 e11, e5, e6, e8, fun _ => Or.inl (by omega), by simp, by simp, by simp, by simp⟩
  | finished =>
    obtain ⟨t, o, r, T', e1, e2, e3, e4, e5, e6, e7, e8, e9, e10⟩ := finish_ok hw htl hsum room hd he (Or.inl hat)
    simp only
    rw [e1]
    refine ⟨t, o, _, T', rfl, e2, e3, e4, e5, e6, e7, by simp, by simp, fun hr => Or.inr (e8 ?_), fun hr => e9 ?_, fun hr => e10 ?_⟩
    all_goals (cases hr; rfl)
  | idle =>
    simp only
    cases hq : s.b.rcv.queue with
    | nil =>
      simp only
      cases hse : s.sawEnd with
      | true =>
        simp only [if_true]
        obtain ⟨t, o, r, T', e1, e2, e3, e4, e5, e6, e7, e8, e9, e10⟩ := finish_ok hw htl hsum room hd he (Or.inr ⟨hat, hq, hse⟩)
        rw [e1]
        refine ⟨t, o, _, T', rfl, e2, e3, e4, e5, e6, e7, by simp, by simp, fun hr => Or.inr (e8 ?_), fun hr => e9 ?_, fun hr => e10 ?_⟩
        all_goals (cases hr; rfl)
      | false =>
        simp only [Bool.false_eq_true, if_false]
        obtain ⟨t, need, e1, e2, e3, e4, e5, e6, e7, e8, e9, e10, e11, e12, e13⟩ := collect_ok hd he hq
        rw [e1]
        simp only
        have hqt : t.b.rcv.queue = s.result := by rw [e4]
        have hfet : Fetching s := ⟨hat, hq, hse⟩
        refine ⟨t, [], _, T, rfl, by simp, by rw [List.append_nil]; exact e2, e3, e6, e7, e5, ?_, ?_, ?_, ?_, ?_⟩
        all_goals
          cases need with
          | true => simp [e13]
          | false =>
            simp only [Bool.false_eq_true, if_false]
            by_cases hc : t.b.rcv.queue = [] ∧ t.sawEnd = false
            · rw [if_pos hc]
              first
              | simp; done
              | intro _
                by_cases hbk : s.back = []
                · right
                  refine ⟨by omega, hfet, by rw [← hqt]; exact hc.1, ?_, hbk⟩
                  intro h0
                  rw [e11, h0] at hc
                  simp at hc
                · left
                  have := List.length_pos_iff.mpr hbk
                  omega
            · rw [if_neg hc]
              first
              | simp; done
              | intro _
                right
                refine ⟨by omega, hfet, ?_⟩
                by_cases h1 : t.b.rcv.queue = []
                · right
                  cases h2 : t.sawEnd with
                  | true => rfl
                  | false => exact absurd ⟨h1, h2⟩ hc
                · exact Or.inl h1
    | cons g q =>
      simp only
      obtain ⟨b', o, T', e1, e2, e3, e4, e5, e6, e7, e8, e9, e10, e11, c1, c2, c3, c4, c5⟩ :=
        smain_ok hw room hd (Or.inr (Or.inl (by rw [hq]; simp)))
      rw [hat, if_pos rfl, hq, List.tail_cons] at e11
      have hlt := c3 hat (by rw [hq]; simp)
      have hw8 := hwt e7 e9 hlt
      rw [e1]
      simp only [Codec.Res.bind]
      have hm := he.maps
      have hpm : pms (g :: q) = (if isPm g then 1 else 0) + pms q := by
        rw [← pms_one, ← pms_append]; rfl
      rw [hq, hpm] at hm
      have hpop : isPm g = false → Ext { s with b := b' } := by
        intro h0
        obtain ⟨g1, g2, g3, g4, g5, g6, g7, g8, g9⟩ := he
        refine ⟨g1, g2, g3, by simp only [e9]; exact g4, g5, ?_, g7, by simp only [e10]; exact g8, by simp only [e10]; exact g9⟩
        simp only [e11]
        rw [h0] at hm
        simp only [Bool.false_eq_true, if_false] at hm
        omega
      cases g with
      | pm p =>
        simp only
        simp only [isPm, if_true] at hm
        rw [if_neg (by omega)]
        refine ⟨_, o, _, T', rfl, e2, e3, ?_, e5, e6, e8, fun _ => Or.inl ?_, by simp, by simp, by simp, by simp⟩
        · obtain ⟨g1, g2, g3, g4, g5, g6, g7, g8, g9⟩ := he
          refine ⟨g1, g2, g3, by simp only [e9]; exact g4, g5, ?_, g7, by simp only [e10]; exact g8, by simp only [e10]; exact g9⟩
          simp only [e11]
          omega
        · simp only [weight, St.load] at hw8 ⊢
          omega
      | lit n e =>
        exact ⟨_, o, _, T', rfl, e2, e3, hpop rfl, e5, e6, e8, by simp, fun _ => Or.inl (by omega), by simp, by simp, by simp⟩
      | copy d n =>
        exact ⟨_, o, _, T', rfl, e2, e3, hpop rfl, e5, e6, e8, fun _ => Or.inl (by omega), by simp, by simp, by simp, by simp⟩
      | dict z i t =>
        exact ⟨_, o, _, T', rfl, e2, e3, hpop rfl, e5, e6, e8, fun _ => Or.inl (by omega), by simp, by simp, by simp, by simp⟩
      | bswitch k t st =>
        exact ⟨_, o, _, T', rfl, e2, e3, hpop rfl, e5, e6, e8, fun _ => Or.inl (by omega), by simp, by simp, by simp, by simp⟩

end Divans.Call
