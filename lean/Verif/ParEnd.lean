import Verif.ParSim
import Verif.ParProps
import Verif.CallEndProps

/-!
# The decompressor with a thread on any bytes: every schedule comes to a stop

With the commands in the worker's own buffer at the end of the queue (`St.view`), what always holds of the decompressor
without threads (`Call.Live`) holds during a call with one, after every step of either thread; each step leaves fewer
nibbles to be read, or as many and less to be done.  When both threads wait, the worker wants bytes of the command
stream and there are none left.
-/

namespace Divans.Par
open Divans.Adaptive Divans.Pipe Divans.File
open Divans.Call

variable {dw : Nat → Nat → Nat → List UInt8} {skip : Bool} {L : Nat}

/-! ## The worker's thread -/

/-- What is left to be done by either side, without the bytes not yet taken. -/
def St.todo (p : St) : Nat := 8 * (p.view 0).chores + p.fpart

/-- Fewer nibbles to be read, or as many and less to be done. -/
def St.Down (q p : St) : Prop :=
  ∀ m, nibbles q.s m < nibbles p.s m ∨ (nibbles q.s m = nibbles p.s m ∧ q.todo < p.todo)

/-- Why the worker's thread waits. -/
def WaitsAny (p : St) (n : Nat) : Prop :=
  p.eof = true ∨ p.s.result ≠ [] ∨ p.s.back ≠ [] ∨ p.s.b.rcv.queue ≠ [] ∨
    (p.s.lent ≤ n ∧ p.s.b.rcv.cmdRx.buf = [] ∧ p.s.b.rcv.cmdRx.dec.numPushAvail ≠ 0 ∧ p.s.b.rcv.core.at_ ≠ .stop)

theorem feed_any {p : St} {n : Nat} (hl : Live L (p.view n)) (hs : Side p) (hf : p.force = none) (heof : p.eof = false)
    (hns : p.s.b.rcv.core.at_ ≠ .stop) (hwt : wants p.s = true) :
    (p.feed = none ∧ WaitsAny p n) ∨ ∃ q, p.feed = some q ∧ Live L (q.view n) ∧ Apart p q ∧ q.Down p := by
  have hav : p.s.b.rcv.cmdRx.dec.numPushAvail ≠ 0 := by
    unfold wants at hwt
    simp only [Bool.and_eq_true, decide_eq_true_eq] at hwt
    exact hwt.1
  have hfp : p.fpart = 3 := by simp [St.fpart, hf, heof]
  have hg : p.s.b.rcv.cmdRx.dec.Good := hl.good
  have hfl := fill_live hl
  obtain ⟨⟨g1, g2, g3, g4, g5, g6, g7, g8, g9⟩, d2, d3, d4, d5, d6, d7, d8, d9, d10, d11⟩ := hl
  unfold St.feed
  by_cases hb : p.s.b.rcv.cmdRx.buf ≠ []
  · rw [if_pos hb]
    right
    simp only
    obtain ⟨q, hq⟩ : ∃ q : St, q = { p with s := p.s.setRx ⟨p.s.b.rcv.cmdRx.ses, (p.s.b.rcv.cmdRx.dec.pushData p.s.b.rcv.cmdRx.buf).1,
        p.s.b.rcv.cmdRx.buf.drop (p.s.b.rcv.cmdRx.dec.pushData p.s.b.rcv.cmdRx.buf).2⟩ } := ⟨_, rfl⟩
    have hfill : (p.view n).fill.1 = q.view n := by
      have hav' : (p.view n).b.rcv.cmdRx.dec.numPushAvail ≠ 0 := hav
      have hb' : (p.view n).b.rcv.cmdRx.buf ≠ [] := hb
      unfold Call.St.fill
      rw [if_neg hav']
      unfold Call.St.pull
      rw [if_pos hb', hq]
      rfl
    rw [hfill] at hfl
    obtain ⟨k1, k2⟩ := hfl
    refine ⟨q, by rw [hq], k1, by rw [hq]; exact ⟨rfl, rfl, rfl, rfl, rfl, rfl⟩, fun m => ?_⟩
    have hle : nibbles q.s m ≤ nibbles p.s m := k2 m
    have hlt : q.todo < p.todo := by
      have hc := Ans.pushData_count p.s.b.rcv.cmdRx.dec p.s.b.rcv.cmdRx.buf hg
      have hbl : 0 < p.s.b.rcv.cmdRx.buf.length := List.length_pos_iff.mpr hb
      rw [hq]
      simp only [St.todo, St.fpart, Call.St.chores, St.view, with2, Call.St.load, Call.St.setRx, List.length_drop]
      omega
    rcases Nat.lt_or_eq_of_le hle with h0 | h0
    · exact Or.inl h0
    · exact Or.inr ⟨h0, hlt⟩
  rw [if_neg hb]
  rw [Decidable.not_not] at hb
  by_cases hm : p.s.mem ≠ []
  · rw [if_pos hm]
    by_cases h2 : 2 ≤ p.s.back.length
    · rw [if_pos h2]
      left
      refine ⟨rfl, Or.inr (Or.inr (Or.inl fun h0 => ?_))⟩
      rw [h0] at h2
      simp at h2
    · rw [if_neg h2]
      right
      have hone : one p.s.mem = 1 := one_ne hm
      refine ⟨_, rfl, ?_, ⟨rfl, rfl, rfl, rfl, rfl, rfl⟩, fun m => Or.inr ⟨rfl, ?_⟩⟩
      · rw [enter_view]
        refine ⟨⟨g1, ?_, g3, fun h0 => absurd hb h0, ?_, g6, g7, g8, g9⟩, d2, d3, d4, d5, d6, d7, d8, d9, d10, d11⟩
        · simp only [St.view, with2, List.length_append, List.length_singleton]; omega
        · simp only [St.view, with2, List.length_append, List.length_singleton, one_nil] at g5 ⊢
          rw [hone] at g5
          omega
      · have : (St.enter { p with s := { p.s with mem := [], back := p.s.back ++ [p.s.mem] } } false).fpart = 4 := by
          simp [St.fpart, St.enter, heof]
        simp only [St.todo, hfp, this, enter_view]
        simp only [Call.St.chores, St.view, with2, Call.St.load, List.length_append, List.length_singleton, one_nil, hone]
        omega
  · rw [if_neg hm]
    rw [Decidable.not_not] at hm
    cases hdt : p.s.data with
    | nil =>
      left
      by_cases hbk : p.s.back = []
      · refine ⟨rfl, Or.inr (Or.inr (Or.inr (Or.inr ⟨?_, hb, hav, hns⟩)))⟩
        simp only [St.view, with2, hdt, hm, one_nil, hbk, List.length_nil] at g5
        omega
      · exact ⟨rfl, Or.inr (Or.inr (Or.inl hbk))⟩
    | cons d ds =>
      simp only
      right
      have hdm : d.mem ≠ [] := unread_mem (g3 d (by show d ∈ p.s.data; rw [hdt]; simp))
      refine ⟨_, rfl, ?_, ⟨rfl, rfl, rfl, rfl, rfl, rfl⟩, fun m => Or.inr ⟨?_, ?_⟩⟩
      · have hg1 := g1
        have hg3 := g3
        simp only [St.view, with2, hdt, List.length_cons, hm, one_nil] at hg1 g5 hg3
        refine ⟨⟨?_, g2, ?_, fun _ => hdm, ?_, g6, g7, g8, g9⟩, d2, d3, d4, d5, d6, d7, d8, d9, d10, d11⟩
        · simp only [St.view, with2]; omega
        · intro x hx
          exact hg3 x (List.mem_cons_of_mem _ hx)
        · simp only [St.view, with2, one_ne hdm]
          simp only [Call.St.setRx]
          omega
      · simp only [nibbles, Call.St.bytes, Call.St.setRx, hdt, hb, List.map_cons, List.sum_cons, List.length_nil]
        omega
      · have : (St.fpart ⟨{ p.s.setRx { p.s.b.rcv.cmdRx with buf := d.unread } with mem := d.mem, data := ds }, p.batch, p.least, p.force, p.eof⟩) = p.fpart := rfl
        simp only [St.todo, this]
        simp only [Call.St.chores, St.view, with2, Call.St.load, Call.St.setRx, hdt, hb, hm, one_nil, one_ne hdm, List.map_cons,
          List.sum_cons, List.length_nil]
        omega

theorem plain_any {p : St} {n : Nat} (hl : Live L (p.view n)) (hs : Side p)
    (hf : p.force = none) (heof : p.eof = false) (hr : isReady p.s.hold = false) (hns : p.s.b.rcv.core.at_ ≠ .stop ∨ p.s.hold ≠ .none)
    (hwt : ¬ wants p.s = true) :
    p.plain = .fail ∨ p.plain = .panic ∨ (p.plain = .ok none ∧ WaitsAny p n) ∨
    ∃ q, p.plain = .ok (some q) ∧ Live L (q.view n) ∧ Side q ∧ Apart p q ∧ q.Down p := by
  unfold St.plain
  cases hpw : p.s.work with
  | fail => exact Or.inl rfl
  | panic => exact Or.inr (Or.inl rfl)
  | ok y =>
    obtain ⟨t, z⟩ := y
    right; right
    have hv := work_with2 p.s (p.s.result ++ p.batch) (p.s.lent - n) hr
    rw [hpw] at hv
    simp only [Codec.Res.bind] at hv ⊢
    have hv' : (p.view n).work = .ok (with2 t (p.s.result ++ p.batch) (p.s.lent - n), z) := hv
    obtain ⟨w1, w2, w3, w4, w8, w5, w6, w7⟩ := work_frame hpw hr
    cases z with
    | some y =>
      left
      refine ⟨rfl, ?_⟩
      cases y with
      | needsInput => exact absurd (w5 rfl) hwt
      | success =>
        obtain ⟨-, -, -, -, -, -, -, -, h9, -⟩ := work_live hl hv' 0
        have hst : p.s.b.rcv.core.at_ = .stop := h9 rfl
        rcases hns with h0 | h0
        · exact absurd hst h0
        · exact absurd (hl.ext.stop hst) h0
      | needsOutput =>
        have := w6 rfl
        have hm := hl.ext.maps
        obtain ⟨hx1, hx2⟩ := hs.free hf
        simp only [St.view, with2, this.1, this.2.1, this.2.2, pms_append, hx2, heldPm] at hm
        by_cases hr0 : p.s.result = []
        · right; right; right; left
          intro hq
          rw [hr0, hq] at hm
          simp [pms] at hm
        · exact Or.inr (Or.inl hr0)
    | none =>
      right
      have hview : ∀ k, (St.mk t p.batch p.least p.force p.eof).view k = with2 t (p.s.result ++ p.batch) (p.s.lent - k) := by
        intro k
        simp only [St.view, w4, w8]
      have hk := fun m => work_live hl hv' m
      obtain ⟨k1, k2, k3, k4, -⟩ := hk 0
      refine ⟨_, rfl, by rw [hview]; exact k1, ⟨hs.cap, hs.free, fun hx => ?_, fun hx => ?_, fun hx => ?_⟩,
        ⟨k2, k3, w8, w1, w2, w3⟩, fun m => ?_⟩
      · have hx' : p.eof = true := hx
        rw [heof] at hx'; cases hx'
      · exact hs.saw (by rw [← w3]; exact hx)
      · have hx' : p.force = some true := hx
        rw [hf] at hx'; cases hx'
      · obtain ⟨-, -, -, -, -, k6, -⟩ := hk m
        have h3 : (St.mk t p.batch p.least p.force p.eof).fpart = p.fpart := rfl
        rcases k6 rfl with h0 | ⟨h0, h1⟩
        · exact Or.inl h0
        · refine Or.inr ⟨h0, ?_⟩
          have h2 : (with2 t (p.s.result ++ p.batch) (p.s.lent - 0)).chores < (p.view 0).chores := by
            have h4 : (with2 t (p.s.result ++ p.batch) (p.s.lent - n)).chores < (p.view n).chores := by omega
            exact h4
          simp only [St.todo, h3, hview]
          omega

/-- A step of the worker's thread on any bytes. -/
theorem pwork_any {p : St} {n : Nat} (hl : Live L (p.view n)) (hs : Side p) :
    p.work = .fail ∨ p.work = .panic ∨ (p.work = .ok none ∧ WaitsAny p n) ∨
    ∃ q, p.work = .ok (some q) ∧ Live L (q.view n) ∧ Side q ∧ Apart p q ∧ q.Down p := by
  rcases hfo : p.force with _ | e
  case some =>
    have hf := hfo
    rw [work_force hf]
    right; right
    have heof : p.eof = false := by
      cases hx : p.eof with
      | false => rfl
      | true => have := (hs.fin hx).2.2; rw [hf] at this; cases this
    unfold St.flush
    by_cases h1 : 256 - p.s.result.length < p.batch.length
    · rw [if_pos h1]
      left
      refine ⟨rfl, Or.inr (Or.inl fun h0 => ?_)⟩
      have := hs.cap
      rw [h0, List.length_nil] at h1
      omega
    rw [if_neg h1]
    have hm := hl.ext.maps
    simp only [St.view, with2, pms_append] at hm
    rw [if_neg (by
      rintro ⟨h2, h3⟩
      have : 2 ≤ pms p.s.result := h3
      omega)]
    right
    refine ⟨_, rfl, ?_, ?_, ⟨rfl, rfl, rfl, rfl, rfl, rfl⟩, fun m => Or.inr ⟨rfl, ?_⟩⟩
    · simp only [St.view, List.append_nil]
      exact hl
    · refine ⟨by simp, fun _ => by simp [pms], fun hx => ?_, fun hx => ?_, by simp⟩
      · simp only [heof, Bool.false_or] at hx
        exact ⟨hs.last (by rw [hf, hx]), rfl, rfl⟩
      · have := hs.saw hx
        rw [heof] at this
        cases this
    · have hc : ∀ q : St, q.s = { p.s with result := p.s.result ++ p.batch } → q.batch = [] → q.view 0 = p.view 0 := by
        intro q h1 h2
        simp only [St.view, h1, h2, List.append_nil]
        rfl
      simp only [St.todo]
      rw [hc _ rfl rfl]
      simp only [St.fpart, hf, heof]
      cases e <;> simp
  case none =>
    have hf := hfo
    rcases Bool.eq_false_or_eq_true p.eof with heof | heof
    · rw [work_end hf heof]
      exact Or.inr (Or.inr (Or.inl ⟨rfl, Or.inl heof⟩))
    have hfp : p.fpart = 3 := by simp [St.fpart, hf, heof]
    cases hh : p.s.hold with
    | ready g =>
      rw [work_ready hf heof hh]
      right; right; right
      obtain ⟨c1, c2⟩ := hs.free hf
      have hT : p.s.b.rcv.core.at_ ≠ .stop := fun h0 => by
        have := hl.ext.stop h0
        have h1 : (p.view n).hold = p.s.hold := rfl
        rw [h1, hh] at this; cases this
      obtain ⟨q, hq⟩ : ∃ q : St, q = { p with s := { p.s with hold := .none }, batch := p.batch ++ [g] } := ⟨_, rfl⟩
      have hqe : Live L (q.view n) := by
        obtain ⟨⟨g1, g2, g3, g4, g5, g6, g7, g8, g9⟩, d2, d3, d4, d5, d6, d7, d8, d9, d10, d11⟩ := hl
        rw [hq]
        refine ⟨⟨g1, g2, g3, g4, g5, ?_, by simp [St.view, with2], fun _ => rfl, fun hx => absurd (g9 hx).1 hT⟩,
          d2, d3, d4, d5, d6, d7, d8, d9, d10, d11⟩
        simp only [St.view, with2, hh, heldPm, pms_append, pms_one] at g6 ⊢
        omega
      have hqa : Apart p q := by rw [hq]; exact ⟨rfl, rfl, rfl, rfl, rfl, rfl⟩
      have hqn : ∀ m, nibbles q.s m = nibbles p.s m := by intro m; rw [hq]; rfl
      have hqw : (q.view 0).chores + 1 = (p.view 0).chores := by
        rw [hq]
        simp only [Call.St.chores, St.view, with2, Call.St.load, hh, Hold.weight, held, cmdsCost_append]
        simp only [cmdsCost, List.map_nil, List.sum_nil]
        omega
      have hqb : q.batch = p.batch ++ [g] := by rw [hq]
      have hqf : q.eof = false := by rw [hq]; exact heof
      have hqs : q.s.sawEnd = p.s.sawEnd := by rw [hq]
      have hps : p.pass g = .ok (some (if isPm g ∨ q.batch.length = 256 ∨ q.batch.length = p.least then q.enter false else q)) := by
        unfold St.pass
        rw [if_neg (by omega)]
        simp only
        rw [hq]
      rw [hps]
      have hfp' : q.fpart ≤ 4 := fpart_le q
      have hfp'' := fpart_le (q.enter false)
      have hcap : q.batch.length ≤ 256 := by rw [hqb, List.length_append, List.length_singleton]; omega
      have hsaw : q.s.sawEnd = true → q.eof = true := by
        intro hx
        rw [hqs] at hx
        have := hs.saw hx
        rw [heof] at this
        cases this
      by_cases hc : isPm g = true ∨ q.batch.length = 256 ∨ q.batch.length = p.least
      · rw [if_pos hc]
        refine ⟨_, rfl, hqe, ⟨hcap, by simp [St.enter], fun hx => ?_, hsaw, by simp [St.enter]⟩,
          ⟨hqa.1, hqa.2, hqa.3, hqa.4, hqa.5, hqa.6⟩, fun m => Or.inr ⟨hqn m, ?_⟩⟩
        · have hx' : q.eof = true := hx
          rw [hqf] at hx'
          cases hx'
        · simp only [St.todo, enter_view]
          omega
      · rw [if_neg hc]
        refine ⟨_, rfl, hqe, ⟨hcap, fun _ => ⟨?_, ?_⟩, fun hx => ?_, hsaw, fun hx => ?_⟩, hqa, fun m => Or.inr ⟨hqn m, ?_⟩⟩
        · rcases Nat.lt_or_ge q.batch.length 256 with h0 | h0
          · exact h0
          · exact absurd (Or.inr (Or.inl (by omega))) hc
        · have : isPm g = false := by
            cases hg : isPm g with
            | false => rfl
            | true => exact absurd (Or.inl hg) hc
          rw [hqb, pms_append, pms_one, c2, this]
          rfl
        · rw [hqf] at hx; cases hx
        · have : q.force = none := by rw [hq]; exact hf
          rw [this] at hx
          cases hx
        · simp only [St.todo]
          omega
    | decoded g =>
      have hr : isReady p.s.hold = false := by rw [hh]; rfl
      have hT : p.s.b.rcv.core.at_ ≠ .stop := fun h0 => by
        have := hl.ext.stop h0
        have h1 : (p.view n).hold = p.s.hold := rfl
        rw [h1, hh] at this; cases this
      rw [work_rest hf heof hr, if_neg (by rw [hh]; simp)]
      by_cases hw : wants p.s = true
      · rw [if_pos hw]
        right; right
        rcases feed_any hl hs hf heof hT hw with ⟨k1, k2⟩ | ⟨q, k1, k2, k3, k4⟩
        · exact Or.inl ⟨by rw [k1], k2⟩
        · exact Or.inr ⟨q, by rw [k1], k2, feed_side hs heof k1, k3, k4⟩
      · rw [if_neg hw]
        exact plain_any hl hs hf heof hr (Or.inl hT) hw
    | none =>
      have hr : isReady p.s.hold = false := by rw [hh]; rfl
      rw [work_rest hf heof hr]
      by_cases hT : p.s.b.rcv.core.at_ = .stop
      · rw [if_pos ⟨hh, hT⟩]
        right; right; right
        refine ⟨_, rfl, by rw [enter_view]; exact hl, ⟨hs.cap, by simp [St.enter], fun hx => ?_, hs.saw, fun _ => hT⟩,
          ⟨rfl, rfl, rfl, rfl, rfl, rfl⟩, fun m => Or.inr ⟨rfl, ?_⟩⟩
        · have hx' : p.eof = true := hx
          rw [heof] at hx'
          cases hx'
        · have : (p.enter true).fpart = 2 := by simp [St.fpart, St.enter, heof]
          simp only [St.todo, enter_view, this]
          omega
      rw [if_neg (fun h0 => hT h0.2)]
      by_cases hw : wants p.s = true
      · rw [if_pos hw]
        right; right
        rcases feed_any hl hs hf heof hT hw with ⟨k1, k2⟩ | ⟨q, k1, k2, k3, k4⟩
        · exact Or.inl ⟨by rw [k1], k2⟩
        · exact Or.inr ⟨q, by rw [k1], k2, feed_side hs heof k1, k3, k4⟩
      · rw [if_neg hw]
        exact plain_any hl hs hf heof hr (Or.inl hT) hw

/-! ## The main thread -/

/-- What is left to be done in the call. -/
def Conf.todo (c : Conf) : Nat := 64 * c.pend.length + c.p.todo + (if fetches c.p.s then 2 else 0) + c.ph.left

/-- Fewer nibbles to be read, or as many and less to be done. -/
def Conf.Down (c' c : Conf) : Prop :=
  nibbles c'.p.s c'.pend.length < nibbles c.p.s c.pend.length ∨
    (nibbles c'.p.s c'.pend.length = nibbles c.p.s c.pend.length ∧ c'.todo < c.todo)

/-- What holds during a call with input `inp` and room for `R` bytes. -/
structure During (L : Nat) (inp : List UInt8) (R : Nat) (c : Conf) : Prop where
  live : Live L (c.p.view c.ph.count)
  side : Side c.p
  few : c.ph.count ≤ c.p.s.lent
  room : c.out.length + c.room = R
  pend : ∃ n, n ≤ inp.length ∧ c.pend = inp.drop n
  fed : c.ph ≠ .input → c.p.s.lent = 0 →
    (c.p.s.b.mux.unread false = [] ∧ c.p.s.b.mux.eof = .done) ∨ ∃ ms, c.ph = .giving ms true

/-- What holds when it returns. -/
structure Returned (L : Nat) (inp : List UInt8) (R : Nat) (c : Conf) (r : Ret) : Prop where
  live : Live L (c.p.view 0)
  side : Side c.p
  room : c.out.length + c.room = R
  pend : ∃ n, n ≤ inp.length ∧ c.pend = inp.drop n
  full : r = .needsOutput → c.room = 0

/-- What a step of the main thread comes to. -/
def TicksAny (dw : Nat → Nat → Nat → List UInt8) (skip : Bool) (L : Nat) (inp : List UInt8) (R : Nat) (c : Conf) : Prop :=
  c.tick dw skip = .fail ∨ c.tick dw skip = .panic ∨
  (c.tick dw skip = .ok none ∧ c.ph = .output ∧ fetches c.p.s = true ∧ c.p.s.result = [] ∧ c.p.s.back = [] ∧ c.p.eof = false) ∨
  (∃ c', c.tick dw skip = .ok (some (c', none)) ∧ During L inp R c' ∧ c'.Down c) ∨
  (∃ c' r, c.tick dw skip = .ok (some (c', some r)) ∧ Returned L inp R c' r)

variable {inp : List UInt8} {R : Nat}

theorem input_receives {s t : Call.St} {pend rest : List UInt8} (e : s.input skip pend = some (t, rest, true)) : receives t = true := by
  unfold Call.St.input at e
  cases hi : s.b.input skip pend with
  | none => rw [hi] at e; cases e
  | some x =>
    obtain ⟨b1, rest1⟩ := x
    rw [hi] at e
    simp only at e
    unfold receives
    by_cases hu : b1.mux.unread false ≠ []
    · rw [if_pos hu] at e
      cases hp : ({ s with b := b1 } : Call.St).push with
      | none =>
        rw [hp] at e
        simp only [Option.some.injEq, Prod.mk.injEq, decide_eq_true_eq] at e
        obtain ⟨rfl, -, h3⟩ := e
        have : 0 < s.lent := Nat.pos_of_ne_zero h3
        simp [this]
      | some t1 =>
        rw [hp] at e
        simp only [Option.some.injEq, Prod.mk.injEq] at e
        obtain ⟨rfl, -, -⟩ := e
        have := (push_frame hp).2.2.2.2.1
        simp [this]
    · rw [if_neg hu] at e
      rw [Decidable.not_not] at hu
      simp only [Option.some.injEq, Prod.mk.injEq, Bool.or_eq_true, decide_eq_true_eq] at e
      obtain ⟨rfl, -, h3⟩ := e
      rcases h3 with h3 | h3
      · simp [h3, hu]
      · have : 0 < s.lent := Nat.pos_of_ne_zero h3
        simp [this]

theorem input_tick_any {c : Conf} (hph : c.ph = .input) (hb : During L inp R c) : TicksAny dw skip L inp R c := by
  obtain ⟨p, ph, pend, room, out⟩ := c
  simp only at hph
  subst hph
  obtain ⟨b1, b3, b4, b6, ⟨n0, hn0, b7⟩, -⟩ := hb
  simp only [Phase.count] at b1 b6 b7
  obtain ⟨t, n, go, e1, e2, e3, e4, e5, e6, -⟩ := input_live (skip := skip) b1 pend
  have hv : p.view 0 = with2 p.s (p.s.result ++ p.batch) p.s.lent := rfl
  rw [hv, input_with2] at e1
  cases hi : p.s.input skip pend with
  | none => rw [hi] at e1; cases e1
  | some x =>
    obtain ⟨u, rest, go'⟩ := x
    rw [hi] at e1
    simp only [Option.map_some, Option.some.injEq, Prod.mk.injEq] at e1
    obtain ⟨hu, rfl, rfl⟩ := e1
    obtain ⟨f1, f2, f3⟩ := input_frame hi
    have hview : (St.mk u p.batch p.least p.force p.eof).view 0 = t := by
      rw [← hu]
      simp only [St.view, f1]
      rfl
    have hside : Side (St.mk u p.batch p.least p.force p.eof) := by
      obtain ⟨s1, s2, s3, s4, s5⟩ := b3
      exact ⟨s1, s2, by simp only [f2]; exact s3, by simp only [f3]; exact s4, by simp only [f2]; exact s5⟩
    have hpend : ∃ m, m ≤ inp.length ∧ pend.drop n = inp.drop m := by
      refine ⟨n0 + n, ?_, ?_⟩
      · rw [b7, List.length_drop] at e2; omega
      · rw [b7, List.drop_drop]
    right; right; right
    cases go' with
    | false =>
      right
      exact ⟨_, _, by unfold Conf.tick; simp only [hi]; rfl, by simp only [hview]; exact e3, hside, b6, hpend, by simp⟩
    | true =>
      left
      have hrec := input_receives hi
      refine ⟨⟨⟨u, p.batch, p.least, p.force, p.eof⟩, .output, pend.drop n, room, out⟩,
        by unfold Conf.tick; simp only [hi, hrec, if_true], ⟨by simp only [Phase.count, hview]; exact e3, hside, Nat.zero_le _, b6, hpend, ?_⟩, ?_⟩
      · intro _ h0
        have h0' : u.lent = 0 := h0
        unfold receives at hrec
        simp only [h0', Nat.lt_irrefl, decide_false, Bool.false_or, Bool.and_eq_true, decide_eq_true_eq] at hrec
        exact Or.inl ⟨hrec.2, by simpa [Mux.Mux.sawEof] using hrec.1⟩
      · have hfe : fetches u = fetches p.s := by unfold fetches; rw [f2, f3]
        have hfp : (St.mk u p.batch p.least p.force p.eof).fpart = p.fpart := rfl
        have hnib : ∀ m, nibbles u m = nibbles t m := by intro m; rw [← hu]; rfl
        have hnib' : ∀ m, nibbles p.s m = nibbles (p.view 0) m := fun _ => rfl
        unfold NoMore at e6
        simp only [Conf.Down, Conf.todo, St.todo, Phase.left, hfe, hfp, hview, hnib]
        rw [hnib']
        omega

theorem given_tick_any {c : Conf} {need : Bool} (hph : c.ph = .giving [] need) (hb : During L inp R c) : TicksAny dw skip L inp R c := by
  obtain ⟨p, ph, pend, room, out⟩ := c
  simp only at hph
  subst hph
  obtain ⟨b1, b3, b4, b6, b7, b10⟩ := hb
  right; right; right
  cases need with
  | true =>
    right
    exact ⟨⟨p, .output, pend, room, out⟩, .needsInput, by unfold Conf.tick; rfl, b1, b3, b6, b7, by simp⟩
  | false =>
    left
    refine ⟨⟨p, .output, pend, room, out⟩, by unfold Conf.tick; rfl, ⟨b1, b3, b4, b6, b7, fun _ h0 => ?_⟩, Or.inr ⟨rfl, ?_⟩⟩
    · rcases b10 (by simp) h0 with h1 | ⟨ms, h1⟩
      · exact Or.inl h1
      · cases h1
    · simp only [Conf.todo, Phase.left]
      omega

theorem recycled_live {s : Call.St} (m : List UInt8) (hl : Live L s) : Live L (recycled s m) := by
  obtain ⟨d1, d2, d3, d4, d5, d6, d7, d8, d9, d10, d11⟩ := hl
  obtain ⟨k1, k2, k3, k4⟩ := recycle_spec d5 false m
  exact ⟨recycled_ext m d1, d2, d3, d4, k1, d6, d7, d8, d9, by simp only [recycled, k4]; exact d10, d11⟩

theorem giving_tick_any {c : Conf} {m : List UInt8} {ms : List (List UInt8)} {need : Bool} (hph : c.ph = .giving (m :: ms) need)
    (hb : During L inp R c) : TicksAny dw skip L inp R c := by
  obtain ⟨p, ph, pend, room, out⟩ := c
  simp only at hph
  subst hph
  obtain ⟨b1, b3, b4, b6, b7, b10⟩ := hb
  simp only [Phase.count, List.length_cons] at b1 b3 b4 b6 b7
  obtain ⟨s1, hs1⟩ : ∃ s1 : Call.St, s1 = { p.s with lent := p.s.lent - 1 } := ⟨_, rfl⟩
  obtain ⟨N, hN⟩ : ∃ N, N = p.s.lent - (ms.length + 1) := ⟨_, rfl⟩
  have hvw : p.view (ms.length + 1) = with2 s1 (p.s.result ++ p.batch) N := by rw [hs1, hN]; rfl
  have hl1 : s1.lent = p.s.lent - 1 := by rw [hs1]
  have hLl : N + ms.length = s1.lent := by omega
  have hpw := push_with2 s1 (p.s.result ++ p.batch) N ms.length hLl
  rw [hvw] at b1
  have hr1 : s1.result = p.s.result := by rw [hs1]
  have hb1 : s1.b = p.s.b := by rw [hs1]
  have hse1 : s1.sawEnd = p.s.sawEnd := by rw [hs1]
  have hc1 : (with2 s1 (p.s.result ++ p.batch) N).chores = (p.view 0).chores := by rw [← hvw]; rfl
  have hn1 : ∀ k, nibbles s1 k = nibbles p.s k := by intro k; rw [hs1]; rfl
  have hgb := giveBack_one m p.s need (by omega)
  rw [← hs1] at hgb
  right; right; right; left
  unfold Call.St.refill at hgb
  have hfp : ∀ u, (St.mk u p.batch p.least p.force p.eof).fpart = p.fpart := fun _ => rfl
  cases hp : s1.push with
  | some t =>
    rw [hp] at hpw hgb
    simp only [Option.map_some] at hpw hgb
    obtain ⟨a1, a2, a3, a4, a5, a6, a7, a8⟩ := push_any b1.mux b1.ext hpw
    obtain ⟨f1, f2, f3, f4, f5, f6, f7, f8⟩ := push_frame hp
    have hlive : Live L (with2 t (p.s.result ++ p.batch) (t.lent - ms.length)) := by
      obtain ⟨d1, d2, d3, d4, d5, d6, d7, d8, d9, d10, d11⟩ := b1
      have hrcv := a7.rcv
      exact ⟨a2, by rw [hrcv]; exact d2, by rw [hrcv]; exact d3, by rw [hrcv]; exact d4, a1, by rw [hrcv]; exact d6,
        by rw [hrcv]; exact d7, by rw [hrcv]; exact d8, by rw [a7.sum]; exact d9, by rw [a7.sum, a7.eof]; exact d10,
        by rw [a8]; exact d11⟩
    have hun := (recycle_spec a1 false m).2.1 false
    have hview : ∀ k, (St.mk (recycled t m) p.batch p.least p.force p.eof).view k =
        recycled (with2 t (p.s.result ++ p.batch) (t.lent - k)) m := by
      intro k
      rw [← hr1, ← f1]; rfl
    refine ⟨⟨⟨recycled t m, p.batch, p.least, p.force, p.eof⟩, .giving ms need, pend, room, out⟩,
      by unfold Conf.tick; simp only [hgb], ⟨?_, ?_, ?_, b6, b7, ?_⟩, Or.inr ⟨?_, ?_⟩⟩
    · simp only [Phase.count, hview]; exact recycled_live m hlive
    · obtain ⟨s1, s2, s3, s4, s5⟩ := b3
      refine ⟨s1, s2, ?_, ?_, ?_⟩
      · simp only [recycled, f2, hb1]; exact s3
      · simp only [recycled, f3, hse1]; exact s4
      · simp only [recycled, f2, hb1]; exact s5
    · simp only [Phase.count, recycled, f5]; omega
    · intro _ h0
      have : t.lent = 0 := h0
      omega
    · simp only
      rw [← hn1]
      have h1 : (recycled t m).bytes = s1.bytes := by
        have h2 : (recycled t m).b.mux.unread false = t.b.mux.unread false := hun
        have h3 : t.bytes = s1.bytes := a4
        rw [← h3]
        simp only [Call.St.bytes, h2]; rfl
      have h4 : (recycled t m).b.rcv = s1.b.rcv := f2
      simp only [nibbles, h1, h4]
    · have h1 : ((St.mk (recycled t m) p.batch p.least p.force p.eof).view 0).chores ≤ (p.view 0).chores := by
        rw [hview, ← hc1]
        have h2 : (recycled (with2 t (p.s.result ++ p.batch) (t.lent - 0)) m).load = t.load := by
          have : (recycled t m).b.mux.unread false = t.b.mux.unread false := hun
          have h3 : (recycled (with2 t (p.s.result ++ p.batch) (t.lent - 0)) m).b.mux = (recycled t m).b.mux := rfl
          simp only [Call.St.load, h3, this]; rfl
        have h3 : t.load < s1.load := a3
        have h4 : t.hold = s1.hold := a7.hold
        have h5 : t.maps = s1.maps := a7.maps
        have h6 : (recycled (with2 t (p.s.result ++ p.batch) (t.lent - 0)) m).b.rcv = s1.b.rcv := f2
        have h7 : (with2 s1 (p.s.result ++ p.batch) N).load = s1.load := rfl
        simp only [Call.St.chores, h2, h6, h7]
        simp only [recycled, with2, h4, h5]
        omega
      have hfe : fetches (recycled t m) = fetches p.s := by
        have h8 : (recycled t m).b.rcv = p.s.b.rcv := by rw [← hb1]; exact f2
        have h9 : (recycled t m).sawEnd = p.s.sawEnd := by rw [← hse1]; exact f3
        unfold fetches; rw [h8, h9]
      simp only [Conf.todo, St.todo, Phase.left, hfe, hfp, List.length_cons]
      omega
  | none =>
    rw [hp] at hgb
    simp only at hgb
    obtain ⟨nd, hnd⟩ : ∃ nd, nd = (need || (decide (s1.lent = 0) && (decide (s1.b.mux.unread false ≠ []) || !s1.b.mux.sawEof))) := ⟨_, rfl⟩
    rw [← hnd] at hgb
    have hle := b1.ext.lent
    simp only [with2] at hle
    have hun : s1.lent = 0 → s1.b.mux.unread false = [] := by
      intro h0
      rcases push_none hp with h3 | h3
      · omega
      · exact h3
    have hview : ∀ k, (St.mk (recycled s1 m) p.batch p.least p.force p.eof).view k =
        recycled (with2 s1 (p.s.result ++ p.batch) (s1.lent - k)) m := by
      intro k
      rw [← hr1]; rfl
    have hN' : s1.lent - ms.length = N := by omega
    obtain ⟨q1, q2, q3, q4⟩ := recycle_spec (m := s1.b.mux) b1.mux false m
    have heo : (recycled s1 m).b.mux.eof = s1.b.mux.eof := q4
    have hu2 : (recycled s1 m).b.mux.unread false = s1.b.mux.unread false := q2 false
    refine ⟨⟨⟨recycled s1 m, p.batch, p.least, p.force, p.eof⟩, .giving ms nd, pend, room, out⟩,
      by unfold Conf.tick; simp only [hgb], ⟨?_, ?_, ?_, b6, b7, ?_⟩, Or.inr ⟨?_, ?_⟩⟩
    · simp only [Phase.count, hview, hN']; exact recycled_live m b1
    · obtain ⟨s1, s2, s3, s4, s5⟩ := b3
      refine ⟨s1, s2, ?_, ?_, ?_⟩
      · simp only [recycled, hb1]; exact s3
      · simp only [recycled, hse1]; exact s4
      · simp only [recycled, hb1]; exact s5
    · simp only [Phase.count, recycled]; omega
    · intro _ h0
      have h1 : s1.lent = 0 := h0
      cases hn : nd with
      | true => exact Or.inr ⟨ms, rfl⟩
      | false =>
        left
        rw [hn] at hnd
        have hu := hun h1
        have h2 : s1.b.mux.eof = .done := by
          simp only [h1, hu, decide_true, Bool.true_and, ne_eq, not_true_eq_false, decide_false, Bool.false_or] at hnd
          have := hnd.symm
          simp only [Bool.or_eq_false_iff, Bool.not_eq_false'] at this
          simpa [Mux.Mux.sawEof] using this.2
        simp only [hu2, heo]
        exact ⟨hu, h2⟩
    · simp only
      rw [← hn1]
      have h1 : (recycled s1 m).bytes = s1.bytes := by
        simp only [Call.St.bytes, hu2]; rfl
      have h4 : (recycled s1 m).b.rcv = s1.b.rcv := rfl
      simp only [nibbles, h1, h4]
    · have h1 : ((St.mk (recycled s1 m) p.batch p.least p.force p.eof).view 0).chores = (p.view 0).chores := by
        rw [hview, ← hc1]
        have h2 : (recycled (with2 s1 (p.s.result ++ p.batch) (s1.lent - 0)) m).load = s1.load := by
          have h3 : (recycled (with2 s1 (p.s.result ++ p.batch) (s1.lent - 0)) m).b.mux = (recycled s1 m).b.mux := rfl
          simp only [Call.St.load, h3, hu2]; rfl
        have h7 : (with2 s1 (p.s.result ++ p.batch) N).load = s1.load := rfl
        simp only [Call.St.chores, h2, h7]
        rfl
      have hfe : fetches (recycled s1 m) = fetches p.s := by
        have h8 : (recycled s1 m).b.rcv = p.s.b.rcv := by rw [← hb1]; rfl
        have h9 : (recycled s1 m).sawEnd = p.s.sawEnd := by rw [← hse1]; rfl
        unfold fetches; rw [h8, h9]
      simp only [Conf.todo, St.todo, Phase.left, hfe, hfp, h1, List.length_cons]
      omega

theorem fetch_tick_any {c : Conf} (hph : c.ph = .output) (hf : fetches c.p.s = true) (hb : During L inp R c) :
    TicksAny dw skip L inp R c := by
  obtain ⟨p, ph, pend, room, out⟩ := c
  simp only at hph hf
  subst hph
  obtain ⟨b1, b3, b4, b6, b7, b10⟩ := hb
  have hq : p.s.b.rcv.queue = [] := by
    unfold fetches at hf
    simp only [Bool.and_eq_true, List.isEmpty_iff] at hf
    exact hf.1.2
  right; right
  by_cases hw : p.s.result = [] ∧ p.s.back = [] ∧ p.eof = false
  · left
    refine ⟨?_, rfl, hf, hw.1, hw.2.1, hw.2.2⟩
    unfold Conf.tick
    simp only [hf, if_true]
    rw [if_pos hw]
  right; left
  simp only [Phase.count] at b1 b4
  have hle := b1.ext.lent
  simp only [St.view, with2] at hle
  refine ⟨⟨p.fetched, .giving p.s.back false, pend, room, out⟩, ?_, ⟨?_, ?_, ?_, b6, b7, ?_⟩, Or.inr ⟨rfl, ?_⟩⟩
  · unfold Conf.tick
    simp only [hf, if_true]
    rw [if_neg hw]
    rfl
  · obtain ⟨⟨g1, g2, g3, g4, g5, g6, g7, g8, g9⟩, d2, d3, d4, d5, d6, d7, d8, d9, d10, d11⟩ := b1
    refine ⟨⟨g1, by simp [St.view, with2, St.fetched], g3, g4, ?_, ?_, g7, g8, ?_⟩, d2, d3, d4, d5, d6, d7, d8, d9, d10, d11⟩
    · simp only [Phase.count, St.view, with2, St.fetched, List.length_nil]
      omega
    · simp only [St.view, with2, hq, pms_append] at g6
      simp only [St.view, with2, St.fetched, pms_append]
      simp only [pms, List.filter_nil, List.length_nil] at g6 ⊢
      omega
    · intro hx
      obtain ⟨u1, u2, u3⟩ := b3.fin hx
      exact ⟨u1, u2⟩
  · obtain ⟨s1, s2, s3, s4, s5⟩ := b3
    exact ⟨s1, s2, s3, fun hx => hx, s5⟩
  · simp only [Phase.count, St.fetched]; omega
  · intro _ h0
    rcases b10 (by simp) h0 with h1 | ⟨ms, h1⟩
    · exact Or.inl h1
    · cases h1
  · have hwt : (p.fetched.view 0).chores + p.s.back.length = (p.view 0).chores := by
      simp only [Call.St.chores, Call.St.load, St.view, with2, St.fetched, List.length_nil, hq, List.nil_append, cmdsCost_append]
      simp only [cmdsCost, List.map_nil, List.sum_nil]
      omega
    have hfp : p.fetched.fpart = p.fpart := rfl
    have hfe : p.s.back = [] → fetches p.fetched.s = false := by
      intro h0
      unfold fetches
      by_cases h1 : p.s.result = []
      · have : p.eof = true := by
          cases h2 : p.eof with
          | true => rfl
          | false => exact absurd ⟨h1, h0, h2⟩ hw
        simp [St.fetched, this]
      · simp [St.fetched, h1]
    simp only [Conf.todo, St.todo, Phase.left, hfp, hf, if_true]
    by_cases h0 : p.s.back = []
    · rw [hfe h0, h0]
      rw [h0] at hwt
      simp only [List.length_nil] at hwt ⊢
      simp only [Bool.false_eq_true, if_false]
      omega
    · have := List.length_pos_iff.mpr h0
      split <;> omega

theorem output_tick_any {c : Conf} (hph : c.ph = .output) (hf : fetches c.p.s = false) (hb : During L inp R c) :
    TicksAny dw skip L inp R c := by
  obtain ⟨p, ph, pend, room, out⟩ := c
  simp only at hph hf
  subst hph
  obtain ⟨b1, b3, b4, b6, b7, b10⟩ := hb
  simp only [Phase.count] at b1 b4 b6
  have hfv : fetches (p.view 0) = false := hf
  have hnf : ¬ Fetching (p.view 0) := by
    rintro ⟨f1, f2, f3⟩
    unfold fetches at hfv
    simp [f1, f2, f3] at hfv
  have hrm : ¬ (returnsMap p.s = true ∧ p.s.maps = 2) := by
    rintro ⟨h1, h2⟩
    have hm := b1.ext.maps
    simp only [St.view, with2, h2] at hm
    omega
  have htick : Conf.tick dw skip ⟨p, .output, pend, room, out⟩ =
      (p.s.output dw skip room).bind fun x =>
        match x.2.2 with
        | .ret r => .ok (some (⟨⟨x.1, p.batch, p.least, p.force, p.eof⟩, .output, pend, room - x.2.1.length, out ++ x.2.1⟩, some r))
        | _ => .ok (some (⟨⟨x.1, p.batch, p.least, p.force, p.eof⟩, .output, pend, room - x.2.1.length, out ++ x.2.1⟩, none)) := by
    unfold Conf.tick
    simp only [hf, Bool.false_eq_true, if_false]
    rw [if_neg hrm]
    rfl
  cases ho : p.s.output dw skip room with
  | fail => exact Or.inl (by rw [htick, ho]; rfl)
  | panic => exact Or.inr (Or.inl (by rw [htick, ho]; rfl))
  | ok x =>
    obtain ⟨u, o, a⟩ := x
    right; right; right
    have hv := output_with2 (dw := dw) (skip := skip) p.s (p.s.result ++ p.batch) (p.s.lent - 0) room hf
    rw [ho] at hv htick
    simp only [Codec.Res.bind] at hv htick
    have hv' : (p.view 0).output dw skip room = .ok (with2 u (p.s.result ++ p.batch) (p.s.lent - 0), o, a) := hv
    obtain ⟨e1, e2, e3, e4, e5, e6⟩ := output_live b1 hv'
    obtain ⟨f1, f2, f3, f4, f5, -⟩ := output_keeps hf ho
    have hview : (St.mk u p.batch p.least p.force p.eof).view 0 = with2 u (p.s.result ++ p.batch) (p.s.lent - 0) := by
      simp only [St.view, f1, f2]
    have hside : Side (St.mk u p.batch p.least p.force p.eof) := by
      obtain ⟨s1, s2, s3, s4, s5⟩ := b3
      exact ⟨s1, s2, by simp only [f4]; exact s3, by simp only [f3]; exact s4, by simp only [f4]; exact s5⟩
    have hroom : (out ++ o).length + (room - o.length) = R := by
      rw [List.length_append]; omega
    have hmux : u.b.mux.unread false = p.s.b.mux.unread false ∧ u.b.mux.eof = p.s.b.mux.eof := by
      rw [output_eq _ _ hf] at ho
      cases hm : p.s.b.main dw room with
      | fail => rw [hm] at ho; cases ho
      | panic => rw [hm] at ho; cases ho
      | ok x =>
        rw [hm] at ho
        simp only [Codec.Res.bind] at ho
        obtain ⟨b', o'⟩ := x
        obtain ⟨-, -, -, -, a5, a6, -⟩ := bmain_any b1.mux b1.ring hm
        cases hn : nextOf skip p.s.b p.s.maps (b', o') with
        | fail => rw [hn] at ho; cases ho
        | panic => rw [hn] at ho; cases ho
        | ok y =>
          rw [hn] at ho
          cases ho
          exact ⟨a6, a5⟩
    have hgo : (∀ m, nibbles u m = nibbles p.s m) → (with2 u (p.s.result ++ p.batch) (p.s.lent - 0)).chores < (p.view 0).chores →
        During L inp R ⟨⟨u, p.batch, p.least, p.force, p.eof⟩, .output, pend, room - o.length, out ++ o⟩ ∧
        Conf.Down ⟨⟨u, p.batch, p.least, p.force, p.eof⟩, .output, pend, room - o.length, out ++ o⟩ ⟨p, .output, pend, room, out⟩ := by
      intro hn hlt
      refine ⟨⟨by simp only [Phase.count, hview]; exact e2, hside, Nat.zero_le _, hroom, b7, fun _ h0 => ?_⟩, Or.inr ⟨hn _, ?_⟩⟩
      · simp only [f2] at h0
        rcases b10 (by simp) h0 with h1 | ⟨ms, h1⟩
        · left
          simp only [hmux.1, hmux.2]
          exact h1
        · cases h1
      · have hfp : (St.mk u p.batch p.least p.force p.eof).fpart = p.fpart := rfl
        simp only [Conf.todo, St.todo, hview, Phase.left, hfp, hf, Bool.false_eq_true, if_false]
        split <;> omega
    cases a with
    | go =>
      obtain ⟨k1, k2⟩ := e3 rfl
      rcases k2 with k2 | k2
      · obtain ⟨k3, k4⟩ := hgo k1 k2
        exact Or.inl ⟨_, htick, k3, k4⟩
      · exact absurd k2.2.1 hnf
    | yield =>
      obtain ⟨k1, k2⟩ := e4 rfl
      rcases k2 with k2 | k2
      · obtain ⟨k3, k4⟩ := hgo k1 k2
        exact Or.inl ⟨_, htick, k3, k4⟩
      · exact absurd k2.2.1 hnf
    | ret r =>
      right
      refine ⟨_, r, htick, by simp only [hview]; exact e2, hside, hroom, b7, ?_⟩
      rintro rfl
      have := e5 rfl
      simp only
      omega

/-- A step of the main thread on any bytes. -/
theorem tick_any {c : Conf} (hb : During L inp R c) : TicksAny dw skip L inp R c := by
  cases hph : c.ph with
  | input => exact input_tick_any hph hb
  | output =>
    cases hf : fetches c.p.s with
    | true => exact fetch_tick_any hph hf hb
    | false => exact output_tick_any hph hf hb
  | giving ms need =>
    cases ms with
    | nil => exact given_tick_any hph hb
    | cons m ms => exact giving_tick_any hph hb

/-! ## Calls -/

/-- Where both threads wait for ever. -/
structure Starved (c : Conf) : Prop where
  /-- The end marker of the streams has been seen, -/
  ended : c.p.s.b.mux.eof = .done
  /-- every byte of the command stream has been handed to the worker, -/
  handed : c.p.s.b.mux.unread false = []
  /-- no buffer of it is on its way or in use, -/
  none : c.p.s.lent = 0
  /-- the worker has read them all -/
  read : c.p.s.b.rcv.cmdRx.buf = []
  /-- and wants more, -/
  wants : c.p.s.b.rcv.cmdRx.dec.numPushAvail ≠ 0
  /-- since it has not come to the end of the commands. -/
  open_ : c.p.s.b.rcv.core.at_ ≠ .stop

theorem step_during {c c' : Conf} (hb : During L inp R c) (hs : Step dw skip c c') : During L inp R c' ∧ c'.Down c := by
  cases hs with
  | main e =>
    rcases tick_any (dw := dw) (skip := skip) hb with h | h | h | ⟨c1, h, h2, h3⟩ | ⟨c1, r, h, -⟩
    · rw [e] at h; cases h
    · rw [e] at h; cases h
    · rw [e] at h; cases h.1
    · rw [e] at h
      simp only [Codec.Res.ok.injEq, Option.some.injEq, Prod.mk.injEq, and_true] at h
      subst h
      exact ⟨h2, h3⟩
    · rw [e] at h; cases h
  | worker e =>
    obtain ⟨b1, b3, b4, b6, b7, b10⟩ := hb
    rcases pwork_any b1 b3 with h | h | ⟨h, -⟩ | ⟨q, h, h1, h2, ⟨a1, a2, a3, a4, a5, a6⟩, h4⟩
    · rw [e] at h; cases h
    · rw [e] at h; cases h
    · rw [e] at h; cases h
    · rw [e] at h
      simp only [Codec.Res.ok.injEq, Option.some.injEq] at h
      subst h
      refine ⟨⟨h1, h2, by simp only [a3]; exact b4, b6, b7, by simp only [a1, a3]; exact b10⟩, ?_⟩
      have hfe : ∀ {q : St}, q.s.b.rcv.at_ = c.p.s.b.rcv.at_ → q.s.b.rcv.queue = c.p.s.b.rcv.queue → q.s.sawEnd = c.p.s.sawEnd →
          fetches q.s = fetches c.p.s := by
        intro q h1 h2 h3
        unfold fetches; rw [h1, h2, h3]
      rcases h4 c.pend.length with h | ⟨h, h'⟩
      · exact Or.inl h
      · refine Or.inr ⟨h, ?_⟩
        simp only [Conf.todo, hfe a4 a5 a6]
        omega

theorem steps_during {c c' : Conf} (hb : During L inp R c) (hs : Steps dw skip c c') : During L inp R c' := by
  induction hs with
  | refl => exact hb
  | tail _ e ih => exact (step_during ih e).1

theorem during_starved {c : Conf} (hb : During L inp R c) (h1 : c.tick dw skip = .ok none) (h2 : c.p.work = .ok none) : Starved c := by
  rcases tick_any (dw := dw) (skip := skip) hb with h | h | ⟨h, k1, k2, k3, k4, k5⟩ | ⟨c1, h, -⟩ | ⟨c1, r, h, -⟩
  · rw [h1] at h; cases h
  · rw [h1] at h; cases h
  · rcases pwork_any hb.live hb.side with g | g | ⟨g, g1⟩ | ⟨q, g, -⟩
    · rw [h2] at g; cases g
    · rw [h2] at g; cases g
    · have hq : c.p.s.b.rcv.queue = [] := by
        unfold fetches at k2
        simp only [Bool.and_eq_true, List.isEmpty_iff] at k2
        exact k2.1.2
      rcases g1 with g1 | g1 | g1 | g1 | ⟨g1, g2, g3, g4⟩
      · rw [k5] at g1; cases g1
      · exact absurd k3 g1
      · exact absurd k4 g1
      · exact absurd hq g1
      · rw [k1] at g1
        simp only [Phase.count] at g1
        have h0 : c.p.s.lent = 0 := by omega
        rcases hb.fed (by rw [k1]; simp) h0 with ⟨u1, u2⟩ | ⟨ms, u⟩
        · exact ⟨u2, u1, h0, g2, g3, g4⟩
        · rw [k1] at u; cases u
    · rw [h2] at g; cases g
  · rw [h1] at h; cases h
  · rw [h1] at h; cases h

theorem during_ends {c : Conf} (hb : During L inp R c) : ¬ ∃ f : Nat → Conf, f 0 = c ∧ ∀ n, Step dw skip (f n) (f (n + 1)) := by
  rintro ⟨f, rfl, hf⟩
  have hd : ∀ n, During L inp R (f n) := by
    intro n
    induction n with
    | zero => exact hb
    | succ n ih => exact (step_during ih (hf n)).1
  have key : ∀ (N M : Nat) (n : Nat), nibbles (f n).p.s (f n).pend.length ≤ N →
      (nibbles (f n).p.s (f n).pend.length = N → (f n).todo ≤ M) → False := by
    intro N
    induction N using Nat.strongRecOn with
    | _ N ihN =>
      intro M
      induction M with
      | zero =>
        intro n h1 h2
        rcases (step_during (hd n) (hf n)).2 with h | ⟨h, h'⟩
        · exact ihN _ (Nat.lt_of_lt_of_le h h1) _ (n + 1) (Nat.le_refl _) fun _ => Nat.le_refl _
        · rcases Nat.lt_or_eq_of_le h1 with h3 | h3
          · exact ihN _ (by omega) _ (n + 1) (Nat.le_refl _) fun _ => Nat.le_refl _
          · have := h2 h3
            omega
      | succ M ihM =>
        intro n h1 h2
        rcases (step_during (hd n) (hf n)).2 with h | ⟨h, h'⟩
        · exact ihN _ (Nat.lt_of_lt_of_le h h1) _ (n + 1) (Nat.le_refl _) fun _ => Nat.le_refl _
        · rcases Nat.lt_or_eq_of_le h1 with h3 | h3
          · exact ihN _ (by omega) _ (n + 1) (Nat.le_refl _) fun _ => Nat.le_refl _
          · have := h2 h3
            exact ihM (n + 1) (by omega) fun _ => by omega
  exact key _ _ 0 (Nat.le_refl _) fun _ => Nat.le_refl _

theorem during_returns {c c' : Conf} {r : Ret} (he : Ends dw skip c c' r) (hb : During L inp R c) : Returned L inp R c' r := by
  induction he with
  | last e =>
    rcases tick_any (dw := dw) (skip := skip) hb with h | h | h | ⟨c1, h, -⟩ | ⟨c1, r, h, h2⟩
    · rw [e] at h; cases h
    · rw [e] at h; cases h
    · rw [e] at h; cases h.1
    · rw [e] at h; cases h
    · rw [e] at h
      simp only [Codec.Res.ok.injEq, Option.some.injEq, Prod.mk.injEq] at h
      obtain ⟨rfl, rfl⟩ := h
      exact h2
  | step st _ ih => exact ih (step_during hb st).1

/-- What holds of a decompressor between calls. -/
def PLive (d : Dec) : Prop :=
  match d.stage with
  | .header got => got.length < 16
  | .body p => ∃ w, 10 ≤ w ∧ w < 25 ∧ Live (2 ^ w) (p.view 0) ∧ Side p

/-- How a call begins. -/
theorem begin_any {d : Dec} (hd : PLive d) (inp : List UInt8) (room : Nat) :
    d.begin inp room = .fail ∨
    (∃ r, d.begin inp room = .ok (.inl r) ∧ PLive r.dec ∧ r.used = inp.length ∧ r.out = [] ∧ r.ret = .needsInput) ∨
    ∃ c k w, d.begin inp room = .ok (.inr (c, k)) ∧ 10 ≤ w ∧ w < 25 ∧ During (2 ^ w) (inp.drop k) room c ∧ k ≤ inp.length ∧ c.pend = inp.drop k := by
  obtain ⟨skip, stage⟩ := d
  unfold Dec.begin
  cases stage with
  | body p =>
    obtain ⟨w, h1, h2, hl, hs⟩ := hd
    exact Or.inr (Or.inr ⟨_, 0, w, rfl, h1, h2, ⟨hl, hs, Nat.zero_le _, by simp, ⟨0, Nat.zero_le _, rfl⟩, by simp⟩, Nat.zero_le _, rfl⟩)
  | header got =>
    have hgot : got.length < 16 := hd
    simp only
    unfold Frame.headerDecode
    simp only
    by_cases hp : inp.length ≥ 16 - got.length
    · rw [if_pos hp]
      cases hh : Frame.parseHeader (got ++ inp.take (16 - got.length)) with
      | none => exact Or.inl rfl
      | some w =>
        simp only
        have hlen : (got ++ inp.take (16 - got.length)).length = 16 := by
          rw [List.length_append, List.length_take]; omega
        have hg := (Frame.parseHeader_iff _ hlen w).mp hh
        have h1 : 10 ≤ w := hg.2.2.2.1
        have h2 : w < 25 := Nat.lt_succ_of_le hg.2.2.2.2
        have hl : Live (2 ^ w) ((St.init skip (got ++ inp.take (16 - got.length)) w).view 0) := by
          rw [view_init]; exact init_live skip _ w
        have hs := side_init skip (got ++ inp.take (16 - got.length)) w
        by_cases hlt : 16 - got.length < inp.length
        · rw [if_pos hlt]
          exact Or.inr (Or.inr ⟨_, _, w, rfl, h1, h2, ⟨hl, hs, Nat.zero_le _, by simp, ⟨0, Nat.zero_le _, rfl⟩, by simp⟩, by omega, rfl⟩)
        · rw [if_neg hlt]
          exact Or.inr (Or.inl ⟨_, rfl, ⟨w, h1, h2, hl, hs⟩, by simp only; omega, rfl, rfl⟩)
    · rw [if_neg hp]
      refine Or.inr (Or.inl ⟨_, rfl, ?_, rfl, rfl, rfl⟩)
      show (got ++ inp).length < 16
      rw [List.length_append]; omega

theorem returns_live {d : Dec} (hd : PLive d) {inp : List UInt8} {room : Nat} {r : Reply} (e : d.Returns dw inp room r) : PLive r.dec := by
  unfold Dec.Returns at e
  rcases begin_any hd inp room with h | ⟨r', h, h2, -⟩ | ⟨c, k, w, h, h1, h2, hb, -⟩
  · rw [h] at e; exact e.elim
  · rw [h] at e; subst e; exact h2
  · rw [h] at e
    obtain ⟨c', v, e1, rfl⟩ := e
    obtain ⟨r1, r2, -⟩ := during_returns e1 hb
    exact ⟨w, h1, h2, r1, r2⟩

theorem history_live {d d' : Dec} {rest rest' out : List UInt8} {cs : List (Nat × Nat)} {rets : List Ret}
    (hh : History dw d rest cs d' rest' out rets) (hd : PLive d) : PLive d' := by
  induction hh with
  | nil => exact hd
  | cons call _ ih => exact ih (returns_live hd call)

theorem new_plive (skip : Bool) : PLive (.new skip) := by
  show (0 : Nat) < 16
  decide

end Divans.Par
