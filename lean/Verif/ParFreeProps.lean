import Verif.ParFree
import Verif.ParIoProps
import Verif.ParEndProps

/-!
# Freeing a decompressor with a worker thread: C88
-/

namespace Divans.Par
open Divans.Call (Ret inPm isPm Live nibbles)

variable {dw : Nat → Nat → Nat → List UInt8} {skip : Bool} {L : Nat}

/-! ## Steps of the worker -/

theorem of_on {x : Codec.Res (Option St)} {q : St} (h : Fate.of x = .on q) : x = .ok (some q) := by
  rcases x with (_ | _) | _ | _ <;> simp_all [Fate.of]

theorem told_force {p : St} {e : Bool} (hf : p.force = some e) :
    p.told = if 256 - p.s.result.length < p.batch.length then
      if e = false ∧ p.s.mem = [] then .stuck else .ended
    else .of (p.flush e) := by
  unfold St.told; simp only [hf]

theorem told_end {p : St} (hf : p.force = none) (he : p.eof = true) : p.told = .ended := by
  unfold St.told; simp only [hf, he, if_true]

theorem told_ready {p : St} {g : Codec.Got} (hf : p.force = none) (he : p.eof = false) (hh : p.s.hold = .ready g) :
    p.told = .of (p.pass g) := by
  unfold St.told; simp only [hf, he, hh, Bool.false_eq_true, if_false]

theorem told_rest {p : St} (hf : p.force = none) (he : p.eof = false) (hr : isReady p.s.hold = false) :
    p.told = if p.s.hold = .none ∧ p.s.b.rcv.core.at_ = .stop then .on (p.enter true)
        else if wants p.s then
          if p.s.b.rcv.cmdRx.buf = [] then .stuck else .of (.ok p.feed)
        else if p.s.hold = .none ∧ inPm p.s.b.rcv.core.at_ ∧ p.s.map = false then .stuck
        else .of p.plain := by
  unfold St.told St.plain
  simp only [hf, he, Bool.false_eq_true, if_false]
  cases hh : p.s.hold with
  | ready g => rw [hh] at hr; cases hr
  | decoded g => rfl
  | none => rfl

/-- After the broadcast the worker makes no step it would not make without it. -/
theorem told_on {p q : St} (h : p.told = .on q) : p.work = .ok (some q) := by
  rcases hfo : p.force with _ | e
  · cases he : p.eof with
    | true => rw [told_end hfo he] at h; cases h
    | false =>
      cases hr : isReady p.s.hold with
      | true =>
        rcases hh : p.s.hold with _ | g | g
        · rw [hh] at hr; cases hr
        · rw [hh] at hr; cases hr
        · rw [told_ready hfo he hh] at h
          rw [work_ready hfo he hh]
          exact of_on h
      | false =>
        rw [told_rest hfo he hr] at h
        rw [work_rest hfo he hr]
        by_cases h1 : p.s.hold = .none ∧ p.s.b.rcv.core.at_ = .stop
        · rw [if_pos h1] at h ⊢
          cases h; rfl
        rw [if_neg h1] at h ⊢
        by_cases h2 : wants p.s = true
        · rw [if_pos h2] at h ⊢
          by_cases h3 : p.s.b.rcv.cmdRx.buf = []
          · rw [if_pos h3] at h; cases h
          · rw [if_neg h3] at h
            exact of_on h
        · rw [if_neg h2] at h ⊢
          by_cases h3 : p.s.hold = .none ∧ inPm p.s.b.rcv.core.at_ ∧ p.s.map = false
          · rw [if_pos h3] at h; cases h
          · rw [if_neg h3] at h
            exact of_on h
  · rw [told_force hfo] at h
    rw [work_force hfo]
    by_cases h1 : 256 - p.s.result.length < p.batch.length
    · rw [if_pos h1] at h
      split at h <;> cases h
    · rw [if_neg h1] at h
      exact of_on h

theorem frees_unique {p : St} {o o' : Freed} (h : p.Frees o) (h' : p.Frees o') : o' = o := by
  induction h with
  | ended e => cases h' with
    | ended _ => rfl
    | stuck e' => rw [e] at e'; cases e'
    | panicked e' => rw [e] at e'; cases e'
    | on e' _ => rw [e] at e'; cases e'
  | stuck e => cases h' with
    | ended e' => rw [e] at e'; cases e'
    | stuck _ => rfl
    | panicked e' => rw [e] at e'; cases e'
    | on e' _ => rw [e] at e'; cases e'
  | panicked e => cases h' with
    | ended e' => rw [e] at e'; cases e'
    | stuck e' => rw [e] at e'; cases e'
    | panicked _ => rfl
    | on e' _ => rw [e] at e'; cases e'
  | on e _ ih => cases h' with
    | ended e' => rw [e] at e'; cases e'
    | stuck e' => rw [e] at e'; cases e'
    | panicked e' => rw [e] at e'; cases e'
    | on e' h'' =>
      rw [e] at e'
      cases e'
      exact ih h''

theorem work_live {p q : St} {n : Nat} (hl : Live L (p.view n)) (hs : Side p) (e : p.work = .ok (some q)) :
    Live L (q.view n) ∧ Side q ∧ q.Down p := by
  rcases pwork_any hl hs with h | h | ⟨h, -⟩ | ⟨q', h, h1, h2, -, h4⟩
  · rw [e] at h; cases h
  · rw [e] at h; cases h
  · rw [e] at h; cases h
  · rw [e] at h
    simp only [Codec.Res.ok.injEq, Option.some.injEq] at h
    subst h
    exact ⟨h1, h2, h4⟩

theorem works_live {p q : St} {n : Nat} (hw : Works p q) (hl : Live L (p.view n)) (hs : Side p) : Live L (q.view n) ∧ Side q := by
  induction hw with
  | refl => exact ⟨hl, hs⟩
  | tail _ e ih => exact ⟨(work_live ih.1 ih.2 e).1, (work_live ih.1 ih.2 e).2.1⟩

/-- The worker comes to an end, panics or gets stuck. -/
theorem frees_exists {n : Nat} : ∀ (N M : Nat) (p : St), Live L (p.view n) → Side p → nibbles p.s 0 ≤ N →
    (nibbles p.s 0 = N → p.todo ≤ M) → ∃ o, p.Frees o := by
  intro N
  induction N using Nat.strongRecOn with
  | _ N ihN =>
    intro M
    induction M with
    | zero =>
      intro p hl hs h1 h2
      cases ht : p.told with
      | ended => exact ⟨_, .ended ht⟩
      | stuck => exact ⟨_, .stuck ht⟩
      | panicked => exact ⟨_, .panicked ht⟩
      | on q =>
        obtain ⟨g1, g2, g3⟩ := work_live hl hs (told_on ht)
        obtain ⟨o, ho⟩ : ∃ o, q.Frees o := by
          rcases g3 0 with h | ⟨h, h'⟩
          · exact ihN _ (Nat.lt_of_lt_of_le h h1) _ q g1 g2 (Nat.le_refl _) fun _ => Nat.le_refl _
          · rcases Nat.lt_or_eq_of_le h1 with h3 | h3
            · exact ihN _ (by omega) _ q g1 g2 (Nat.le_refl _) fun _ => Nat.le_refl _
            · have := h2 h3
              omega
        exact ⟨o, .on ht ho⟩
    | succ M ihM =>
      intro p hl hs h1 h2
      cases ht : p.told with
      | ended => exact ⟨_, .ended ht⟩
      | stuck => exact ⟨_, .stuck ht⟩
      | panicked => exact ⟨_, .panicked ht⟩
      | on q =>
        obtain ⟨g1, g2, g3⟩ := work_live hl hs (told_on ht)
        obtain ⟨o, ho⟩ : ∃ o, q.Frees o := by
          rcases g3 0 with h | ⟨h, h'⟩
          · exact ihN _ (Nat.lt_of_lt_of_le h h1) _ q g1 g2 (Nat.le_refl _) fun _ => Nat.le_refl _
          · rcases Nat.lt_or_eq_of_le h1 with h3 | h3
            · exact ihN _ (by omega) _ q g1 g2 (Nat.le_refl _) fun _ => Nat.le_refl _
            · have := h2 h3
              exact ihM q g1 g2 (by omega) fun _ => by omega
        exact ⟨o, .on ht ho⟩

/-! ## What always holds of the worker's buffer and the end -/

/-- The main side has seen the end if it has finished; buffers have memory; a worker without a buffer wants bytes. -/
structure Tidy (p : St) : Prop where
  fin : p.s.b.rcv.at_ = .finished → p.s.sawEnd = true
  data : ∀ d ∈ p.s.data, d.mem ≠ []
  held : p.s.mem = [] → wants p.s = true ∧ p.s.b.rcv.core.at_ ≠ .stop

theorem plain_mem {s t : Call.St} {z : Option Call.Pause} (e : s.work = .ok (t, z)) (hr : isReady s.hold = false)
    (hw : wants s = false) : t.mem = s.mem ∧ t.data = s.data := by
  unfold Call.St.work at e
  rcases hh : s.hold with _ | g | g
  · simp only [hh] at e
    by_cases h1 : s.b.rcv.core.at_ = .stop
    · rw [if_pos h1] at e; cases e; exact ⟨rfl, rfl⟩
    rw [if_neg h1] at e
    by_cases h2 : (inPm s.b.rcv.core.at_ && !s.map) = true
    · rw [if_pos h2] at e
      by_cases h3 : s.maps = 0
      · rw [if_pos h3] at e; cases e; exact ⟨rfl, rfl⟩
      · rw [if_neg h3] at e; cases e; exact ⟨rfl, rfl⟩
    rw [if_neg h2] at e
    have h0 : s.b.rcv.cmdRx.dec.numPushAvail = 0 := by
      unfold wants at hw
      simp only [hh] at hw
      simp only [Bool.not_eq_true] at h2
      simpa [h2] using hw
    have hf : s.fill = (s, true) := by unfold Call.St.fill; rw [if_pos h0]
    rw [hf] at e
    simp only [if_true] at e
    cases ha : Codec.coreAsk s.b.rcv.core with
    | none => rw [ha] at e; cases e
    | some a =>
      rw [ha] at e
      simp only at e
      cases ht : Codec.coreTake s.b.rcv.core (Call.take s.b.rcv.cmdRx (.plain a.key (some a.speed))).2 with
      | fail => rw [ht] at e; cases e
      | panic => rw [ht] at e; cases e
      | ok y => rw [ht] at e; cases e; exact ⟨rfl, rfl⟩
  · simp only [hh] at e
    have h0 : s.b.rcv.cmdRx.dec.numPushAvail = 0 := by
      unfold wants at hw
      simp only [hh] at hw
      simpa using hw
    have hf : s.fill = (s, true) := by unfold Call.St.fill; rw [if_pos h0]
    rw [hf] at e
    simp only [if_true] at e
    cases e
    exact ⟨rfl, rfl⟩
  · rw [hh] at hr; cases hr

theorem wants_ready {s : Call.St} {g : Codec.Got} (h : s.hold = .ready g) : wants s = false := by
  unfold wants
  rw [h]
  simp

/-- A step of the worker, with the buffer it has then. -/
theorem work_tidy {p q : St} {n : Nat} (hx : Call.Ext (p.view n)) (ht : Tidy p) (e : p.work = .ok (some q)) :
    Tidy q ∧ (∀ b, p.force = none → q.force = some b → (q.s.mem = [] → p.s.mem ≠ [] ∧ p.s.b.rcv.cmdRx.buf = [] ∧ wants p.s = true ∧ b = false)) := by
  obtain ⟨t1, t2, t3⟩ := ht
  rcases hfo : p.force with _ | b
  · cases he : p.eof with
    | true => rw [work_end hfo he] at e; cases e
    | false =>
      cases hr : isReady p.s.hold with
      | true =>
        rcases hh : p.s.hold with _ | g | g
        · rw [hh] at hr; cases hr
        · rw [hh] at hr; cases hr
        · rw [work_ready hfo he hh] at e
          have hm : p.s.mem ≠ [] := fun h => by
            have := (t3 h).1
            rw [wants_ready hh] at this; cases this
          unfold St.pass at e
          by_cases h1 : 256 ≤ p.batch.length
          · rw [if_pos h1] at e; cases e
          rw [if_neg h1] at e
          simp only [Codec.Res.ok.injEq, Option.some.injEq] at e
          have hq : q.s = { p.s with hold := .none } := by
            rw [← e]; split <;> rfl
          refine ⟨⟨by rw [hq]; exact t1, by rw [hq]; exact t2, fun h => ?_⟩, fun _ _ _ h => ?_⟩
          · rw [hq] at h; exact absurd h hm
          · rw [hq] at h; exact absurd h hm
      | false =>
        rw [work_rest hfo he hr] at e
        by_cases h1 : p.s.hold = .none ∧ p.s.b.rcv.core.at_ = .stop
        · rw [if_pos h1] at e
          cases e
          have hm : p.s.mem ≠ [] := fun h => (t3 h).2 h1.2
          exact ⟨⟨t1, t2, t3⟩, fun _ _ _ h => absurd h hm⟩
        rw [if_neg h1] at e
        by_cases h2 : wants p.s = true
        · rw [if_pos h2] at e
          simp only [Codec.Res.ok.injEq] at e
          unfold St.feed at e
          by_cases h3 : p.s.b.rcv.cmdRx.buf ≠ []
          · rw [if_pos h3] at e
            simp only [Option.some.injEq] at e
            subst e
            have hm : p.s.mem ≠ [] := hx.slice h3
            exact ⟨⟨t1, t2, fun h => absurd h hm⟩, fun _ _ hb _ => by rw [show p.force = none from hfo] at hb; cases hb⟩
          rw [if_neg h3] at e
          by_cases h4 : p.s.mem ≠ []
          · rw [if_pos h4] at e
            by_cases h5 : 2 ≤ p.s.back.length
            · rw [if_pos h5] at e; cases e
            rw [if_neg h5] at e
            simp only [Option.some.injEq] at e
            subst e
            refine ⟨⟨t1, t2, fun _ => ⟨h2, fun hst => ?_⟩⟩, fun b _ hb _ => ⟨h4, not_not.1 h3, h2, ?_⟩⟩
            · exact h1 ⟨hx.stop hst, hst⟩
            · simp only [St.enter, Option.some.injEq] at hb
              exact hb.symm
          rw [if_neg h4] at e
          cases hd : p.s.data with
          | nil => rw [hd] at e; cases e
          | cons d ds =>
            rw [hd] at e
            simp only [Option.some.injEq] at e
            subst e
            have hdm : d.mem ≠ [] := t2 d (by rw [hd]; exact List.mem_cons_self)
            refine ⟨⟨t1, fun d' hd' => t2 d' (by rw [hd]; exact List.mem_cons_of_mem _ hd'), fun h => absurd h hdm⟩,
              fun _ _ _ h => absurd h hdm⟩
        · rw [if_neg h2] at e
          have hw : wants p.s = false := by simpa using h2
          have hm : p.s.mem ≠ [] := fun h => h2 (t3 h).1
          unfold St.plain at e
          cases hp : p.s.work with
          | fail => rw [hp] at e; cases e
          | panic => rw [hp] at e; cases e
          | ok x =>
            obtain ⟨t, z⟩ := x
            rw [hp] at e
            simp only [Codec.Res.bind] at e
            cases z with
            | some z => cases e
            | none =>
              simp only [Codec.Res.ok.injEq, Option.some.injEq] at e
              subst e
              obtain ⟨f1, -, f3, -⟩ := work_frame hp hr
              obtain ⟨g1, g2⟩ := plain_mem hp hr hw
              refine ⟨⟨by simp only [f1, f3]; exact t1, by simp only [g2]; exact t2, fun h => ?_⟩, fun _ _ _ h => ?_⟩
              · simp only [g1] at h; exact absurd h hm
              · simp only [g1] at h; exact absurd h hm
  · rw [work_force hfo] at e
    unfold St.flush at e
    by_cases h1 : 256 - p.s.result.length < p.batch.length
    · rw [if_pos h1] at e; cases e
    rw [if_neg h1] at e
    by_cases h2 : (p.batch.any Call.isPm) ∧ 2 ≤ (p.s.result.filter Call.isPm).length
    · rw [if_pos h2] at e; cases e
    rw [if_neg h2] at e
    simp only [Codec.Res.ok.injEq, Option.some.injEq] at e
    subst e
    exact ⟨⟨t1, t2, t3⟩, fun _ h => by cases h⟩

/-! ## Steps of the main thread -/

/-- What the main thread leaves alone. -/
structure Far (s t : Call.St) : Prop where
  mem : t.mem = s.mem
  hold : t.hold = s.hold
  map : t.map = s.map
  rx : t.b.rcv.cmdRx = s.b.rcv.cmdRx
  core : t.b.rcv.core = s.b.rcv.core

theorem Far.wants {s t : Call.St} (h : Far s t) : Par.wants t = Par.wants s := by
  unfold Par.wants
  rw [h.rx, h.hold, h.core, h.map]

theorem push_far {s t : Call.St} (e : s.push = some t) : Far s t ∧ t.b.rcv = s.b.rcv ∧ t.sawEnd = s.sawEnd ∧
    ∀ d ∈ t.data, d ∈ s.data ∨ d.mem ≠ [] := by
  unfold Call.St.push at e
  by_cases h : s.data.length < 2 ∧ s.b.mux.unread false ≠ []
  · rw [if_pos h] at e
    cases e
    refine ⟨⟨rfl, rfl, rfl, rfl, rfl⟩, rfl, rfl, fun d hd => ?_⟩
    simp only [List.mem_append, List.mem_singleton] at hd
    rcases hd with hd | rfl
    · exact .inl hd
    · right
      intro h0
      refine h.2 ?_
      have h1 : (s.b.mux.buf false).mem = [] := h0
      show (s.b.mux.buf false).unread = []
      unfold Mux.Buf.unread
      rw [h1]; simp
  · rw [if_neg h] at e; cases e

theorem main_finished {r r' : Pipe.Rcv} {room : Nat} {o : List UInt8} (e : r.main dw room = .ok (r', o)) (h : r'.at_ = .finished) :
    r.at_ = .finished ∨ (r.at_ = .idle ∧ r.queue = []) := by
  unfold Pipe.Rcv.main at e
  cases hat : r.at_ with
  | finished => exact .inl rfl
  | idle =>
    right
    refine ⟨rfl, ?_⟩
    cases hq : r.queue with
    | nil => rfl
    | cons g q =>
      exfalso
      rw [hat, hq] at e
      simp only at e
      cases hn : Pipe.Rcv.next dw { r with queue := q, at_ := .idle } g with
      | fail => rw [hn] at e; cases e
      | panic => rw [hn] at e; cases e
      | ok y =>
        rw [hn] at e
        cases e
        cases g with
        | copy d n => cases hn; cases h
        | dict z i t => cases hn; cases h
        | lit n en =>
          simp only [Pipe.Rcv.next] at hn
          cases h8 : Recode.last8 r.ring with
          | none => rw [h8] at hn; cases hn
          | some b => rw [h8] at hn; cases hn; cases h
        | bswitch k t st => cases k <;> cases hn <;> cases h
        | pm pm =>
          simp only [Pipe.Rcv.next] at hn
          cases ho : r.lbk.obsPm pm with
          | fail => rw [ho] at hn; cases hn
          | panic => rw [ho] at hn; cases hn
          | ok l => rw [ho] at hn; cases hn; cases h
  | content c =>
    exfalso
    rw [hat] at e
    simp only at e
    by_cases hl : c.left = 0
    · rw [if_pos hl] at e; cases e; cases h
    rw [if_neg hl] at e
    cases ha : c.ask r.lbk with
    | none => rw [ha] at e; cases e
    | some ch =>
      rw [ha] at e
      simp only at e
      rcases hs : r.litRx.step ch with ⟨rx, _ | n⟩
      · rw [hs] at e; cases e; cases h
      · rw [hs] at e; cases e; cases h
  | filling c =>
    exfalso
    rw [hat] at e
    simp only at e
    rcases hc : Recode.encodeCmd r.ring c room with ⟨ring, o', _ | _ | _⟩ | _ | _
    all_goals rw [hc] at e
    all_goals simp only at e
    all_goals cases e
    all_goals (first | cases h | (rw [show _ = _ from hat] at h; cases h))

theorem bmain_finished {b b' : File.Body} {room : Nat} {o : List UInt8} (e : b.main dw room = .ok (b', o)) :
    (b'.rcv.at_ = .finished → b.rcv.at_ = .finished ∨ (b.rcv.at_ = .idle ∧ b.rcv.queue = [])) ∧
    b'.rcv.cmdRx = b.rcv.cmdRx ∧ b'.rcv.core = b.rcv.core := by
  unfold File.Body.main at e
  simp only at e
  cases hm : Pipe.Rcv.main dw { b.rcv with litRx := { b.rcv.litRx with buf := b.mux.unread true } } room with
  | fail => rw [hm] at e; cases e
  | panic => rw [hm] at e; cases e
  | ok z =>
    rw [hm] at e
    cases e
    obtain ⟨h1, h2, -⟩ := Call.main_frame hm
    have hm' := main_finished (r' := z.1) (o := z.2) hm
    exact ⟨fun h => hm' h, h1, h2⟩

/-- A step of the main thread. -/
theorem tick_tidy {c c' : Conf} {r : Option Ret} (ht : Tidy c.p) (e : c.tick dw skip = .ok (some (c', r))) :
    Tidy c'.p ∧ (c.p.s.sawEnd = true → c'.p.s.sawEnd = true) ∧ (r = some .success → c'.p.s.sawEnd = true) := by
  obtain ⟨q, ph, pend, room, out⟩ := c
  simp only at ht
  obtain ⟨t1, t2, t3⟩ := ht
  unfold Conf.tick at e
  cases ph with
  | input =>
    simp only at e
    cases hi : q.s.input skip pend with
    | none => rw [hi] at e; cases e
    | some y =>
      obtain ⟨t, rest, go⟩ := y
      rw [hi] at e
      simp only [Codec.Res.ok.injEq, Option.some.injEq, Prod.mk.injEq] at e
      obtain ⟨e1, e2⟩ := e
      obtain ⟨-, f2, f3⟩ := input_frame hi
      obtain ⟨g1, g2⟩ : Far q.s t ∧ ∀ d ∈ t.data, d ∈ q.s.data ∨ d.mem ≠ [] := by
        unfold Call.St.input at hi
        cases hb : q.s.b.input skip pend with
        | none => rw [hb] at hi; cases hi
        | some x =>
          obtain ⟨b1, rest1⟩ := x
          have hr := input_rcv hb
          have h0 : Far q.s { q.s with b := b1 } := ⟨rfl, rfl, rfl, by rw [hr], by rw [hr]⟩
          rw [hb] at hi
          simp only at hi
          by_cases hu : b1.mux.unread false ≠ []
          · rw [if_pos hu] at hi
            cases hp : ({ q.s with b := b1 } : Call.St).push with
            | none =>
              rw [hp] at hi
              cases hi
              exact ⟨h0, fun d hd => .inl hd⟩
            | some u =>
              rw [hp] at hi
              cases hi
              obtain ⟨p1, -, -, p4⟩ := push_far hp
              exact ⟨⟨p1.mem, p1.hold, p1.map, p1.rx.trans h0.rx, p1.core.trans h0.core⟩, p4⟩
          · rw [if_neg hu] at hi
            cases hi
            exact ⟨h0, fun d hd => .inl hd⟩
      subst e1
      refine ⟨⟨by simp only [f2, f3]; exact t1, fun d hd => (g2 d hd).elim (t2 d) id, fun h => ?_⟩, by simp only [f3]; exact id, fun hr => ?_⟩
      · simp only [g1.mem] at h
        simp only [g1.wants, g1.core]
        exact t3 h
      · rw [← e2] at hr
        split at hr <;> cases hr
  | giving ms need =>
    cases ms with
    | nil =>
      simp only [Codec.Res.ok.injEq, Option.some.injEq, Prod.mk.injEq] at e
      obtain ⟨rfl, e2⟩ := e
      refine ⟨⟨t1, t2, t3⟩, id, fun hr => ?_⟩
      rw [← e2] at hr
      split at hr <;> cases hr
    | cons m ms =>
      simp only at e
      by_cases hl : q.s.lent = 0
      · rw [Call.St.giveBack, if_pos hl] at e; cases e
      rw [giveBack_one m q.s need hl] at e
      simp only [Codec.Res.ok.injEq, Option.some.injEq, Prod.mk.injEq] at e
      obtain ⟨rfl, rfl⟩ := e
      obtain ⟨u, hu⟩ : ∃ u : Call.St, u = { q.s with lent := q.s.lent - 1 } := ⟨_, rfl⟩
      rw [← hu]
      have h0 : Far q.s u ∧ u.b.rcv = q.s.b.rcv ∧ u.sawEnd = q.s.sawEnd ∧ u.data = q.s.data := by
        rw [hu]; exact ⟨⟨rfl, rfl, rfl, rfl, rfl⟩, rfl, rfl, rfl⟩
      obtain ⟨g1, g2, g3, g4⟩ : Far u (u.refill need).1 ∧ (u.refill need).1.b.rcv = u.b.rcv ∧ (u.refill need).1.sawEnd = u.sawEnd ∧
          ∀ d ∈ (u.refill need).1.data, d ∈ u.data ∨ d.mem ≠ [] := by
        unfold Call.St.refill
        cases hp : u.push with
        | none => exact ⟨⟨rfl, rfl, rfl, rfl, rfl⟩, rfl, rfl, fun d hd => .inl hd⟩
        | some t => exact push_far hp
      have g5 : Far q.s (recycled (u.refill need).1 m) :=
        ⟨g1.mem.trans h0.1.mem, g1.hold.trans h0.1.hold, g1.map.trans h0.1.map, g1.rx.trans h0.1.rx, g1.core.trans h0.1.core⟩
      refine ⟨⟨?_, fun d hd => ?_, fun h => ?_⟩, ?_, by simp⟩
      · show (u.refill need).1.b.rcv.at_ = _ → (u.refill need).1.sawEnd = true
        rw [g2, g3, h0.2.1, h0.2.2.1]; exact t1
      · rcases g4 d hd with h | h
        · exact t2 d (by rw [← h0.2.2.2]; exact h)
        · exact h
      · have h' : (recycled (u.refill need).1 m).mem = [] := h
        rw [g5.mem] at h'
        have := t3 h'
        show Par.wants (recycled (u.refill need).1 m) = true ∧ (recycled (u.refill need).1 m).b.rcv.core.at_ ≠ .stop
        rw [g5.wants, g5.core]
        exact this
      · show q.s.sawEnd = true → (u.refill need).1.sawEnd = true
        rw [g3, h0.2.2.1]; exact id
  | output =>
    simp only at e
    cases hf : fetches q.s with
    | true =>
      rw [hf] at e
      simp only [if_true] at e
      have hq : q.s.b.rcv.at_ = .idle ∧ q.s.sawEnd = false := by
        unfold fetches at hf
        simp only [Bool.and_eq_true, decide_eq_true_eq, Bool.not_eq_true'] at hf
        exact ⟨hf.1.1, hf.2⟩
      by_cases hw : q.s.result = [] ∧ q.s.back = [] ∧ q.eof = false
      · rw [if_pos hw] at e; cases e
      rw [if_neg hw] at e
      simp only [Codec.Res.ok.injEq, Option.some.injEq, Prod.mk.injEq] at e
      obtain ⟨rfl, rfl⟩ := e
      refine ⟨⟨fun h => ?_, t2, t3⟩, fun h => ?_, by simp⟩
      · have h' : q.s.b.rcv.at_ = .finished := h
        rw [hq.1] at h'; cases h'
      · rw [hq.2] at h; cases h
    | false =>
      rw [hf] at e
      simp only [Bool.false_eq_true, if_false] at e
      by_cases hr : returnsMap q.s = true ∧ q.s.maps = 2
      · rw [if_pos hr] at e; cases e
      rw [if_neg hr] at e
      rw [output_eq _ _ hf] at e
      cases hm : q.s.b.main dw room with
      | fail => rw [hm] at e; cases e
      | panic => rw [hm] at e; cases e
      | ok x =>
        obtain ⟨b', o⟩ := x
        rw [hm] at e
        simp only [Codec.Res.bind] at e
        obtain ⟨m1, m2, m3⟩ := bmain_finished hm
        have hfin : b'.rcv.at_ = .finished → q.s.sawEnd = true := by
          intro h
          rcases m1 h with h1 | ⟨h1, h2⟩
          · exact t1 h1
          · unfold fetches at hf
            simpa [h1, h2] using hf
        cases hn : nextOf skip q.s.b q.s.maps (b', o) with
        | fail => rw [hn] at e; cases e
        | panic => rw [hn] at e; cases e
        | ok y =>
          obtain ⟨mp, a⟩ := y
          rw [hn] at e
          simp only at e
          have hsucc : a = .ret .success → b'.rcv.at_ = .finished := by
            rintro rfl
            have key : ∀ z, nextOf.ends skip q.s.maps (b', o) = .ok (z, .ret .success) → b'.rcv.at_ = .finished := by
              intro z hz
              by_contra hne
              unfold nextOf.ends at hz
              rw [if_pos hne] at hz
              cases hz
            unfold nextOf at hn
            cases hat : q.s.b.rcv.at_ with
            | content c => rw [hat] at hn; simp only at hn; split at hn <;> cases hn
            | filling c => rw [hat] at hn; simp only at hn; split at hn <;> cases hn
            | finished => rw [hat] at hn; exact key _ hn
            | idle =>
              rw [hat] at hn
              simp only at hn
              rcases hq : q.s.b.rcv.queue with _ | ⟨g, gs⟩
              · rw [hq] at hn; exact key _ hn
              · rw [hq] at hn
                cases g <;> simp only at hn <;> first | cases hn | (split at hn <;> cases hn)
          have htidy : Tidy ⟨{ q.s with b := b', maps := mp }, q.batch, q.least, q.force, q.eof⟩ := by
            refine ⟨hfin, t2, fun h => ?_⟩
            have hfar : Far q.s { q.s with b := b', maps := mp } := ⟨rfl, rfl, rfl, m2, m3⟩
            show Par.wants { q.s with b := b', maps := mp } = true ∧ b'.rcv.core.at_ ≠ .stop
            rw [hfar.wants, m3]
            exact t3 h
          cases a with
          | go =>
            simp only [Codec.Res.ok.injEq, Option.some.injEq, Prod.mk.injEq] at e
            obtain ⟨rfl, rfl⟩ := e
            exact ⟨htidy, id, by simp⟩
          | yield =>
            simp only [Codec.Res.ok.injEq, Option.some.injEq, Prod.mk.injEq] at e
            obtain ⟨rfl, rfl⟩ := e
            exact ⟨htidy, id, by simp⟩
          | ret v =>
            simp only [Codec.Res.ok.injEq, Option.some.injEq, Prod.mk.injEq] at e
            obtain ⟨rfl, rfl⟩ := e
            refine ⟨htidy, id, fun hr => ?_⟩
            simp only [Option.some.injEq] at hr
            subst hr
            exact hfin (hsucc rfl)

/-! ## Histories -/

theorem init_tidy (h : List UInt8) (w : Nat) : Tidy (St.init skip h w) := by
  refine ⟨fun e => ?_, fun d hd => ?_, fun _ => ?_⟩
  · cases e
  · cases hd
  · exact ⟨rfl, by intro e; cases e⟩

theorem pwork_saw {p q : St} (hs : Side p) (e : p.work = .ok (some q)) (h : p.s.sawEnd = true) : False := by
  have he := hs.saw h
  rw [work_end (hs.fin he).2.2 he] at e
  cases e

theorem step_tidy {c c' : Conf} {inp : List UInt8} {R : Nat} (hb : During L inp R c) (ht : Tidy c.p) (e : Step dw skip c c') :
    Tidy c'.p ∧ (c.p.s.sawEnd = true → c'.p.s.sawEnd = true) := by
  cases e with
  | main e => exact ⟨(tick_tidy ht e).1, (tick_tidy ht e).2.1⟩
  | worker e => exact ⟨(work_tidy hb.live.ext ht e).1, fun h => (pwork_saw hb.side e h).elim⟩

theorem ends_tidy {c c' : Conf} {r : Ret} {inp : List UInt8} {R : Nat} (he : Ends dw skip c c' r) (hb : During L inp R c) (ht : Tidy c.p) :
    Tidy c'.p ∧ (c.p.s.sawEnd = true → c'.p.s.sawEnd = true) ∧ (r = .success → c'.p.s.sawEnd = true) := by
  induction he with
  | last e =>
    obtain ⟨h1, h2, h3⟩ := tick_tidy ht e
    exact ⟨h1, h2, fun h => h3 (by rw [h])⟩
  | step st _ ih =>
    obtain ⟨h1, h2⟩ := step_tidy hb ht st
    obtain ⟨g1, g2, g3⟩ := ih (step_during hb st).1 h1
    exact ⟨g1, fun h => g2 (h2 h), g3⟩

/-- What holds of a decompressor between calls. -/
def Neat (d : Dec) : Prop :=
  match d.stage with
  | .header _ => True
  | .body p => Tidy p

/-- Its main thread has seen the end of the commands. -/
def Seen (d : Dec) : Prop :=
  match d.stage with
  | .header _ => False
  | .body p => p.s.sawEnd = true

theorem begin_neat {d : Dec} (hn : Neat d) (inp : List UInt8) (room : Nat) :
    (∀ r, d.begin inp room = .ok (.inl r) → Neat r.dec ∧ (Seen d → Seen r.dec) ∧ r.ret ≠ .success) ∧
    (∀ c k, d.begin inp room = .ok (.inr (c, k)) → Tidy c.p ∧ (Seen d → c.p.s.sawEnd = true)) := by
  obtain ⟨sk, stage⟩ := d
  unfold Dec.begin
  cases stage with
  | body p =>
    refine ⟨fun r h => (by cases h), fun c k h => ?_⟩
    simp only [Codec.Res.ok.injEq, Sum.inr.injEq, Prod.mk.injEq] at h
    obtain ⟨rfl, rfl⟩ := h
    exact ⟨hn, id⟩
  | header got =>
    simp only
    cases hd : Frame.headerDecode got inp with
    | more g =>
      refine ⟨fun r h => ?_, fun c k h => (by cases h)⟩
      simp only [Codec.Res.ok.injEq, Sum.inl.injEq] at h
      subst h
      exact ⟨trivial, False.elim, by simp⟩
    | fail k => exact ⟨fun r h => (by cases h), fun c k h => (by cases h)⟩
    | ready h w used =>
      simp only
      by_cases hu : used < inp.length
      · rw [if_pos hu]
        refine ⟨fun r h => (by cases h), fun c k h => ?_⟩
        simp only [Codec.Res.ok.injEq, Sum.inr.injEq, Prod.mk.injEq] at h
        obtain ⟨rfl, rfl⟩ := h
        exact ⟨init_tidy _ _, False.elim⟩
      · rw [if_neg hu]
        refine ⟨fun r h => ?_, fun c k h => (by cases h)⟩
        simp only [Codec.Res.ok.injEq, Sum.inl.injEq] at h
        subst h
        exact ⟨init_tidy _ _, False.elim, by simp⟩

theorem returns_neat {d : Dec} (hd : PLive d) (hn : Neat d) {inp : List UInt8} {room : Nat} {r : Reply} (e : d.Returns dw inp room r) :
    Neat r.dec ∧ (Seen d → Seen r.dec) ∧ (r.ret = .success → Seen r.dec) := by
  obtain ⟨b1, b2⟩ := begin_neat hn inp room
  unfold Dec.Returns at e
  rcases begin_any hd inp room with h | ⟨r', h, -⟩ | ⟨c, k, w, h, -, -, hb, -⟩
  · rw [h] at e; exact e.elim
  · rw [h] at e
    subst e
    obtain ⟨g1, g2, g3⟩ := b1 _ h
    exact ⟨g1, g2, fun h => (g3 h).elim⟩
  · rw [h] at e
    obtain ⟨c', v, e1, rfl⟩ := e
    obtain ⟨g1, g2⟩ := b2 _ _ h
    obtain ⟨k1, k2, k3⟩ := ends_tidy e1 hb g1
    exact ⟨k1, fun h => k2 (g2 h), k3⟩

theorem history_neat {d d' : Dec} {rest rest' out : List UInt8} {cs : List (Nat × Nat)} {rets : List Ret}
    (hh : History dw d rest cs d' rest' out rets) (hd : PLive d) (hn : Neat d) :
    Neat d' ∧ (Seen d → Seen d') ∧ (.success ∈ rets → Seen d') := by
  induction hh with
  | nil => exact ⟨hn, id, by simp⟩
  | cons call _ ih =>
    obtain ⟨g1, g2, g3⟩ := returns_neat hd hn call
    obtain ⟨k1, k2, k3⟩ := ih (returns_live hd call) g1
    refine ⟨k1, fun h => k2 (g2 h), fun h => ?_⟩
    rcases List.mem_cons.1 h with h | h
    · exact k2 (g3 h.symm)
    · exact k3 h

theorem moment {bytes : List UInt8} {cs : List (Nat × Nat)} {d : Dec} {rest out : List UInt8} {rets : List Ret} {p q : St}
    (hh : History dw (.new skip) bytes cs d rest out rets) (hp : d.stage = .body p) (hw : Works p q) :
    ∃ L, Live L (q.view 0) ∧ Side q := by
  have h1 := history_live hh (new_plive skip)
  unfold PLive at h1
  rw [hp] at h1
  obtain ⟨w, -, -, h3, h4⟩ := h1
  exact ⟨_, works_live hw h3 h4⟩

/-! ## Why it ends as it does -/

/-- There is no place in the queue for the commands the worker wants to pass on. -/
def Full (p : St) : Prop := p.force ≠ none ∧ 256 - p.s.result.length < p.batch.length

/-- The worker wants bytes and has none, or wants the memory of a prediction mode and has none, or has given its
buffer away and has no place for its commands. -/
def Waiting (p : St) : Prop :=
  p.eof = false ∧
    ((p.force = none ∧ wants p.s = true ∧ p.s.b.rcv.cmdRx.buf = []) ∨ (p.force = none ∧ p.s.hold = .none ∧ p.s.map = false) ∨
      (p.force = some false ∧ p.s.mem = [] ∧ Full p))

theorem work_success {s t : Call.St} (e : s.work = .ok (t, some .success)) : s.hold = .none ∧ s.b.rcv.core.at_ = .stop := by
  unfold Call.St.work at e
  rcases hh : s.hold with _ | g | g
  · simp only [hh] at e
    by_cases h1 : s.b.rcv.core.at_ = .stop
    · exact ⟨rfl, h1⟩
    rw [if_neg h1] at e
    by_cases h2 : (inPm s.b.rcv.core.at_ && !s.map) = true
    · rw [if_pos h2] at e
      split at e <;> cases e
    rw [if_neg h2] at e
    by_cases h3 : s.fill.2 = true
    · rw [if_pos h3] at e
      cases ha : Codec.coreAsk s.fill.1.b.rcv.core with
      | none => rw [ha] at e; cases e
      | some a =>
        rw [ha] at e
        simp only at e
        cases ht : Codec.coreTake s.fill.1.b.rcv.core (Call.take s.fill.1.b.rcv.cmdRx (.plain a.key (some a.speed))).2 with
        | fail => rw [ht] at e; cases e
        | panic => rw [ht] at e; cases e
        | ok y => rw [ht] at e; cases e
    · rw [if_neg h3] at e; cases e
  · simp only [hh] at e
    split at e <;> cases e
  · simp only [hh] at e
    split at e <;> cases e

theorem told_reason {p : St} (hs : Side p) :
    (p.told = .ended → p.eof = true ∨ p.work = .fail ∨ Full p) ∧ (p.told = .stuck → Waiting p) ∧ (p.told = .panicked → p.work = .panic) := by
  rcases hfo : p.force with _ | e
  · cases he : p.eof with
    | true =>
      rw [told_end hfo he]
      exact ⟨fun _ => .inl rfl, by (intro h; cases h), by (intro h; cases h)⟩
    | false =>
      cases hr : isReady p.s.hold with
      | true =>
        rcases hh : p.s.hold with _ | g | g
        · rw [hh] at hr; cases hr
        · rw [hh] at hr; cases hr
        · rw [told_ready hfo he hh, work_ready hfo he hh]
          unfold St.pass
          by_cases h1 : 256 ≤ p.batch.length
          · have := (hs.free hfo).1
            omega
          · rw [if_neg h1]
            refine ⟨?_, ?_, ?_⟩ <;> intro h <;> cases h
      | false =>
        rw [told_rest hfo he hr, work_rest hfo he hr]
        by_cases h1 : p.s.hold = .none ∧ p.s.b.rcv.core.at_ = .stop
        · rw [if_pos h1]
          refine ⟨?_, ?_, ?_⟩ <;> intro h <;> cases h
        rw [if_neg h1, if_neg h1]
        by_cases h2 : wants p.s = true
        · rw [if_pos h2, if_pos h2]
          by_cases h3 : p.s.b.rcv.cmdRx.buf = []
          · rw [if_pos h3]
            exact ⟨by (intro h; cases h), fun _ => ⟨he, .inl ⟨hfo, h2, h3⟩⟩, by (intro h; cases h)⟩
          · rw [if_neg h3]
            have : ∃ q, p.feed = some q := by
              unfold St.feed
              rw [if_pos h3]
              exact ⟨_, rfl⟩
            obtain ⟨q, hq⟩ := this
            rw [hq]
            refine ⟨?_, ?_, ?_⟩ <;> intro h <;> cases h
        · rw [if_neg h2, if_neg h2]
          by_cases h3 : p.s.hold = .none ∧ inPm p.s.b.rcv.core.at_ ∧ p.s.map = false
          · rw [if_pos h3]
            exact ⟨by (intro h; cases h), fun _ => ⟨he, .inr (.inl ⟨hfo, h3.1, h3.2.2⟩)⟩, by (intro h; cases h)⟩
          · rw [if_neg h3]
            unfold St.plain
            cases hw : p.s.work with
            | fail => exact ⟨fun _ => .inr (.inl rfl), by (intro h; cases h), by (intro h; cases h)⟩
            | panic => exact ⟨by (intro h; cases h), by (intro h; cases h), fun _ => rfl⟩
            | ok y =>
              obtain ⟨t, z⟩ := y
              obtain ⟨-, -, -, -, -, w1, w2, -⟩ := work_frame hw hr
              rcases z with _ | _ | _ | _
              · refine ⟨?_, ?_, ?_⟩ <;> intro h <;> cases h
              · exact (h2 (w1 rfl)).elim
              · refine ⟨by (intro h; cases h), fun _ => ⟨he, .inr (.inl ⟨hfo, (w2 rfl).1, (w2 rfl).2.1⟩)⟩, by (intro h; cases h)⟩
              · exact (h1 (work_success hw)).elim
  · have hfull : 256 - p.s.result.length < p.batch.length → Full p := fun h => ⟨by rw [hfo]; simp, h⟩
    have heof : p.eof = false := by
      by_contra h
      rw [(hs.fin (by simpa using h)).2.2] at hfo
      cases hfo
    rw [told_force hfo, work_force hfo]
    unfold St.flush
    by_cases h1 : 256 - p.s.result.length < p.batch.length
    · rw [if_pos h1, if_pos h1]
      by_cases h2 : e = false ∧ p.s.mem = []
      · rw [if_pos h2]
        exact ⟨by (intro h; cases h), fun _ => ⟨heof, .inr (.inr ⟨by rw [h2.1] at hfo; exact hfo, h2.2, hfull h1⟩)⟩, by (intro h; cases h)⟩
      · rw [if_neg h2]
        exact ⟨fun _ => .inr (.inr (hfull h1)), by (intro h; cases h), by (intro h; cases h)⟩
    · rw [if_neg h1, if_neg h1]
      by_cases h2 : (p.batch.any isPm) ∧ 2 ≤ (p.s.result.filter isPm).length
      · rw [if_pos h2]
        exact ⟨by (intro h; cases h), by (intro h; cases h), fun _ => rfl⟩
      · rw [if_neg h2]
        refine ⟨?_, ?_, ?_⟩ <;> intro h <;> cases h

theorem Works.cons {p q r : St} (e : p.work = .ok (some q)) (h : Works q r) : Works p r := by
  induction h with
  | refl => exact .tail (.refl p) e
  | tail _ e' ih => exact .tail ih e'

theorem frees_reason {p : St} {o : Freed} (h : p.Frees o) : ∀ {n : Nat}, Live L (p.view n) → Side p →
    ∃ q, Works p q ∧ (o = .returns → q.eof = true ∨ q.work = .fail ∨ Full q) ∧ (o = .hangs → Waiting q) ∧ (o = .panics → q.work = .panic) := by
  induction h with
  | ended e => intro n hl hs; exact ⟨_, .refl _, fun _ => (told_reason hs).1 e, by simp, by simp⟩
  | stuck e => intro n hl hs; exact ⟨_, .refl _, by simp, fun _ => (told_reason hs).2.1 e, by simp⟩
  | panicked e => intro n hl hs; exact ⟨_, .refl _, by simp, by simp, fun _ => (told_reason hs).2.2 e⟩
  | on e _ ih =>
    intro n hl hs
    obtain ⟨g1, g2, -⟩ := work_live hl hs (told_on e)
    obtain ⟨q, k1, k2⟩ := ih g1 g2
    exact ⟨q, .cons (told_on e) k1, k2⟩

/-! ## C88 -/

/-- **C88.**  Freeing a decompressor with a worker thread, after any calls on any bytes and at any moment of the
worker's thread, comes to exactly one of three things: the caller gets the decompressor's memory back, or waits for
ever, or panics.  The same
holds at any moment of a call in progress, as when that call fails and the caller then frees. -/
theorem free_settles (dw : Nat → Nat → Nat → List UInt8) (skip : Bool) (bytes : List UInt8) (cs : List (Nat × Nat))
    (d : Dec) (rest out : List UInt8) (rets : List Ret) (hh : History dw (.new skip) bytes cs d rest out rets) :
    (∃ o, d.Frees o) ∧ (∀ p q, d.stage = .body p → Works p q → ∃! o, q.Frees o) ∧
    ∀ (inp : List UInt8) (room : Nat) (c : Conf) (k : Nat) (c' : Conf), d.begin inp room = .ok (.inr (c, k)) →
      Steps dw d.skip c c' → ∃! o, c'.p.Frees o := by
  have key : ∀ p q, d.stage = .body p → Works p q → ∃! o, q.Frees o := by
    intro p q hp hw
    obtain ⟨L, h1, h2⟩ := moment hh hp hw
    obtain ⟨o, ho⟩ := frees_exists (nibbles q.s 0) q.todo q h1 h2 (Nat.le_refl _) fun _ => Nat.le_refl _
    exact ⟨o, ho, fun o' h' => frees_unique ho h'⟩
  refine ⟨?_, key, ?_⟩
  · unfold Dec.Frees
    cases hst : d.stage with
    | header got => exact ⟨_, rfl⟩
    | body p =>
      obtain ⟨o, ho, -⟩ := key p p hst (.refl p)
      exact ⟨o, p, .refl p, ho⟩
  · intro inp room c k c' e st
    rcases begin_any (history_live hh (new_plive skip)) inp room with h | ⟨r, h, -⟩ | ⟨c1, k1, w, h, -, -, hb, -⟩
    · rw [h] at e; cases e
    · rw [h] at e; cases e
    · rw [h] at e
      simp only [Codec.Res.ok.injEq, Sum.inr.injEq, Prod.mk.injEq] at e
      obtain ⟨rfl, rfl⟩ := e
      have hb' := steps_during hb st
      obtain ⟨o, ho⟩ := frees_exists (nibbles c'.p.s 0) c'.p.todo c'.p hb'.live hb'.side (Nat.le_refl _) fun _ => Nat.le_refl _
      exact ⟨o, ho, fun o' h' => frees_unique ho h'⟩

/-- **C88.**  Once a call has returned success, freeing returns, whatever the bytes and the schedule; and before
the header is complete it returns too. -/
theorem free_after_success (dw : Nat → Nat → Nat → List UInt8) (skip : Bool) (bytes : List UInt8) (cs : List (Nat × Nat))
    (d : Dec) (rest out : List UInt8) (rets : List Ret) (hh : History dw (.new skip) bytes cs d rest out rets)
    (hs : .success ∈ rets ∨ ∃ got, d.stage = .header got) : ∀ o, d.Frees o ↔ o = .returns := by
  intro o
  rcases hs with hs | ⟨got, hs⟩
  · have h1 := (history_neat hh (new_plive skip) trivial).2.2 hs
    unfold Seen at h1
    unfold Dec.Frees
    cases hst : d.stage with
    | header got => rw [hst] at h1
    | body p =>
      rw [hst] at h1
      simp only at h1 ⊢
      have key : ∀ q, Works p q → q.told = .ended := by
        intro q hw
        have : q.s.sawEnd = true := by
          induction hw with
          | refl => exact h1
          | tail hw e ih =>
            obtain ⟨L, -, h2⟩ := moment hh hst hw
            exact (pwork_saw h2 e ih).elim
        obtain ⟨L, -, h2⟩ := moment hh hst hw
        have he := h2.saw this
        exact told_end (h2.fin he).2.2 he
      constructor
      · rintro ⟨q, hw, ho⟩
        exact frees_unique (.ended (key q hw)) ho
      · rintro rfl
        exact ⟨p, .refl p, .ended (key p (.refl p))⟩
  · unfold Dec.Frees
    rw [hs]

/-- **C88.**  Why freeing ends as it does.  It returns only if the worker's thread, alone, comes to its end, to a
failure, or to a full queue; it hangs only if the worker comes to wait for something only the caller could give: bytes, or
the memory of a prediction mode; it panics only if the worker's thread panics. -/
theorem free_reason (dw : Nat → Nat → Nat → List UInt8) (skip : Bool) (bytes : List UInt8) (cs : List (Nat × Nat))
    (d : Dec) (rest out : List UInt8) (rets : List Ret) (hh : History dw (.new skip) bytes cs d rest out rets)
    (p q : St) (hp : d.stage = .body p) (hw : Works p q) (o : Freed) (ho : q.Frees o) :
    ∃ q', Works q q' ∧ (o = .returns → q'.eof = true ∨ q'.work = .fail ∨ Full q') ∧ (o = .hangs → Waiting q') ∧
      (o = .panics → q'.work = .panic) := by
  obtain ⟨L, h1, h2⟩ := moment hh hp hw
  exact frees_reason ho h1 h2

/-- **C88: freeing need not return.**  After any calls on any bytes: if the worker's thread has done all it can, has
not come to the end of the commands, and the main thread has taken all commands, then freeing never returns. -/
theorem free_hangs (dw : Nat → Nat → Nat → List UInt8) (skip : Bool) (bytes : List UInt8) (cs : List (Nat × Nat))
    (d : Dec) (rest out : List UInt8) (rets : List Ret) (hh : History dw (.new skip) bytes cs d rest out rets)
    (p q : St) (hp : d.stage = .body p) (hw : Works p q) (hidle : q.work = .ok none) (he : q.eof = false) (hr : q.s.result = []) :
    ∀ o, q.Frees o ↔ o = .hangs := by
  obtain ⟨L, h1, h2⟩ := moment hh hp hw
  have hst : q.told = .stuck := by
    obtain ⟨r1, r2, r3⟩ := told_reason h2
    cases ht : q.told with
    | stuck => rfl
    | on q' => rw [told_on ht] at hidle; cases hidle
    | panicked => rw [r3 ht] at hidle; cases hidle
    | ended =>
      rcases r1 ht with h | h | ⟨-, h⟩
      · rw [he] at h; cases h
      · rw [h] at hidle; cases hidle
      · rw [hr] at h
        have := h2.cap
        simp only [List.length_nil, Nat.sub_zero] at h
        omega
  intro o
  constructor
  · exact fun h => frees_unique (.stuck hst) h
  · rintro rfl
    exact .stuck hst

/-- The worker behind a header: it waits for bytes. -/
theorem init_frees (h : List UInt8) (w : Nat) {q : St} (hw : Works (St.init skip h w) q) : q = St.init skip h w ∧ q.told = .stuck := by
  have hq : q = St.init skip h w := by
    induction hw with
    | refl => rfl
    | tail _ e ih =>
      rw [ih] at e
      cases e
  exact ⟨hq, by rw [hq]; rfl⟩

theorem init_hangs (h : List UInt8) (w : Nat) (o : Freed) : Dec.Frees ⟨skip, .body (St.init skip h w)⟩ o ↔ o = .hangs := by
  constructor
  · rintro ⟨q, hw, ho⟩
    exact frees_unique (.stuck (init_frees h w hw).2) ho
  · rintro rfl
    exact ⟨_, .refl _, .stuck (init_frees h w (.refl _)).2⟩

/-- **C88.**  A decompressor with a worker thread that was given exactly a header, every good one, never gives its memory back. -/
theorem free_header_hangs (skip : Bool) (h : List UInt8) (w : Nat) (hg : Frame.GoodHeader h w) (room : Nat) :
    ∃ r, (Dec.new skip).Returns dw h room r ∧ r.ret = .needsInput ∧ r.used = 16 ∧ ∀ o, r.dec.Frees o ↔ o = .hangs := by
  have hlen : h.length = 16 := hg.1
  have hp := (Frame.parseHeader_iff h hlen w).2 hg
  refine ⟨⟨⟨skip, .body (St.init skip h w)⟩, 16, [], .needsInput⟩, ?_, rfl, rfl, init_hangs h w⟩
  unfold Dec.Returns Dec.begin Dec.new Frame.headerDecode
  have ht : h.take 16 = h := List.take_of_length_le (by omega)
  simp only [List.length_nil, Nat.sub_zero, List.nil_append]
  rw [if_pos (by omega), ht, hp]
  simp only
  rw [if_neg (by omega)]

/-! ### The program -/

theorem unpackLoop_dec {sched : Sched} {n cap size : Nat} {whole : List UInt8} :
    ∀ (k : Nat) (s s' : Unpack (Dec × Nat)) (e : Cli.Outcome) (out : List UInt8) (rets : List Call.Ret),
      Past dw skip whole s.dec (s.left ++ Io.srcBytes s.src) out rets →
      unpackLoop (threaded sched dw) n cap size k s = some (s', e) →
      ∃ rest out' rets', Past dw skip whole s'.dec rest out' rets' ∧ (e = .ok → .success ∈ rets') := by
  intro k
  induction k with
  | zero => intro s s' e out rets _ h; cases h
  | succ k ih =>
    intro s s' e out rets hp h
    rw [unpackLoop] at h
    cases hd : threaded sched dw n s.dec s.left (size - s.out.length) with
    | none => rw [hd] at h; cases h
    | some x =>
      rw [hd] at h
      cases x with
      | fail => cases h; exact ⟨_, _, _, hp, by simp⟩
      | panic => cases h; exact ⟨_, _, _, hp, by simp⟩
      | ok r =>
        obtain ⟨d', used, o, ret⟩ := r
        have hp' := hp.step hd
        cases hret : ret with
        | success =>
          simp only [hret, Option.some.injEq, Prod.mk.injEq] at h
          obtain ⟨rfl, rfl⟩ := h
          exact ⟨_, _, _, hp', fun _ => by rw [hret]; simp⟩
        | needsOutput =>
          simp only [hret] at h
          split at h
          · exact ih _ _ _ _ (rets ++ [ret]) hp' h
          · cases h
            exact ⟨_, _, _, hp', by simp⟩
        | needsInput =>
          simp only [hret] at h
          cases hf : Cli.fill (cap - if s.left.drop used = [] then 0 else s.last) s.src with
          | mk src' f =>
            rw [hf] at h
            cases f with
            | bytes bs =>
              simp only at h
              refine ih _ _ _ (out ++ o) (rets ++ [ret]) ?_ h
              simp only
              rw [List.append_assoc, ← Cli.fill_bytes _ hf]
              exact hp'
            | ended => cases h; exact ⟨_, _, _, hp', by simp⟩
            | failed => cases h; exact ⟨_, _, _, hp', by simp⟩

/-- **C88.**  If the program's loop ends without an error, then freeing the decompressor returns, for any source, any sink,
any bytes and any scheduler: the program ends. -/
theorem tool_frees (sched : Sched) (dw : Nat → Nat → Nat → List UInt8) (n rounds : Nat) (skip : Bool) (size : Nat)
    (extra : List UInt8) (src : List Io.Ev) (sink : List Cli.WEv) (written : List UInt8) (d : Dec)
    (h : unpacked sched dw skip n rounds size extra src sink = some (written, .ok, d)) : ∀ o, d.Frees o ↔ o = .returns := by
  unfold unpacked at h
  rw [Option.map_eq_some_iff] at h
  obtain ⟨⟨s', e'⟩, h1, h2⟩ := h
  simp only [Prod.mk.injEq] at h2
  obtain ⟨-, rfl, rfl⟩ := h2
  obtain ⟨rest, out, rets, ⟨cs, g1⟩, g2⟩ := unpackLoop_dec (skip := skip) (whole := extra ++ Io.srcBytes src) rounds _ _ _ [] []
    (by exact ⟨[], .nil _ _⟩) h1
  exact free_after_success dw skip _ cs _ _ _ _ g1 (.inl (g2 rfl))

/-- `unpacked` is the program's `decompress` of `Verif.ParIo`. -/
theorem unpacked_decompress (sched : Sched) (dw : Nat → Nat → Nat → List UInt8) (n rounds : Nat) (skip : Bool) (size : Nat)
    (extra : List UInt8) (src : List Io.Ev) (sink : List Cli.WEv) :
    (unpacked sched dw skip n rounds size extra src sink).map (fun x => (x.1, x.2.1)) =
      decompress (threaded sched dw) (Dec.new skip, 0) n rounds size extra src sink := by
  unfold unpacked decompress
  rw [Option.map_map]
  rfl

theorem header_loop {sched : Sched} {n cap size w : Nat} {h : List UInt8} (hg : Frame.GoodHeader h w) (hcap : 0 < cap) :
    ∀ (m : Nat) (got : List UInt8) (s : Unpack (Dec × Nat)), s.dec.1 = ⟨skip, .header got⟩ → got.length < 16 →
      Cli.Whole s.src → Io.Ev.fail ∉ s.src → got ++ s.left ++ Io.srcBytes s.src = h → (Io.srcBytes s.src).length ≤ m →
      ∃ s', unpackLoop (threaded sched dw) n cap size (m + 1) s = some (s', .noEnd) ∧ s'.dec.1 = ⟨skip, .body (St.init skip h w)⟩ ∧
        s'.written = s.written := by
  intro m
  induction m with
  | zero => ?_
  | succ m ih => ?_
  all_goals
    intro got s hd hgl hwh hnf heq hm
    have hlen : h.length = 16 := hg.1
    have htot : got.length + s.left.length + (Io.srcBytes s.src).length = 16 := by
      rw [← hlen, ← heq]; simp [Nat.add_assoc]
    rw [unpackLoop]
    have hfin : s.left.length ≥ 16 - got.length → threaded sched dw n s.dec s.left (size - s.out.length) =
        some (.ok ((⟨skip, .body (St.init skip h w)⟩, s.dec.2), s.left.length, [], .needsInput)) := by
      intro hl
      have h0 : Io.srcBytes s.src = [] := List.eq_nil_of_length_eq_zero (by omega)
      have hu : 16 - got.length = s.left.length := by omega
      rw [h0, List.append_nil] at heq
      unfold threaded Dec.begin
      rw [hd]
      simp only
      unfold Frame.headerDecode
      simp only
      rw [if_pos hl, hu, List.take_length, heq, (Frame.parseHeader_iff h hlen w).2 hg]
      simp only
      rw [if_neg (by omega)]
    have hmore : ¬ s.left.length ≥ 16 - got.length → threaded sched dw n s.dec s.left (size - s.out.length) =
        some (.ok ((⟨skip, .header (got ++ s.left)⟩, s.dec.2), s.left.length, [], .needsInput)) := by
      intro hl
      unfold threaded Dec.begin
      rw [hd]
      simp only
      unfold Frame.headerDecode
      simp only
      rw [if_neg hl]
    obtain ⟨src', f1, f2, f3⟩ := Cli.fill_spec hcap s.src hwh
    have hnf' : Io.Ev.fail ∉ src' := fun hx => hnf (f1 _ hx rfl)
    by_cases hl : s.left.length ≥ 16 - got.length
    · rw [hfin hl]
      have h0 : Io.srcBytes s.src = [] := List.eq_nil_of_length_eq_zero (by omega)
      simp only [List.drop_length, if_true, Nat.sub_zero]
      rcases f3 with ⟨bs, g1, g2, -, g4⟩ | ⟨g1, -⟩ | ⟨-, g2⟩
      · rw [h0] at g4
        exact (g2 (List.append_eq_nil_iff.1 g4.symm).1).elim
      · rw [g1]
        exact ⟨_, rfl, rfl, rfl⟩
      · exact (hnf g2).elim
    · rw [hmore hl]
      simp only [List.drop_length, if_true, Nat.sub_zero]
      rcases f3 with ⟨bs, g1, g2, -, g4⟩ | ⟨g1, g2⟩ | ⟨-, g2⟩
      · rw [g1]
        have hb : 0 < bs.length := List.length_pos_iff.2 g2
        have hlen4 := congrArg List.length g4
        rw [List.length_append] at hlen4
        first
        | (exfalso; omega)
        | (obtain ⟨s', e1, e2, e3⟩ := ih (got ++ s.left) { s with dec := (⟨skip, .header (got ++ s.left)⟩, s.dec.2), left := [] ++ bs, last := 0 + bs.length, out := s.out ++ [], src := src' } rfl
            (by rw [List.length_append]; omega) f2 hnf' (by rw [← heq, g4]; simp) (by simp only; omega)
           exact ⟨s', e1, e2, e3⟩)
      · rw [g2] at htot
        simp only [List.length_nil] at htot
        omega
      · exact (hnf g2).elim

/-- **C88: with an error the program need not end.**  Given exactly a good header, in any pieces, its loop ends with the
error that the end of the file is missing, with nothing written; but the decompressor is freed before that is reported, and
freeing hangs, for every scheduler. -/
theorem tool_header_hangs (sched : Sched) (dw : Nat → Nat → Nat → List UInt8) (n : Nat) (skip : Bool) (size : Nat) (h : List UInt8) (w : Nat)
    (hg : Frame.GoodHeader h w) (extra : List UInt8) (src : List Io.Ev) (hsrc : Cli.Whole src) (hnf : Io.Ev.fail ∉ src)
    (hb : extra ++ Io.srcBytes src = h) (sink : List Cli.WEv) :
    ∃ rounds d, unpacked sched dw skip n rounds size extra src sink = some ([], .noEnd, d) ∧ ∀ o, d.Frees o ↔ o = .hangs := by
  obtain ⟨s', e1, e2, e3⟩ := header_loop (dw := dw) (skip := skip) (sched := sched) (n := n) (cap := max (Io.bufSize size) extra.length)
    (size := Io.bufSize size) hg (Nat.lt_of_lt_of_le (Io.bufSize_pos size) (Nat.le_max_left _ _)) (Io.srcBytes src).length []
    ⟨(Dec.new skip, 0), extra, extra.length, [], src, sink, []⟩ rfl (by decide) hsrc hnf (by simpa using hb) (Nat.le_refl _)
  refine ⟨(Io.srcBytes src).length + 1, s'.dec.1, ?_, ?_⟩
  · unfold unpacked
    rw [e1, Option.map_some, e3]
  · rw [e2]
    exact init_hangs h w

/-! ## The theorems are not vacuous -/

theorem freed_ok : ∀ (n : Nat) (p : St) {o : Freed}, p.freed n = some o → p.Frees o
  | 0, _, _, h => by cases h
  | n + 1, p, o, h => by
    rw [St.freed] at h
    cases ht : p.told with
    | ended => rw [ht] at h; cases h; exact .ended ht
    | stuck => rw [ht] at h; cases h; exact .stuck ht
    | panicked => rw [ht] at h; cases h; exact .panicked ht
    | on q => rw [ht] at h; exact .on ht (freed_ok n q h)

theorem works_ok : ∀ (n : Nat) (p : St), Works p (p.works n)
  | 0, p => .refl p
  | n + 1, p => by
    rw [St.works]
    generalize hw : p.work = x
    match x, hw with
    | .ok (some q), hw => exact .cons hw (works_ok n q)
    | .ok none, _ => exact .refl p
    | .fail, _ => exact .refl p
    | .panic, _ => exact .refl p

/-- The program on some bytes under the scheduler `demoSched`: how its loop ends, and how freeing ends when the worker
goes on for so many steps before. -/
def demoFree (bytes : List UInt8) (steps : Nat) : Option (Cli.Outcome × Option Freed) :=
  (unpacked demoSched File.noWords false 400 200 64 [] [.data bytes] []).map fun x =>
    (x.2.1, match x.2.2.stage with
      | .header _ => some .returns
      | .body p => (p.works steps).freed 1000)

/-- A file of 69 bytes.  Complete, or cut behind its commands: the program's decompressor is freed.  Cut within its commands: freeing hangs,
and the program never reports the error. -/
example : demoFree File.oddFile 0 = some (.ok, some .returns) ∧ demoFree (File.oddFile.take 60) 7 = some (.noEnd, some .returns) ∧
    demoFree (File.oddFile.take 34) 7 = some (.noEnd, some .hangs) ∧ demoFree (File.oddFile.take 16) 0 = some (.noEnd, some .hangs) ∧
    demoFree (File.oddFile.take 15) 0 = some (.noEnd, some .returns) := by decide +kernel

/-- What `free_hangs` asks for, behind a call on the first 34 bytes: the worker has done all it can, has not come to the end, and there are
no commands for the main thread. -/
example : ∃ d rest rets p q, History File.noWords (.new false) (File.oddFile.take 34) [(34, 100)] d rest [] rets ∧ d.stage = .body p ∧
    Works p q ∧ q.work = .ok none ∧ q.eof = false ∧ q.s.result = [] := by
  have h : (match (Dec.new false).play File.noWords (true :: List.replicate 50 false ++ List.replicate 50 true) (File.oddFile.take 34) 100 with
      | some r =>
        match r.dec.stage with
        | .body p => r.out.isEmpty && (match (p.works 50).work with | .ok none => true | _ => false) && !(p.works 50).eof &&
          (p.works 50).s.result.isEmpty
        | _ => false
      | none => false) = true := by decide +kernel
  cases hp : (Dec.new false).play File.noWords (true :: List.replicate 50 false ++ List.replicate 50 true) (File.oddFile.take 34) 100 with
  | none => rw [hp] at h; cases h
  | some r =>
    rw [hp] at h
    simp only at h
    cases hst : r.dec.stage with
    | header g => rw [hst] at h; cases h
    | body p =>
      rw [hst] at h
      simp only [Bool.and_eq_true, List.isEmpty_iff, Bool.not_eq_true'] at h
      obtain ⟨⟨⟨h1, h2⟩, h3⟩, h4⟩ := h
      refine ⟨r.dec, (File.oddFile.take 34).drop r.used, [r.ret], p, p.works 50, ?_, hst, works_ok 50 p, ?_, h3, h4⟩
      · have hc := History.cons (dw := File.noWords) (rest := File.oddFile.take 34) (offer := 34) (room := 100)
          (by rw [List.take_of_length_le (by simp)]; exact play_returns hp) (.nil r.dec _)
        rw [h1] at hc
        exact hc
      · generalize (p.works 50).work = x at h2
        match x, h2 with
        | .ok none, _ => rfl
        | .ok (some _), h2 => cases h2
        | .fail, h2 => cases h2
        | .panic, h2 => cases h2

end Divans.Par
