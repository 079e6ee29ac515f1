import Verif.Call
import Verif.FileProps
import Verif.FastLemmas

/-!
# Lemmas on the call-level decompressor

The state of the call-level model is mapped to a state of `Verif.File` (`St.abs`), in which what is in
the queues has already arrived.  Every part of a call is a sequence of steps of that model, so its
invariant carries over; what remains is why a call stops, and that it does.
-/

namespace Divans.Call
open Divans.Adaptive Divans.Pipe Divans.File

/-- The command the worker holds. -/
def held : Hold → List Codec.Got
  | .none => []
  | .decoded g => [g]
  | .ready g => [g]

/-- The same decompressor with empty queues. -/
def St.abs (s : St) : File.Body :=
  { s.b with rcv := { s.b.rcv with
      cmdRx := s.b.rcv.cmdRx.push (s.data.flatMap Mux.Buf.unread)
      queue := s.b.rcv.queue ++ (s.result ++ held s.hold) } }

/-- The number of prediction modes in a queue. -/
def pms (l : List Codec.Got) : Nat := (l.filter isPm).length

/-- Is memory for a prediction mode in a command that is to be passed on? -/
def heldPm : Hold → Nat
  | .ready g => if isPm g then 1 else 0
  | _ => 0

/-- Is there a buffer? -/
def one (m : List UInt8) : Nat := if m = [] then 0 else 1

theorem one_nil : one [] = 0 := rfl

theorem one_ne {m : List UInt8} (h : m ≠ []) : one m = 1 := by rw [one, if_neg h]

/-- What always holds of the queues. -/
structure Ext (s : St) : Prop where
  data2 : s.data.length ≤ 2
  back2 : s.back.length ≤ 2
  full : ∀ d ∈ s.data, d.unread ≠ []
  slice : s.b.rcv.cmdRx.buf ≠ [] → s.mem ≠ []
  lent : s.lent = s.data.length + one s.mem + s.back.length
  maps : s.map.toNat + s.maps + pms s.b.rcv.queue + pms s.result + heldPm s.hold = 1
  dec : ∀ p, s.hold = .decoded (.pm p) → s.map = true
  stop : s.b.rcv.core.at_ = .stop → s.hold = .none
  fin : s.sawEnd = true → s.b.rcv.core.at_ = .stop ∧ s.result = []

/-- Bytes and buffers on their way to the worker and back. -/
def St.load (s : St) : Nat :=
  5 * (s.b.mux.unread false).length + (s.data.map fun d => 3 + d.unread.length).sum +
    2 * one s.mem + s.b.rcv.cmdRx.buf.length + s.back.length

/-! ## Filling the entropy decoder -/

theorem push_push {κ ι : Type} (r : Rx κ ι) (a b : List UInt8) : (r.push a).push b = r.push (a ++ b) := by
  simp [Rx.push]

theorem push_nil' {κ ι : Type} (r : Rx κ ι) : r.push [] = r := by simp [Rx.push]

/-- What `pull` leaves alone. -/
structure Same (s t : St) : Prop where
  mux : t.b.mux = s.b.mux
  crc : t.b.crc = s.b.crc
  sum : t.b.sum = s.b.sum
  core : t.b.rcv.core = s.b.rcv.core
  queue : t.b.rcv.queue = s.b.rcv.queue
  at_ : t.b.rcv.at_ = s.b.rcv.at_
  hold : t.hold = s.hold
  map : t.map = s.map
  maps : t.maps = s.maps
  result : t.result = s.result
  sawEnd : t.sawEnd = s.sawEnd
  lent : t.lent = s.lent

theorem Same.rfl' {s : St} : Same s s := ⟨rfl, rfl, rfl, rfl, rfl, rfl, rfl, rfl, rfl, rfl, rfl, rfl⟩

theorem Same.trans {s t u : St} (h : Same s t) (g : Same t u) : Same s u :=
  ⟨g.mux.trans h.mux, g.crc.trans h.crc, g.sum.trans h.sum, g.core.trans h.core, g.queue.trans h.queue,
    g.at_.trans h.at_, g.hold.trans h.hold, g.map.trans h.map, g.maps.trans h.maps, g.result.trans h.result,
    g.sawEnd.trans h.sawEnd, g.lent.trans h.lent⟩

theorem pull_same (s : St) : Same s s.pull := by
  unfold St.pull
  split
  · exact Same.rfl'
  split
  · exact Same.rfl'
  · simp only
    by_cases hm : s.mem = []
    · simp only [if_pos hm]
      cases s.data <;> exact ⟨rfl, rfl, rfl, rfl, rfl, rfl, rfl, rfl, rfl, rfl, rfl, rfl⟩
    · simp only [if_neg hm]
      cases s.data <;> exact ⟨rfl, rfl, rfl, rfl, rfl, rfl, rfl, rfl, rfl, rfl, rfl, rfl⟩

theorem unread_mem {d : Mux.Buf} (h : d.unread ≠ []) : d.mem ≠ [] := by
  intro h0
  apply h
  simp [Mux.Buf.unread, h0]

theorem pull_spec {s : St} (h : Ext s) :
    Ext s.pull ∧ s.pull.abs = s.abs ∧ s.pull.b.rcv.cmdRx.dec = s.b.rcv.cmdRx.dec ∧ s.pull.load ≤ s.load ∧
      (s.b.rcv.cmdRx.buf = [] → s.pull.load < s.load ∨ (s.pull = s ∧ (s.back ≠ [] ∨ s.lent = 0))) ∧
      (s.b.rcv.cmdRx.buf ≠ [] → s.pull = s) := by
  obtain ⟨h1, h2, h3, h4, h5, h6, h7, h8, h9⟩ := h
  unfold St.pull
  by_cases hb : s.b.rcv.cmdRx.buf ≠ []
  · rw [if_pos hb]
    exact ⟨⟨h1, h2, h3, h4, h5, h6, h7, h8, h9⟩, rfl, rfl, Nat.le_refl _, fun h0 => absurd h0 hb, fun _ => rfl⟩
  rw [if_neg hb]
  rw [Decidable.not_not] at hb
  by_cases hk : s.mem ≠ [] ∧ 2 ≤ s.back.length
  · rw [if_pos hk]
    refine ⟨⟨h1, h2, h3, h4, h5, h6, h7, h8, h9⟩, rfl, rfl, Nat.le_refl _, fun _ => Or.inr ⟨rfl, Or.inl ?_⟩,
      fun h0 => absurd hb h0⟩
    intro h0
    rw [h0] at hk
    exact absurd hk.2 (by simp)
  rw [if_neg hk]
  simp only
  by_cases hm : s.mem = []
  · simp only [if_pos hm]
    rw [hm, one_nil] at h5
    cases hd : s.data with
    | nil =>
      refine ⟨⟨h1, h2, h3, h4, by rw [hm, one_nil]; exact h5, h6, h7, h8, h9⟩, rfl, rfl, Nat.le_refl _,
        fun _ => Or.inr ⟨rfl, ?_⟩, fun h0 => absurd hb h0⟩
      rw [hd] at h5
      simp only [List.length_nil] at h5
      by_cases hbk : s.back = []
      · right; rw [hbk] at h5; simpa using h5
      · exact Or.inl hbk
    | cons d ds =>
      rw [hd] at h1 h3 h5
      have hdu := h3 d (by simp)
      have hdm := unread_mem hdu
      simp only [List.length_cons] at h1 h5
      have hlt : ({ s.setRx { s.b.rcv.cmdRx with buf := d.unread } with mem := d.mem, data := ds } : St).load < s.load := by
        simp only [St.load, St.setRx, hb, List.length_nil, hd, hm, List.map_cons, List.sum_cons, one_ne hdm, one_nil]
        omega
      refine ⟨⟨by simp only; omega, h2, fun x hx => h3 x (by simp [hx]), fun _ => hdm, ?_, h6, h7, h8, h9⟩, ?_, rfl,
        Nat.le_of_lt hlt, fun _ => Or.inl hlt, fun h0 => absurd hb h0⟩
      · simp only [St.setRx, one_ne hdm]; omega
      · simp [St.abs, St.setRx, Rx.push, hd, hb]
  · simp only [if_neg hm]
    rw [one_ne hm] at h5
    have hbk : s.back.length < 2 := by
      rcases Nat.lt_or_ge s.back.length 2 with h | h
      · exact h
      · exact absurd ⟨hm, h⟩ hk
    cases hd : s.data with
    | nil =>
      have hlt : ({ s with mem := [], back := s.back ++ [s.mem], data := [] } : St).load < s.load := by
        simp only [St.load, one_ne hm, one_nil, List.length_append, List.length_singleton, hd]
        omega
      rw [hd] at h5
      simp only
      refine ⟨⟨by simp, by simp only [List.length_append, List.length_singleton]; omega, by simp,
        fun h0 => absurd hb h0, ?_, h6, h7, h8, h9⟩, by simp [St.abs, hd], trivial, Nat.le_of_lt hlt, fun _ => Or.inl hlt, fun h0 => absurd hb h0⟩
      simp only [one_nil, List.length_append, List.length_singleton, hd, List.length_nil] at h5 ⊢
      omega
    | cons d ds =>
      rw [hd] at h1 h3 h5
      have hdu := h3 d (by simp)
      have hdm := unread_mem hdu
      simp only [List.length_cons] at h1 h5
      have hlt : ({ ({ s with mem := [], back := s.back ++ [s.mem] } : St).setRx { s.b.rcv.cmdRx with buf := d.unread } with
          mem := d.mem, data := ds } : St).load < s.load := by
        simp only [St.load, St.setRx, hb, List.length_nil, hd, List.map_cons, List.sum_cons, one_ne hdm, one_ne hm,
          List.length_append, List.length_singleton]
        omega
      refine ⟨⟨by simp only; omega, by simp only [St.setRx, List.length_append, List.length_singleton]; omega,
        fun x hx => h3 x (by simp [hx]), fun _ => hdm, ?_, h6, h7, h8, h9⟩, ?_, rfl,
        Nat.le_of_lt hlt, fun _ => Or.inl hlt, fun h0 => absurd hb h0⟩
      · simp only [St.setRx, one_ne hdm, List.length_append, List.length_singleton]; omega
      · simp [St.abs, St.setRx, Rx.push, hd, hb]

/-- `b` with the first `k` bytes of the worker's buffer moved into its entropy decoder. -/
def moved (b : File.Body) (k : Nat) : File.Body :=
  { b with rcv := { b.rcv with cmdRx :=
    ⟨b.rcv.cmdRx.ses, (b.rcv.cmdRx.dec.pushData (b.rcv.cmdRx.buf.take k)).1, b.rcv.cmdRx.buf.drop k⟩ } }

theorem pushData_take (d : Ans.Dec) (hg : d.Good) (x : List UInt8) :
    (d.pushData (x.take (d.pushData x).2)).1 = (d.pushData x).1 := by
  rw [Ans.pushData_count d x hg]
  rcases Nat.le_total x.length d.numPushAvail with h | h
  · rw [Nat.min_eq_left h, List.take_length]
  · rw [Nat.min_eq_right h]
    have := Ans.pushData_full d (x.take d.numPushAvail) (x.drop d.numPushAvail) hg (by rw [List.length_take]; omega)
    rw [List.take_append_drop] at this
    exact this.symm

theorem fill_spec {s : St} (h : Ext s) (hg : s.b.rcv.cmdRx.dec.Good) :
    Ext s.fill.1 ∧ Same s s.fill.1 ∧ s.fill.1.load ≤ s.load ∧
      (∃ k, k ≤ s.abs.rcv.cmdRx.dec.numPushAvail ∧ k ≤ s.abs.rcv.cmdRx.buf.length ∧ s.fill.1.abs = moved s.abs k) ∧
      s.fill.2 = decide (s.fill.1.b.rcv.cmdRx.dec.numPushAvail = 0) ∧
      (s.fill.2 = false → s.fill.1.b.rcv.cmdRx.buf = [] ∧
        (s.fill.1.load < s.load ∨ s.fill.1.back ≠ [] ∨ s.lent = 0)) := by
  unfold St.fill
  by_cases h0 : s.b.rcv.cmdRx.dec.numPushAvail = 0
  · rw [if_pos h0]
    refine ⟨h, .rfl', Nat.le_refl _, ⟨0, Nat.zero_le _, Nat.zero_le _, ?_⟩, by simp [h0], by simp⟩
    have hz := Fast.push_zero hg h0 []
    simp [moved, St.abs, Rx.push, hz]
  rw [if_neg h0]
  obtain ⟨p1, p2, p3, p4, p5, p6⟩ := pull_spec h
  have hsame := pull_same s
  simp only
  generalize ht : s.pull = t at *
  have hgt : t.b.rcv.cmdRx.dec.Good := by rw [p3]; exact hg
  have hc := Ans.pushData_count t.b.rcv.cmdRx.dec t.b.rcv.cmdRx.buf hgt
  have hav := Ans.pushData_avail t.b.rcv.cmdRx.dec t.b.rcv.cmdRx.buf hgt
  obtain ⟨n, hn⟩ : ∃ n, n = (t.b.rcv.cmdRx.dec.pushData t.b.rcv.cmdRx.buf).2 := ⟨_, rfl⟩
  rw [← hn] at hc ⊢
  obtain ⟨e1, e2, e3, e4, e5, e6, e7, e8, e9⟩ := p1
  have hld : ∀ rx : Rx Codec.Key Unit, rx.buf = t.b.rcv.cmdRx.buf.drop n →
      (t.setRx rx).load + n = t.load := by
    intro rx hrx
    simp only [St.load, St.setRx, hrx, List.length_drop]
    omega
  have hld' := hld ⟨t.b.rcv.cmdRx.ses, (t.b.rcv.cmdRx.dec.pushData t.b.rcv.cmdRx.buf).1, t.b.rcv.cmdRx.buf.drop n⟩ rfl
  refine ⟨⟨e1, e2, e3, ?_, e5, e6, e7, e8, e9⟩, hsame.trans ⟨rfl, rfl, rfl, rfl, rfl, rfl, rfl, rfl, rfl, rfl, rfl, rfl⟩,
    ?_, ⟨n, ?_, ?_, ?_⟩, rfl, ?_⟩
  · intro hx
    apply e4
    intro h0
    apply hx
    simp [St.setRx, h0]
  · omega
  · rw [← p2]
    show n ≤ t.b.rcv.cmdRx.dec.numPushAvail
    omega
  · rw [← p2]
    simp only [St.abs, Rx.push, List.length_append]
    omega
  · rw [← p2]
    have hle : n ≤ t.b.rcv.cmdRx.buf.length := by omega
    have hpt := pushData_take t.b.rcv.cmdRx.dec hgt t.b.rcv.cmdRx.buf
    rw [← hn] at hpt
    simp only [St.abs, moved, St.setRx, Rx.push, List.take_append_of_le_length hle, List.drop_append_of_le_length hle, hpt]
  · intro hf
    have hne : (t.b.rcv.cmdRx.dec.pushData t.b.rcv.cmdRx.buf).1.numPushAvail ≠ 0 := by simpa using hf
    have hall : n = t.b.rcv.cmdRx.buf.length := by omega
    refine ⟨by simp [St.setRx, hall], ?_⟩
    by_cases hb : s.b.rcv.cmdRx.buf = []
    · rcases p5 hb with hlt | ⟨heq, hor⟩
      · left; omega
      · right
        rw [heq]
        exact hor
    · left
      have heq := p6 hb
      rw [heq] at hall
      have := List.length_pos_iff.mpr hb
      rw [heq] at hld' ⊢
      omega

/-! ## The invariant of the abstract state -/

/-- The invariant of `Verif.File` behind the header. -/
abbrev BOk (cm : Bool) (dw : Nat → Nat → Nat → List UInt8) (L : Nat) (F h body tr tail : List UInt8) (skip : Bool)
    (b : File.Body) (pend fut E : List UInt8) (T : Nat) : Prop :=
  FOk cm dw L F h body tr tail ⟨skip, .body b, pend⟩ fut E T

variable {cm : Bool} {dw : Nat → Nat → Nat → List UInt8} {w : Nat} {F h body tr tail : List UInt8} {skip : Bool}

theorem bok_good {b : File.Body} {pend fut E : List UInt8} {T : Nat}
    (hd : BOk cm dw (2 ^ w) F h body tr tail skip b pend fut E T) : b.rcv.cmdRx.dec.Good := by
  obtain ⟨bdone, brest, srest, rest, tc, gs, tl, h1, h2, h3, h4, h5, h6, h7, h8, h9⟩ := hd
  exact h8.cmd.good

theorem feeds_moved {κ ι : Type} [DecidableEq κ] [DecidableEq ι] {cm : Bool} {tr : Trace κ ι} {fut : List UInt8} {r : Rx κ ι}
    (hf : Feeds cm tr fut r) (k : Nat) (hk : k ≤ r.dec.numPushAvail) (hl : k ≤ r.buf.length) :
    Feeds cm tr fut ⟨r.ses, (r.dec.pushData (r.buf.take k)).1, r.buf.drop k⟩ := by
  obtain ⟨h1, h2, h3⟩ := hf
  refine ⟨Ans.pushData_good _ _ h1, by simp only [Ans.pushData_reqB]; exact h2, ?_⟩
  have := gives_moved (r := r.push fut) h1 k hk h3
  simpa only [Rx.push, List.take_append_of_le_length hl, List.drop_append_of_le_length hl] using this

theorem bok_moved {b : File.Body} {pend fut E : List UInt8} {T : Nat}
    (hd : BOk cm dw (2 ^ w) F h body tr tail skip b pend fut E T) (k : Nat)
    (hk : k ≤ b.rcv.cmdRx.dec.numPushAvail) (hl : k ≤ b.rcv.cmdRx.buf.length) :
    BOk cm dw (2 ^ w) F h body tr tail skip (moved b k) pend fut E T := by
  obtain ⟨bdone, brest, srest, rest, tc, gs, tl, h1, h2, h3, h4, h5, h6, h7, ⟨q1, q2, q3, q4⟩, h9⟩ := hd
  exact ⟨bdone, brest, srest, rest, tc, gs, tl, h1, h2, h3, h4, h5, h6, h7,
    ⟨feeds_moved q1 k hk hl, q2, q3, q4.congr rfl rfl rfl rfl⟩, h9⟩

/-! ## A nibble for the worker -/

theorem step_take {κ ι : Type} [DecidableEq κ] [DecidableEq ι] {r : Rx κ ι} (hg : r.dec.Good)
    (h0 : r.dec.numPushAvail = 0) (ch : Choice κ ι) : r.step ch = ((take r ch).1, some (take r ch).2) := by
  simp only [Rx.step, Fast.push_zero hg h0, h0, take, List.drop_zero]
  rfl

theorem take_push {κ ι : Type} [DecidableEq κ] [DecidableEq ι] (r : Rx κ ι) (x : List UInt8) (ch : Choice κ ι) :
    take (r.push x) ch = ((take r ch).1.push x, (take r ch).2) := rfl

theorem held_holdFor (o : Option Codec.Got) : held (holdFor o) = o.toList.filter forwarded := by
  cases o with
  | none => rfl
  | some g =>
    cases g with
    | bswitch k t st => cases k <;> rfl
    | _ => rfl

theorem heldPm_holdFor (o : Option Codec.Got) : heldPm (holdFor o) = 0 := by
  cases o with
  | none => rfl
  | some g =>
    cases g with
    | bswitch k t st => cases k <;> rfl
    | _ => rfl

theorem holdFor_pm {o : Option Codec.Got} {p : Codec.Pm} (h : holdFor o = .decoded (.pm p)) : o = some (.pm p) := by
  cases o with
  | none => cases h
  | some g =>
    cases g with
    | bswitch k t st => cases k <;> cases h
    | pm q => cases h; rfl
    | copy d n => cases h
    | dict z i t => cases h
    | lit n e => cases h

theorem finish_begin (b : Codec.Bk) (p : Codec.Pm) (g : Codec.Got) : (Codec.finish b p g).at_ = .begin := by
  cases g <;> rfl

/-- What a completed command says about the state before and after. -/
theorem coreTake_some {c c' : Codec.Core} {n : Nat} {g : Codec.Got} (ht : Codec.coreTake c n = .ok (c', some g)) :
    c'.at_ = .begin ∧ (isPm g = true → inPm c.at_ = true) := by
  unfold Codec.coreTake at ht
  cases hat : c.at_ with
  | begin =>
    rw [hat] at ht
    simp only at ht
    cases hs : Codec.startTake c n <;> rw [hs] at ht <;> cases ht
  | stop => rw [hat] at ht; cases ht
  | copy s =>
    rw [hat] at ht
    simp only at ht
    cases hs : Codec.copyTake c.bk s n with
    | fail => rw [hs] at ht; cases ht
    | panic => rw [hs] at ht; cases ht
    | ok r =>
      rw [hs] at ht
      simp only [Codec.Res.bind] at ht
      split at ht
      · cases ht; exact ⟨finish_begin _ _ _, by simp [isPm]⟩
      · cases ht
  | dict s =>
    rw [hat] at ht
    simp only at ht
    cases hs : Codec.dictTake s n with
    | fail => rw [hs] at ht; cases ht
    | panic => rw [hs] at ht; cases ht
    | ok r =>
      rw [hs] at ht
      simp only [Codec.Res.bind] at ht
      split at ht
      · cases ht; exact ⟨finish_begin _ _ _, by simp [isPm]⟩
      · cases ht
  | lit s =>
    rw [hat] at ht
    simp only at ht
    cases hs : Codec.litTake c.bk s n with
    | fail => rw [hs] at ht; cases ht
    | panic => rw [hs] at ht; cases ht
    | ok r =>
      rw [hs] at ht
      simp only [Codec.Res.bind] at ht
      split at ht
      · cases ht; exact ⟨finish_begin _ _ _, by simp [isPm]⟩
      · cases ht
  | bswitch k s =>
    rw [hat] at ht
    simp only at ht
    cases hs : Codec.bsTake c.bk k s n with
    | fail => rw [hs] at ht; cases ht
    | panic => rw [hs] at ht; cases ht
    | ok r =>
      rw [hs] at ht
      simp only [Codec.Res.bind] at ht
      split at ht
      · cases ht; exact ⟨finish_begin _ _ _, by simp [isPm]⟩
      · cases ht
  | pm s =>
    rw [hat] at ht
    simp only at ht
    cases hs : Codec.pmTake c.bk c.pm s n with
    | fail => rw [hs] at ht; cases ht
    | panic => rw [hs] at ht; cases ht
    | ok r =>
      rw [hs] at ht
      simp only [Codec.Res.bind] at ht
      split at ht
      · cases ht; exact ⟨finish_begin _ _ _, fun _ => rfl⟩
      · cases ht

/-- The state after a nibble. -/
def nibbled (s : St) (rx : Rx Codec.Key Unit) (c : Codec.Core) (o : Option Codec.Got) : St :=
  { s with b := { s.b with rcv := { s.b.rcv with cmdRx := rx, core := c } }, hold := holdFor o }

theorem nibble_ok {s : St} {pend fut E : List UInt8} {T : Nat}
    (hd : BOk cm dw (2 ^ w) F h body tr tail skip s.abs pend fut E T) (hh : s.hold = .none)
    (h0 : s.b.rcv.cmdRx.dec.numPushAvail = 0) (hns : s.b.rcv.core.at_ ≠ .stop) :
    ∃ a c' o T', Codec.coreAsk s.b.rcv.core = some a ∧
      Codec.coreTake s.b.rcv.core (take s.b.rcv.cmdRx (.plain a.key (some a.speed))).2 = .ok (c', o) ∧
      BOk cm dw (2 ^ w) F h body tr tail skip
        (nibbled s (take s.b.rcv.cmdRx (.plain a.key (some a.speed))).1 c' o).abs pend fut E T' ∧ T' < T := by
  obtain ⟨bdone, brest, srest, rest, tc, gs, tl, h1, h2, h3, h4, h5, h6, h7, ⟨q1, q2, q3, q4⟩, h9⟩ := hd
  have hg : s.b.rcv.cmdRx.dec.Good := q1.good
  have hq : s.abs.rcv.queue = s.b.rcv.queue ++ s.result := by simp [St.abs, hh, held]
  have key : ∀ {a : Codec.Ask} {n : Nat} {tc' : Trace Codec.Key Unit},
      Feeds cm ((.plain a.key (some a.speed), n) :: tc') (s.abs.mux.unread false ++ rest false) s.abs.rcv.cmdRx →
      (take s.b.rcv.cmdRx (.plain a.key (some a.speed))).2 = n ∧
        Feeds cm tc' (s.abs.mux.unread false ++ rest false)
          ((take s.b.rcv.cmdRx (.plain a.key (some a.speed))).1.push (s.data.flatMap Mux.Buf.unread)) := by
    intro a n tc' hf
    have hst : s.abs.rcv.cmdRx.step (.plain a.key (some a.speed)) =
        ((take s.b.rcv.cmdRx (.plain a.key (some a.speed))).1.push (s.data.flatMap Mux.Buf.unread),
          some (take s.b.rcv.cmdRx (.plain a.key (some a.speed))).2) := step_take (r := s.abs.rcv.cmdRx) hg h0 _
    rcases hf.step with ⟨rx, e1, hf'⟩ | ⟨rx, e1, -⟩
    · rw [hst] at e1
      simp only [Prod.mk.injEq, Option.some.injEq] at e1
      rw [e1.1]
      exact ⟨e1.2, hf'⟩
    · rw [hst] at e1
      simp at e1
  cases q2 with
  | stop hs => exact absurd hs hns
  | @more _ c1 a n tr' _ ha ht hrest =>
    obtain ⟨k1, k2⟩ := key q1
    refine ⟨a, c1, none, _, ha, by rw [k1]; exact ht, ⟨bdone, brest, srest, rest, tr', gs, tl, h1, h2, h3, h4, h5, h6, h7,
      ⟨k2, hrest, q3, ?_⟩, rfl⟩, ?_⟩
    · refine q4.congr ?_ rfl rfl rfl
      simp [nibbled, St.abs, hh, held, holdFor]
    · rw [h9]
      simp only [todo, List.length_cons, St.abs, nibbled, hh, held, holdFor]
      omega
  | @got _ c1 a n tr' g gs ha ht hrest =>
    obtain ⟨k1, k2⟩ := key q1
    have hfil : List.filter forwarded (g :: gs) = held (holdFor (some g)) ++ gs.filter forwarded := by
      rw [held_holdFor, Option.toList, ← List.filter_append]; rfl
    refine ⟨a, c1, some g, _, ha, by rw [k1]; exact ht, ⟨bdone, brest, srest, rest, tr', gs, tl, h1, h2, h3, h4, h5, h6, h7,
      ⟨k2, hrest, q3, ?_⟩, rfl⟩, ?_⟩
    · refine q4.congr ?_ rfl rfl rfl
      rw [hfil]
      simp only [nibbled, St.abs, hh, held, List.append_nil, List.append_assoc]
    · rw [h9]
      simp only [todo, hfil, List.length_cons, List.length_append, St.abs, nibbled, hh, held, List.length_nil]
      omega

/-! ## A step of the main side -/

theorem next_ext (r : Rcv) (rx : Rx Codec.Key Unit) (q : List Codec.Got) (g : Codec.Got) :
    Rcv.next dw { r with cmdRx := rx, queue := q } g =
      (Rcv.next dw r g).bind fun y => .ok { y with cmdRx := rx, queue := q } := by
  unfold Rcv.next
  cases g with
  | copy d n => rfl
  | dict z i t => rfl
  | lit n e =>
    simp only
    cases Recode.last8 r.ring <;> rfl
  | bswitch k t st => cases k <;> rfl
  | pm p =>
    simp only
    cases r.lbk.obsPm p <;> rfl

theorem next_frame {r r' : Rcv} {g : Codec.Got} (h : Rcv.next dw r g = .ok r') :
    r'.cmdRx = r.cmdRx ∧ r'.core = r.core ∧ r'.queue = r.queue := by
  unfold Rcv.next at h
  cases g with
  | copy d n => cases h; exact ⟨rfl, rfl, rfl⟩
  | dict z i t => cases h; exact ⟨rfl, rfl, rfl⟩
  | lit n e =>
    simp only at h
    cases hl : Recode.last8 r.ring with
    | none => rw [hl] at h; cases h
    | some b => rw [hl] at h; cases h; exact ⟨rfl, rfl, rfl⟩
  | bswitch k t st => cases k <;> (cases h; exact ⟨rfl, rfl, rfl⟩)
  | pm p =>
    simp only at h
    cases hp : r.lbk.obsPm p with
    | ok l => rw [hp] at h; cases h; exact ⟨rfl, rfl, rfl⟩
    | fail => rw [hp] at h; cases h
    | panic => rw [hp] at h; cases h

/-- The main side does not look at the worker's bytes, nor behind the first command of its queue. -/
theorem main_ext (r : Rcv) (rx : Rx Codec.Key Unit) (x : List Codec.Got) (room : Nat)
    (hor : r.at_ ≠ .idle ∨ r.queue ≠ [] ∨ x = []) :
    Rcv.main dw { r with cmdRx := rx, queue := r.queue ++ x } room =
      (r.main dw room).bind fun y => .ok ({ y.1 with cmdRx := rx, queue := y.1.queue ++ x }, y.2) := by
  unfold Rcv.main
  cases hat : r.at_ with
  | idle =>
    simp only
    cases hq : r.queue with
    | cons g q =>
      simp only [List.cons_append]
      have e := next_ext (dw := dw) { r with queue := q, at_ := .idle } rx (q ++ x) g
      simp only at e
      rw [e]
      have hf : ∀ y, Rcv.next dw { r with queue := q, at_ := .idle } g = .ok y → y.queue = q :=
        fun y hy => (next_frame hy).2.2
      cases hn : Rcv.next dw { r with queue := q, at_ := .idle } g with
      | ok y => simp only [Codec.Res.bind, hf y hn]
      | fail => rfl
      | panic => rfl
    | nil =>
      have hx : x = [] := by
        rcases hor with h | h | h
        · exact absurd hat h
        · exact absurd hq h
        · exact h
      subst hx
      simp only [List.append_nil]
      by_cases hs : r.core.at_ = .stop
      · rw [if_pos hs, if_pos hs]
        cases Recode.flush r.ring room with
        | none => rfl
        | some y =>
          obtain ⟨ring, o, res⟩ := y
          cases res <;> simp [Codec.Res.bind, hq]
      · rw [if_neg hs, if_neg hs]
        simp [Codec.Res.bind, hat, hq]
  | content c =>
    simp only
    by_cases hl : c.left = 0
    · rw [if_pos hl, if_pos hl]; rfl
    · rw [if_neg hl, if_neg hl]
      cases c.ask r.lbk with
      | none => rfl
      | some ch =>
        simp only
        cases r.litRx.step ch with
        | mk rx' on =>
          cases on with
          | none => simp only [Codec.Res.bind, hat]
          | some n => rfl
  | filling c =>
    simp only
    cases Recode.encodeCmd r.ring c room with
    | done y =>
      obtain ⟨ring, o, res⟩ := y
      cases res <;> simp [Codec.Res.bind, hat]
    | panic => rfl
    | spin => rfl
  | finished => simp only [Codec.Res.bind, hat]

theorem main_frame {r r' : Rcv} {room : Nat} {o : List UInt8} (h : r.main dw room = .ok (r', o)) :
    r'.cmdRx = r.cmdRx ∧ r'.core = r.core ∧
      r'.queue = (if r.at_ = .idle then r.queue.tail else r.queue) := by
  unfold Rcv.main at h
  cases hat : r.at_ with
  | idle =>
    rw [hat] at h
    simp only at h
    rw [if_pos rfl]
    cases hq : r.queue with
    | cons g q =>
      rw [hq] at h
      simp only at h
      cases hn : Rcv.next dw { r with queue := q, at_ := .idle } g with
      | ok y =>
        rw [hn] at h
        cases h
        exact next_frame hn
      | fail => rw [hn] at h; cases h
      | panic => rw [hn] at h; cases h
    | nil =>
      rw [hq] at h
      simp only at h
      by_cases hs : r.core.at_ = .stop
      · rw [if_pos hs] at h
        cases hf : Recode.flush r.ring room with
        | none => rw [hf] at h; cases h
        | some y =>
          obtain ⟨ring, o', res⟩ := y
          rw [hf] at h
          cases res <;> cases h <;> exact ⟨rfl, rfl, rfl⟩
      · rw [if_neg hs] at h
        cases h; exact ⟨rfl, rfl, hq⟩
  | content c =>
    rw [hat] at h
    simp only at h
    rw [if_neg (by simp)]
    by_cases hl : c.left = 0
    · rw [if_pos hl] at h; cases h; exact ⟨rfl, rfl, rfl⟩
    · rw [if_neg hl] at h
      cases ha : c.ask r.lbk with
      | none => rw [ha] at h; cases h
      | some ch =>
        rw [ha] at h
        simp only at h
        cases hs : r.litRx.step ch with
        | mk rx' on =>
          rw [hs] at h
          cases on <;> cases h <;> exact ⟨rfl, rfl, rfl⟩
  | filling c =>
    rw [hat] at h
    simp only at h
    rw [if_neg (by simp)]
    cases he : Recode.encodeCmd r.ring c room with
    | done y =>
      obtain ⟨ring, o', res⟩ := y
      rw [he] at h
      cases res <;> cases h <;> exact ⟨rfl, rfl, rfl⟩
    | panic => rw [he] at h; cases h
    | spin => rw [he] at h; cases h
  | finished =>
    rw [hat] at h
    rw [if_neg (by simp)]
    cases h; exact ⟨rfl, rfl, rfl⟩

/-- The same one level up. -/
theorem body_main_ext (s : St) (room : Nat)
    (hor : s.b.rcv.at_ ≠ .idle ∨ s.b.rcv.queue ≠ [] ∨ s.result ++ held s.hold = []) :
    s.abs.main dw room = (s.b.main dw room).bind fun x => .ok (({ s with b := x.1 } : St).abs, x.2) := by
  unfold File.Body.main
  have e := main_ext (dw := dw) { s.b.rcv with litRx := { s.b.rcv.litRx with buf := s.b.mux.unread true } }
    (s.b.rcv.cmdRx.push (s.data.flatMap Mux.Buf.unread)) (s.result ++ held s.hold) room hor
  simp only at e
  simp only [St.abs]
  rw [e]
  cases hm : Rcv.main dw { s.b.rcv with litRx := { s.b.rcv.litRx with buf := s.b.mux.unread true } } room with
  | ok y =>
    have hf := (main_frame hm).1
    simp only [Codec.Res.bind, hf]
  | fail => rfl
  | panic => rfl

theorem take_moves (c : Lit.Content) (l : Lit.Lbk) (n : Nat) (h : c.left ≠ 0) : (c.take l n).2 ≠ c := by
  intro h0
  unfold Lit.Content.take at h0
  cases hh : c.high with
  | none =>
    rw [hh] at h0
    have := congrArg Lit.Content.high h0
    rw [hh] at this
    cases this
  | some k =>
    rw [hh] at h0
    have := congrArg Lit.Content.left h0
    simp only at this
    omega

/-- A step of the main side, with the reason when it makes no progress. -/
theorem main_cases {L : Nat} {tc : Trace Codec.Key Unit} {gs : List Codec.Got} {tl : Trace Lit.Key Bool} {futC futL : List UInt8}
    {r : Rcv} {E : List UInt8} (hL : 8 ≤ L) (room : Nat) (hr : ROk cm dw L F tc gs tl futC futL r E) :
    ∃ r' o tl', r.main dw room = .ok (r', o) ∧ o.length ≤ room ∧
      ROk cm dw L F tc gs tl' futC futL r' (E ++ o) ∧
      todo L F tc gs tl' r' (E ++ o) ≤ todo L F tc gs tl r E ∧
      (∀ c, r.at_ = .content c → (r'.at_ = .content c ∧ futL ≠ []) ∨
        (r'.at_ ≠ .content c ∧ todo L F tc gs tl' r' (E ++ o) < todo L F tc gs tl r E)) ∧
      (∀ c, r.at_ = .filling c → (r'.at_ = .filling c ∧ o.length = room) ∨
        (r'.at_ = .idle ∧ todo L F tc gs tl' r' (E ++ o) < todo L F tc gs tl r E)) ∧
      (r.at_ = .idle → r.queue ≠ [] → todo L F tc gs tl' r' (E ++ o) < todo L F tc gs tl r E) ∧
      (r.at_ = .idle → r.queue = [] → r.core.at_ = .stop →
        (r'.at_ = .finished ∧ E ++ o = F.drop L) ∨ (r'.at_ = .idle ∧ o.length = room)) ∧
      (r.at_ = .finished → r' = r ∧ o = []) := by
  obtain ⟨hc, hp, hl, hm⟩ := hr
  unfold MainOk at hm
  cases hat : r.at_ with
  | idle =>
    rw [hat] at hm
    obtain ⟨H, i, hs, hp2⟩ := hm
    cases hq : r.queue with
    | cons g q =>
      rw [hq, List.cons_append] at hp2
      obtain ⟨r', e1, hm', hrk, k1, k2, k3, k4⟩ := next_step (r := { r with queue := q }) hL hat i hs hp2
      have hlt : todo L F tc gs tl r' (E ++ []) < todo L F tc gs tl r E := by
        have h3 : r'.queue = q := k3
        simp only [todo, h3, hq, hat, List.length_cons, List.append_nil]
        simp only [MainAt.rank] at *
        omega
      refine ⟨r', [], tl, ?_, by simp, ⟨by rw [k1]; exact hc, by rw [k2]; exact hp, by rw [k4]; exact hl, ?_⟩,
        Nat.le_of_lt hlt, by simp, by simp, fun _ _ => hlt, by simp, by simp⟩
      · simp only [hat] at e1
        simp only [Rcv.main, hat, hq, e1, Codec.Res.bind]
      · rw [k3, List.append_nil]
        exact hm'
    | nil =>
      rw [hq, List.nil_append] at hp2
      by_cases hstop : r.core.at_ = .stop
      · have hgs : gs = [] := by
          cases hp with
          | stop _ => rfl
          | more ha _ _ => exact absurd hstop (not_stop ha)
          | got ha _ _ => exact absurd hstop (not_stop ha)
        obtain ⟨ring', o, res, hf, i', hsub, hol, -, hres⟩ := i.flush room
        have hpre : E ++ o <+: F.drop L := i'.prefix hp2.ext
        have hlen := len_le hpre
        rcases hres with ⟨rfl, hpend⟩ | ⟨rfl, hor, -⟩
        · subst hgs
          cases hp2 with
          | nil =>
            have hE : E ++ o = F.drop L := by
              rw [← i'.bytes, Recode.pending_nil i'.good hpend, List.append_nil]
            have hlt : todo L F tc [] [] { r with ring := ring', at_ := .finished } (E ++ o) <
                todo L F tc [] [] r E := by
              simp only [todo, hat, MainAt.rank, List.length_append]
              omega
            refine ⟨{ r with ring := ring', at_ := .finished }, o, [], ?_, hol, ⟨hc, hp, hl, ?_⟩,
              Nat.le_of_lt hlt, by simp, by simp, by simp, fun _ _ _ => Or.inl ⟨rfl, hE⟩, by simp⟩
            · simp only [Rcv.main, hat, hq, if_pos hstop, hf]
            · unfold MainOk
              simp only [hq]
              exact ⟨rfl, hE⟩
        · refine ⟨{ r with ring := ring' }, o, tl, ?_, hol, ⟨hc, hp, hl, ?_⟩, ?_, by simp, by simp, by simp,
            fun _ _ _ => Or.inr ⟨hat, hor⟩, by simp⟩
          · simp only [Rcv.main, hat, hq, if_pos hstop, hf]
          · unfold MainOk
            simp only [hat, hq]
            exact ⟨H, i', hsub.trans hs, hp2⟩
          · simp only [todo, List.length_append]
            omega
      · refine ⟨r, [], tl, ?_, by simp, ⟨hc, hp, hl, ?_⟩, by simp, by simp, by simp, by simp, fun _ _ hn => absurd hn hstop, by simp⟩
        · simp only [Rcv.main, hat, hq, if_neg hstop]
        · unfold MainOk
          simp only [hat, hq, List.append_nil, List.nil_append]
          exact ⟨H, i, hs, hp2⟩
  | content c =>
    rw [hat] at hm
    obtain ⟨H, rest, t1, t2, l', i, hs, hfol, htr, hp2⟩ := hm
    by_cases hleft : c.left = 0
    · obtain ⟨rfl, rfl, rfl⟩ := Lit.follows_end hfol hleft
      have hlt : todo L F tc gs tl { r with at_ := .filling (.lit c.done.reverse) } (E ++ []) <
          todo L F tc gs tl r E := by
        simp only [todo, hat, MainAt.rank, List.append_nil]
        omega
      refine ⟨{ r with at_ := .filling (.lit c.done.reverse) }, [], tl, ?_, by simp, ⟨hc, hp, hl, ?_⟩,
        Nat.le_of_lt hlt, ?_, by simp, by simp, by simp, by simp⟩
      · simp only [Rcv.main, hat, if_pos hleft]
      · unfold MainOk
        simp only [List.append_nil, List.nil_append] at htr hp2 ⊢
        exact ⟨H, trivial, by simpa [hs, Recode.part_zero] using i, by rw [hs]; exact Recode.subOk_zero _,
          by rw [htr]; exact hp2⟩
      · intro c' _
        exact Or.inr ⟨by simp, hlt⟩
    · obtain ⟨ch, n, t1', rest', rfl, hask, hfol', hdone⟩ := Lit.follows_step hfol hleft
      subst htr
      rw [List.cons_append] at hl
      rcases hl.step with ⟨rx, e1, hf⟩ | ⟨rx, e1, -, hfut, hf⟩
      · have hlt : todo L F tc gs (t1' ++ t2)
            { r with litRx := rx, lbk := (c.take r.lbk n).1, at_ := .content (c.take r.lbk n).2 } (E ++ []) <
            todo L F tc gs ((ch, n) :: t1' ++ t2) r E := by
          simp only [todo, hat, MainAt.rank, List.append_nil, List.cons_append, List.length_cons]
          omega
        refine ⟨{ r with litRx := rx, lbk := (c.take r.lbk n).1, at_ := .content (c.take r.lbk n).2 }, [],
          t1' ++ t2, ?_, by simp, ⟨hc, hp, hf, ?_⟩, Nat.le_of_lt hlt, ?_, by simp, by simp, by simp, by simp⟩
        · simp only [Rcv.main, hat, if_neg hleft, hask, e1]
        · unfold MainOk
          simp only [List.append_nil]
          exact ⟨H, rest', t1', t2, l', i, hs, hfol', rfl, by rw [hdone]; exact hp2⟩
        · intro c' hc'
          cases hc'
          refine Or.inr ⟨?_, hlt⟩
          intro h0
          simp only [MainAt.content.injEq] at h0
          exact take_moves c r.lbk n hleft h0
      · refine ⟨{ r with litRx := rx }, [], (ch, n) :: t1' ++ t2, ?_, by simp, ⟨hc, hp, hf, ?_⟩, ?_,
          ?_, by simp, by simp, by simp, by simp⟩
        · simp only [Rcv.main, hat, if_neg hleft, hask, e1]
        · unfold MainOk
          simp only [hat, List.append_nil]
          exact ⟨H, rest, (ch, n) :: t1', t2, l', i, hs, hfol, rfl, hp2⟩
        · simp only [todo, List.append_nil]
          omega
        · intro c' hc'
          cases hc'
          exact Or.inl ⟨hat, hfut⟩
  | filling c =>
    rw [hat] at hm
    obtain ⟨H, hv, i, hs, hp2⟩ := hm
    obtain ⟨ring', o, res, he, hcalled⟩ := Recode.encodeCmd_spec L (by omega) c hv H r.ring E room i hs
    rcases hcalled.cases with ⟨rfl, h1, h2⟩ | ⟨rfl, h1, h2, h3⟩
    · have hlen := len_le (h2.prefix hp2.ext)
      have hlt : todo L F tc gs tl { r with ring := ring', at_ := .idle } (E ++ o) <
          todo L F tc gs tl r E := by
        simp only [todo, hat, MainAt.rank, List.length_append]
        omega
      refine ⟨{ r with ring := ring', at_ := .idle }, o, tl, ?_, hcalled.bound, ⟨hc, hp, hl, ?_⟩,
        Nat.le_of_lt hlt, by simp, fun _ _ => Or.inr ⟨rfl, hlt⟩, by simp, by simp, by simp⟩
      · simp only [Rcv.main, hat, he]
      · exact ⟨_, h2, h1, hp2⟩
    · have hlen := len_le (h3.prefix (T := F) (by
        obtain ⟨t, ht⟩ := hp2.ext
        obtain ⟨u, hu⟩ := Recode.part_prefix H c ring'.sub h2
        exact ⟨u ++ t, by rw [ht, hu, List.append_assoc]⟩))
      refine ⟨{ r with ring := ring' }, o, tl, ?_, hcalled.bound, ⟨hc, hp, hl, ?_⟩, ?_, by simp, ?_, by simp, by simp, by simp⟩
      · simp only [Rcv.main, hat, he]
      · unfold MainOk
        simp only [hat]
        exact ⟨H, hv, h3, h2, hp2⟩
      · simp only [todo, List.length_append]
        omega
      · intro c' hc'
        cases hc'
        exact Or.inl ⟨hat, h1⟩
  | finished =>
    refine ⟨r, [], tl, ?_, by simp, ⟨hc, hp, hl, ?_⟩, by simp, by simp, by simp, by simp, by simp, fun _ => ⟨rfl, rfl⟩⟩
    · simp only [Rcv.main, hat]
    · unfold MainOk
      rw [hat] at hm ⊢
      simpa using hm

/-- The same for the whole decompressor. -/
theorem bmain_ok (hw : 8 ≤ 2 ^ w) (room : Nat) {b : File.Body} {pend fut E : List UInt8} {T : Nat}
    (hd : BOk cm dw (2 ^ w) F h body tr tail skip b pend fut E T) :
    ∃ b' o T', b.main dw room = .ok (b', o) ∧ o.length ≤ room ∧
      BOk cm dw (2 ^ w) F h body tr tail skip b' pend fut (E ++ o) T' ∧ T' ≤ T ∧
      b'.mux.eof = b.mux.eof ∧ b'.mux.btd = b.mux.btd ∧ b'.mux.unread false = b.mux.unread false ∧ b'.sum = b.sum ∧ b'.crc = b.crc ∧
      (∀ c, b.rcv.at_ = .content c → (b'.rcv.at_ = .content c ∧ b.mux.eof ≠ .done) ∨
        (b'.rcv.at_ ≠ .content c ∧ T' < T)) ∧
      (∀ c, b.rcv.at_ = .filling c → (b'.rcv.at_ = .filling c ∧ o.length = room) ∨ (b'.rcv.at_ = .idle ∧ T' < T)) ∧
      (b.rcv.at_ = .idle → b.rcv.queue ≠ [] → T' < T) ∧
      (b.rcv.at_ = .idle → b.rcv.queue = [] → b.rcv.core.at_ = .stop →
        (b'.rcv.at_ = .finished ∧ E ++ o = F.drop (2 ^ w)) ∨ (b'.rcv.at_ = .idle ∧ o.length = room)) ∧
      (b.rcv.at_ = .finished → b'.rcv.at_ = .finished ∧ o = []) := by
  obtain ⟨bdone, brest, srest, rest, tc, gs, tl, h1, h2, h3, h4, h5, h6, h7, h8, h9⟩ := hd
  obtain ⟨r1, o, tl', e1, k1, k2, k3, c1, c2, c3, c4, c5⟩ := main_cases hw room h8
  obtain ⟨k, hk⟩ := main_buf e1
  simp only at hk
  rw [drop_min] at hk
  obtain ⟨k', hk'⟩ : ∃ k', k' = min k (b.mux.unread true).length := ⟨_, rfl⟩
  rw [← hk'] at hk
  have hlen : (b.mux.unread true).length - r1.litRx.buf.length = k' := by
    rw [hk, List.length_drop]; omega
  unfold File.Body.main
  simp only
  rw [e1]
  simp only [Codec.Res.bind]
  rw [hlen]
  obtain ⟨m1, m2, m3, m4, m5⟩ := unread_consume h5 true k' (by omega)
  have hr1 : r1 = { r1 with litRx := { r1.litRx with buf := (b.mux.consume true k').unread true } } := by
    rw [m2, ← hk]
  have hT : ∀ {a b : Nat}, a < b → brest.length + srest.length + a < brest.length + srest.length + b := by omega
  refine ⟨_, o, _, rfl, k1, ⟨bdone, brest, srest, rest, tc, gs, tl', h1, h2, h3, h4, m1, ?_, h7, ?_, rfl⟩, ?_,
    m5, m4, m3 false (by simp), rfl, rfl, ?_, ?_, ?_, c4, ?_⟩
  · refine h6.congr m4 m5 (fun i => if i then (b.mux.unread true).take k' else []) fun i => ?_
    cases i with
    | false => rw [m3 false (by simp)]; rfl
    | true => rw [m2]; simp
  · simp only
    rw [← hr1, m3 false (by simp)]
    exact k2
  · rw [h9]
    exact Nat.add_le_add_left k3 _
  · intro c hc
    rcases c1 c hc with ⟨u1, u2⟩ | ⟨u1, u2⟩
    · refine Or.inl ⟨u1, fun hdone => u2 ?_⟩
      have hbr : brest = [] := by
        cases hq : brest with
        | nil => rfl
        | cons z zs => rw [hq] at h6; exact absurd hdone h6.cons.1
      rw [hbr] at h6
      exact h6.nil.2 true
    · exact Or.inr ⟨u1, by rw [h9]; exact hT u2⟩
  · intro c hc
    rcases c2 c hc with u | ⟨u1, u2⟩
    · exact Or.inl u
    · exact Or.inr ⟨u1, by rw [h9]; exact hT u2⟩
  · intro a1 a2
    rw [h9]; exact hT (c3 a1 a2)
  · intro a1
    obtain ⟨u1, u2⟩ := c5 a1
    exact ⟨by rw [u1]; exact a1, u2⟩

end Divans.Call
