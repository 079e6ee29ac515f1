import Verif.CallRun
import Verif.RecodeAny

/-!
# A call of the decompressor on any bytes

`Verif.CallRun` shows that a call returns when the bytes are those of a good file.  Here the bytes are
arbitrary: what is left of the invariant is the state of the queues and of the indices, and what bounds the
steps of a call is the number of nibbles that can come out of the bytes there are.
-/

namespace Divans.Call
open Divans.Adaptive Divans.Pipe Divans.File

variable {dw : Nat → Nat → Nat → List UInt8} {skip : Bool} {L : Nat}

/-! ## The nibbles in the bytes -/

/-- Nibbles an entropy decoder can give before it wants a new chunk. -/
def inChunk (d : Ans.Dec) : Nat := if 4 < d.reqA then 0 else 65536 - d.symCount

theorem pushData_cnt (d : Ans.Dec) (x : List UInt8) :
    (d.pushData x).1.symCount = d.symCount ∨ (d.pushData x).1.symCount = 0 := by
  unfold Ans.Dec.pushData Ans.Dec.pushRare Ans.Dec.pushReallyRare
  split_ifs <;> simp

theorem pushData_low (d : Ans.Dec) (x : List UInt8) (h : d.reqA ≤ 4) : (d.pushData x).1.symCount = d.symCount := by
  unfold Ans.Dec.pushData Ans.Dec.pushRare Ans.Dec.pushReallyRare
  split_ifs <;> first | rfl | omega

/-- Bytes that are taken pay for the nibbles they make possible. -/
theorem inChunk_push (d : Ans.Dec) (x : List UInt8) (h : d.Good) :
    inChunk (d.pushData x).1 ≤ inChunk d + 65536 * (d.pushData x).2 := by
  have hr := Ans.pushData_reqA d x h
  have hc := Ans.pushData_count d x h
  unfold inChunk
  by_cases h4 : d.reqA ≤ 4
  · rw [pushData_low d x h4, if_neg (show ¬ 4 < d.reqA by omega)]
    split <;> omega
  · rw [if_pos (show 4 < d.reqA by omega)]
    by_cases h0 : (d.pushData x).2 = 0
    · rw [if_pos]
      · omega
      · rw [hr]
        have hav : d.numPushAvail ≠ 0 := by
          unfold Ans.Dec.numPushAvail
          unfold Ans.Dec.Good at h
          split_ifs <;> omega
        have hx : x.length = 0 := by omega
        rw [if_neg (by omega)]
        split <;> omega
    · have : (if 4 < (d.pushData x).1.reqA then 0 else 65536 - (d.pushData x).1.symCount) ≤ 65536 := by
        split <;> omega
      omega

/-- A nibble is one of those of its chunk. -/
theorem inChunk_advance {d : Ans.Dec} (hb : d.reqB ≤ 1) (hc : d.symCount < 65536) (h0 : d.reqA = 0) (sl : Ans.Slot) :
    inChunk (d.advance sl) < inChunk d ∧ (d.advance sl).symCount < 65536 := by
  have h1 : Ans.symbolsPerChunk = 65536 := by decide +kernel
  unfold inChunk
  rw [if_neg (show ¬ 4 < d.reqA by omega)]
  by_cases hl : d.symCount = Ans.symbolsPerChunk - 1
  · have hr : (d.advance sl).reqA = d.reqB ||| (1 <<< 3) := by simp [Ans.Dec.advance, hl]
    have hs : (d.advance sl).symCount = (d.symCount + 1) % 2 ^ 16 := rfl
    have : d.reqB = 0 ∨ d.reqB = 1 := by omega
    rw [hr, hs]
    refine ⟨?_, Nat.mod_lt _ (by decide)⟩
    rw [if_pos]
    · omega
    · rcases this with h | h <;> rw [h] <;> decide
  · have hr : (d.advance sl).reqA = d.reqB := by simp [Ans.Dec.advance, hl]
    have hs : (d.advance sl).symCount = (d.symCount + 1) % 2 ^ 16 := rfl
    rw [hr, hs, if_neg (by omega), Nat.mod_eq_of_lt (by omega)]
    omega

/-! ## What always holds -/

/-- What holds of a decompressor with window `L` after any bytes. -/
structure Live (L : Nat) (s : St) : Prop where
  ext : Ext s
  good : s.b.rcv.cmdRx.dec.Good
  reqB : s.b.rcv.cmdRx.dec.reqB ≤ 1
  cnt : s.b.rcv.cmdRx.dec.symCount < 65536
  mux : s.b.mux.Ok
  ring : Recode.Good s.b.rcv.ring
  len : s.b.rcv.ring.len = L
  fin : s.b.rcv.at_ = .finished → s.b.rcv.core.at_ = .stop
  sum8 : s.b.sum.length ≤ 8
  sum : s.b.sum ≠ [] → s.b.mux.eof = .done
  crc : ∃ x, s.b.crc = Crc.crc32c x

/-- Bytes of the command stream on their way. -/
def St.bytes (s : St) : Nat :=
  (s.b.mux.unread false).length + (s.data.map fun d => d.unread.length).sum + s.b.rcv.cmdRx.buf.length

/-- A bound on the nibbles the worker can still read, with `p` bytes more. -/
def nibbles (s : St) (p : Nat) : Nat := 65537 * (p + s.bytes) + inChunk s.b.rcv.cmdRx.dec

/-- Steps of the main side with what it is doing. -/
def atCost : MainAt → Nat
  | .idle => 0
  | .content c => 4 * c.left + (if c.high = none then 3 else 2)
  | .filling _ => 1
  | .finished => 0

/-- Steps of the main side with a command. -/
def cmdCost : Codec.Got → Nat
  | .lit n _ => 4 * n + 4
  | _ => 2

/-- Steps of the main side with commands. -/
def cmdsCost (l : List Codec.Got) : Nat := (l.map cmdCost).sum

theorem cmdsCost_append (a b : List Codec.Got) : cmdsCost (a ++ b) = cmdsCost a + cmdsCost b := by simp [cmdsCost]

/-- Everything there is to be done before the next nibble of the worker. -/
def St.chores (s : St) : Nat :=
  s.load + s.hold.weight + s.maps + atCost s.b.rcv.at_ + cmdsCost s.b.rcv.queue + cmdsCost s.result + cmdsCost (held s.hold)

/-! ## The worker -/

theorem pull_bytes (s : St) : s.pull.bytes = s.bytes ∧ s.pull.b.rcv.ring = s.b.rcv.ring := by
  unfold St.pull
  by_cases hb : s.b.rcv.cmdRx.buf ≠ []
  · rw [if_pos hb]; exact ⟨rfl, rfl⟩
  rw [if_neg hb]
  rw [Decidable.not_not] at hb
  by_cases hk : s.mem ≠ [] ∧ 2 ≤ s.back.length
  · rw [if_pos hk]; exact ⟨rfl, rfl⟩
  rw [if_neg hk]
  simp only
  by_cases hm : s.mem = []
  · simp only [if_pos hm]
    cases hd : s.data with
    | nil => exact ⟨by simp only [St.bytes, hd], rfl⟩
    | cons d ds =>
      refine ⟨?_, rfl⟩
      simp only [St.bytes, St.setRx, hb, hd, List.map_cons, List.sum_cons, List.length_nil]
      omega
  · simp only [if_neg hm]
    cases hd : s.data with
    | nil => exact ⟨by simp only [St.bytes, hd], rfl⟩
    | cons d ds =>
      refine ⟨?_, rfl⟩
      simp only [St.bytes, St.setRx, hb, hd, List.map_cons, List.sum_cons, List.length_nil]
      omega

theorem fill_live {s : St} (h : Live L s) : Live L s.fill.1 ∧ ∀ p, nibbles s.fill.1 p ≤ nibbles s p := by
  obtain ⟨f1, f2, -⟩ := fill_spec h.ext h.good
  obtain ⟨p1, p2⟩ := pull_bytes s
  obtain ⟨g1, g2, g3, g4, g5, g6, g7, g8, g9, g10, g11⟩ := h
  have p3 := (pull_spec g1).2.2.1
  obtain ⟨r1, r2⟩ : s.fill.1.b.rcv.ring = s.b.rcv.ring ∧ s.fill.1.b.rcv.cmdRx.dec.Good ∧ s.fill.1.b.rcv.cmdRx.dec.reqB ≤ 1 ∧
      s.fill.1.b.rcv.cmdRx.dec.symCount < 65536 ∧ ∀ p, nibbles s.fill.1 p ≤ nibbles s p := by
    unfold St.fill
    by_cases h0 : s.b.rcv.cmdRx.dec.numPushAvail = 0
    · rw [if_pos h0]
      exact ⟨rfl, g2, g3, g4, fun _ => Nat.le_refl _⟩
    rw [if_neg h0]
    simp only
    generalize s.pull = t at *
    rw [← p3] at g2 g3 g4
    have hc := pushData_cnt t.b.rcv.cmdRx.dec t.b.rcv.cmdRx.buf
    refine ⟨p2, Ans.pushData_good _ _ g2, by simp only [St.setRx, Ans.pushData_reqB]; exact g3, ?_, fun p => ?_⟩
    · simp only [St.setRx]
      rcases hc with hc | hc <;> rw [hc] <;> omega
    · have hn := Ans.pushData_count t.b.rcv.cmdRx.dec t.b.rcv.cmdRx.buf g2
      have hi := inChunk_push t.b.rcv.cmdRx.dec t.b.rcv.cmdRx.buf g2
      simp only [nibbles]
      rw [← p1, ← p3]
      simp only [St.bytes, St.setRx, List.length_drop]
      omega
  obtain ⟨r2, r3, r4, r5⟩ := r2
  refine ⟨⟨f1, r2, r3, r4, by rw [f2.mux]; exact g5, by rw [r1]; exact g6, by rw [r1]; exact g7, ?_, by rw [f2.sum]; exact g9, ?_, by rw [f2.crc]; exact g11⟩, r5⟩
  · rw [f2.at_, f2.core]; exact g8
  · rw [f2.sum, f2.mux]; exact g10

theorem avail_zero {d : Ans.Dec} (hg : d.Good) (h : d.numPushAvail = 0) : d.reqA = 0 := by
  unfold Ans.Dec.Good at hg
  unfold Ans.Dec.numPushAvail at h
  split_ifs at h <;> omega

/-- Less to be done: fewer nibbles to be read, or as many and fewer chores. -/
def Less (s : St) (p : Nat) (t : St) (q : Nat) : Prop :=
  nibbles s p < nibbles t q ∨ (nibbles s p = nibbles t q ∧ 8 * p + s.chores < 8 * q + t.chores)

/-- No more to be done. -/
def NoMore (s : St) (p : Nat) (t : St) (q : Nat) : Prop :=
  nibbles s p < nibbles t q ∨ (nibbles s p = nibbles t q ∧ 8 * p + s.chores ≤ 8 * q + t.chores)

/-- A step of the worker. -/
theorem work_live {s t : St} {p : Option Pause} (hl : Live L s) (hw : s.work = .ok (t, p)) (m : Nat) :
    Live L t ∧ t.b.mux = s.b.mux ∧ t.b.sum = s.b.sum ∧ t.lent = s.lent ∧ NoMore t m s m ∧ (p = none → Less t m s m) ∧
      (p = some .needsInput → Less t m s m ∨ t.back ≠ [] ∨ s.lent = 0) ∧
      (p = some .needsOutput → s.result ≠ [] ∨ s.b.rcv.queue ≠ []) ∧
      (p = some .success → s.b.rcv.core.at_ = .stop) ∧
      (p = some .needsOutput ∨ p = some .success → t = s) := by
  have he := hl.ext
  obtain ⟨f1, f2, f3, -, f7, f8⟩ := fill_spec he hl.good
  obtain ⟨l1, l2⟩ := fill_live hl
  have l2 := l2 m
  have hch : s.fill.1.chores + s.load = s.chores + s.fill.1.load := by
    simp only [St.chores, f2.hold, f2.maps, f2.at_, f2.queue, f2.result]; omega
  have hno : NoMore s.fill.1 m s m := by
    unfold NoMore; omega
  have hwait : s.fill.2 = false → Less s.fill.1 m s m ∨ s.fill.1.back ≠ [] ∨ s.lent = 0 := by
    intro hf
    obtain ⟨u1, u2⟩ := f8 hf
    rcases u2 with u | u | u
    · left; unfold Less; omega
    · exact Or.inr (Or.inl u)
    · exact Or.inr (Or.inr u)
  have hrefl : NoMore s m s m := Or.inr ⟨rfl, Nat.le_refl _⟩
  unfold St.work at hw
  cases hh : s.hold with
  | ready g =>
    rw [hh] at hw
    simp only at hw
    have hT : s.b.rcv.core.at_ ≠ .stop := fun h0 => by
      have := he.stop h0; rw [hh] at this; cases this
    by_cases hc : s.result.length < 256 ∧ (isPm g = true → (s.result.filter isPm).length < 2)
    · rw [if_pos hc] at hw
      simp only [Codec.Res.ok.injEq, Prod.mk.injEq] at hw
      obtain ⟨rfl, rfl⟩ := hw
      have hlt : Less { s with result := s.result ++ [g], hold := .none } m s m := by
        right
        refine ⟨rfl, ?_⟩
        simp only [St.chores, hh, St.load, Hold.weight, held, cmdsCost_append]
        simp only [cmdsCost, List.map_nil, List.sum_nil]
        omega
      obtain ⟨-, d2, d3, d4, d5, d6, d7, d8, d9, d10, d11⟩ := hl
      refine ⟨⟨?_, d2, d3, d4, d5, d6, d7, d8, d9, d10, d11⟩, rfl, rfl, rfl, ?_, fun _ => hlt, by simp, by simp, by simp, by simp⟩
      · obtain ⟨g1, g2, g3, g4, g5, g6, g7, g8, g9⟩ := he
        refine ⟨g1, g2, g3, g4, g5, ?_, by simp, fun _ => rfl, fun hx => absurd (g9 hx).1 hT⟩
        rw [hh] at g6
        simp only [heldPm, pms_append, pms_one] at g6 ⊢
        omega
      · rcases hlt with h | h
        · exact Or.inl h
        · exact Or.inr ⟨h.1, Nat.le_of_lt h.2⟩
    · rw [if_neg hc] at hw
      simp only [Codec.Res.ok.injEq, Prod.mk.injEq] at hw
      obtain ⟨rfl, rfl⟩ := hw
      refine ⟨hl, rfl, rfl, rfl, hrefl, by simp, by simp, fun _ => ?_, by simp, fun _ => rfl⟩
      left
      intro h0
      apply hc
      rw [h0]
      exact ⟨by simp, fun _ => by simp⟩
  | decoded g =>
    rw [hh] at hw
    simp only at hw
    have hT : s.b.rcv.core.at_ ≠ .stop := fun h0 => by
      have := he.stop h0; rw [hh] at this; cases this
    cases hf : s.fill.2 with
    | true =>
      rw [hf] at hw
      simp only [if_true, Codec.Res.ok.injEq, Prod.mk.injEq] at hw
      obtain ⟨rfl, rfl⟩ := hw
      have hlt : Less { s.fill.1 with hold := .ready g, map := s.fill.1.map && !isPm g } m s m := by
        have e1 : nibbles { s.fill.1 with hold := .ready g, map := s.fill.1.map && !isPm g } m = nibbles s.fill.1 m := rfl
        have e2 : ({ s.fill.1 with hold := .ready g, map := s.fill.1.map && !isPm g } : St).chores + 1 = s.fill.1.chores := by
          simp only [St.chores, f2.hold, hh, St.load, Hold.weight, held]; omega
        unfold Less
        rw [e1]
        omega
      obtain ⟨-, d2, d3, d4, d5, d6, d7, d8, d9, d10, d11⟩ := l1
      refine ⟨⟨?_, d2, d3, d4, d5, d6, d7, d8, d9, d10, d11⟩, f2.mux, f2.sum, f2.lent, ?_, fun _ => hlt, by simp, by simp, by simp, by simp⟩
      · obtain ⟨g1, g2, g3, g4, g5, g6, g7, g8, g9⟩ := f1
        refine ⟨g1, g2, g3, g4, g5, ?_, by simp, ?_, ?_⟩
        · rw [f2.hold, hh] at g6
          simp only [heldPm] at g6 ⊢
          cases hp : isPm g with
          | false => simpa [hp] using g6
          | true =>
            have hm : s.fill.1.map = true := by
              cases g with
              | pm p => exact g7 p (by rw [f2.hold, hh])
              | _ => cases hp
            rw [hm] at g6
            simp only [Bool.toNat_true] at g6
            simp [hm]
            omega
        · intro h0
          rw [f2.core] at h0
          exact absurd h0 hT
        · intro hx
          have := (g9 hx).1
          rw [f2.core] at this
          exact absurd this hT
      · rcases hlt with h | h
        · exact Or.inl h
        · exact Or.inr ⟨h.1, Nat.le_of_lt h.2⟩
    | false =>
      rw [hf] at hw
      simp only [Bool.false_eq_true, if_false, Codec.Res.ok.injEq, Prod.mk.injEq] at hw
      obtain ⟨rfl, rfl⟩ := hw
      exact ⟨l1, f2.mux, f2.sum, f2.lent, hno, by simp, fun _ => hwait hf, by simp, by simp, by simp⟩
  | none =>
    rw [hh] at hw
    simp only at hw
    by_cases hs : s.b.rcv.core.at_ = .stop
    · rw [if_pos hs] at hw
      simp only [Codec.Res.ok.injEq, Prod.mk.injEq] at hw
      obtain ⟨rfl, rfl⟩ := hw
      exact ⟨hl, rfl, rfl, rfl, hrefl, by simp, by simp, by simp, fun _ => hs, fun _ => rfl⟩
    rw [if_neg hs] at hw
    by_cases hp : (inPm s.b.rcv.core.at_ && !s.map) = true
    · rw [if_pos hp] at hw
      have hmap : s.map = false := by
        simp only [Bool.and_eq_true, Bool.not_eq_true'] at hp; exact hp.2
      have hm := he.maps
      rw [hh, hmap] at hm
      simp only [heldPm, Bool.toNat_false] at hm
      by_cases h0 : s.maps = 0
      · rw [if_pos h0] at hw
        simp only [Codec.Res.ok.injEq, Prod.mk.injEq] at hw
        obtain ⟨rfl, rfl⟩ := hw
        refine ⟨hl, rfl, rfl, rfl, hrefl, by simp, by simp, fun _ => ?_, by simp, fun _ => rfl⟩
        by_cases hr : s.result = []
        · right
          intro hq
          rw [h0, hr, hq] at hm
          simp [pms] at hm
        · exact Or.inl hr
      · rw [if_neg h0] at hw
        have hs' : (⟨s.b, s.mem, Hold.none, true, s.data, s.maps - 1, s.result, s.back, s.sawEnd, s.lent⟩ : St) =
            { s with maps := s.maps - 1, map := true } := by simp [hh]
        rw [hs'] at hw
        simp only [Codec.Res.ok.injEq, Prod.mk.injEq] at hw
        obtain ⟨rfl, rfl⟩ := hw
        have hlt : Less { s with maps := s.maps - 1, map := true } m s m := by
          right
          refine ⟨rfl, ?_⟩
          simp only [St.chores, St.load]; omega
        obtain ⟨-, d2, d3, d4, d5, d6, d7, d8, d9, d10, d11⟩ := hl
        refine ⟨⟨?_, d2, d3, d4, d5, d6, d7, d8, d9, d10, d11⟩, rfl, rfl, rfl, ?_, fun _ => hlt, by simp, by simp, by simp, by simp⟩
        · obtain ⟨g1, g2, g3, g4, g5, g6, g7, g8, g9⟩ := he
          refine ⟨g1, g2, g3, g4, g5, ?_, fun _ _ => rfl, g8, g9⟩
          rw [hh, hmap] at g6
          simp only [heldPm, Bool.toNat_false, Bool.toNat_true, hh] at g6 ⊢
          omega
        · rcases hlt with h | h
          · exact Or.inl h
          · exact Or.inr ⟨h.1, Nat.le_of_lt h.2⟩
    rw [if_neg hp] at hw
    cases hf : s.fill.2 with
    | false =>
      rw [hf] at hw
      simp only [Bool.false_eq_true, if_false, Codec.Res.ok.injEq, Prod.mk.injEq] at hw
      obtain ⟨rfl, rfl⟩ := hw
      exact ⟨l1, f2.mux, f2.sum, f2.lent, hno, by simp, fun _ => hwait hf, by simp, by simp, by simp⟩
    | true =>
      rw [hf] at hw
      simp only [if_true] at hw
      obtain ⟨-, d2, d3, d4, d5, d6, d7, d8, d9, d10, d11⟩ := l1
      have h0 : s.fill.1.b.rcv.cmdRx.dec.reqA = 0 := by
        rw [f7] at hf; exact avail_zero d2 (by simpa using hf)
      cases hask : Codec.coreAsk s.fill.1.b.rcv.core with
      | none => rw [hask] at hw; cases hw
      | some a =>
        rw [hask] at hw
        simp only at hw
        cases htk : Codec.coreTake s.fill.1.b.rcv.core (take s.fill.1.b.rcv.cmdRx (.plain a.key (some a.speed))).2 with
        | fail => rw [htk] at hw; cases hw
        | panic => rw [htk] at hw; cases hw
        | ok y =>
          obtain ⟨c', o⟩ := y
          rw [htk] at hw
          simp only [Codec.Res.bind, Codec.Res.ok.injEq, Prod.mk.injEq] at hw
          obtain ⟨rfl, rfl⟩ := hw
          obtain ⟨slot, hsl⟩ : ∃ slot, (take s.fill.1.b.rcv.cmdRx (.plain a.key (some a.speed))).1.dec =
              s.fill.1.b.rcv.cmdRx.dec.advance slot := ⟨_, rfl⟩
          have hbuf : (take s.fill.1.b.rcv.cmdRx (.plain a.key (some a.speed))).1.buf = s.fill.1.b.rcv.cmdRx.buf := rfl
          obtain ⟨i1, i2⟩ := inChunk_advance d3 d4 h0 slot
          obtain ⟨j1, j2⟩ := advance_good d3 slot
          generalize (take s.fill.1.b.rcv.cmdRx (.plain a.key (some a.speed))).1 = rx at *
          have key : nibbles { s.fill.1 with
              b := { s.fill.1.b with rcv := { s.fill.1.b.rcv with cmdRx := rx, core := c' } }, hold := holdFor o } m <
              nibbles s m := by
            refine Nat.lt_of_lt_of_le ?_ l2
            simp only [nibbles, St.bytes, hbuf, hsl]
            omega
          refine ⟨⟨?_, ?_, ?_, ?_, d5, d6, d7, ?_, d9, d10, d11⟩, f2.mux, f2.sum, f2.lent, Or.inl key, fun _ => Or.inl key,
            by simp, by simp, by simp, by simp⟩
          · obtain ⟨g1, g2, g3, g4, g5, g6, g7, g8, g9⟩ := f1
            refine ⟨g1, g2, g3, by simp only [hbuf]; exact g4, g5, ?_, ?_, ?_, ?_⟩
            · rw [f2.hold, hh] at g6
              simp only [heldPm_holdFor]
              exact g6
            · intro p hpm
              have ho := holdFor_pm hpm
              subst ho
              have := (coreTake_some htk).2 rfl
              rw [f2.core] at this
              rw [this] at hp
              simp only [Bool.true_and, Bool.not_eq_true', Bool.not_eq_false] at hp
              exact f2.map.trans hp
            · intro hst
              simp only at hst
              cases o with
              | none => rfl
              | some g => rw [(coreTake_some htk).1] at hst; cases hst
            · intro hx
              have := (g9 hx).1
              rw [f2.core] at this
              exact absurd this hs
          · simp only [hsl]; exact j1
          · simp only [hsl]; exact j2
          · simp only [hsl]; exact i2
          · intro hx
            have := d8 hx
            rw [f2.core] at this
            exact absurd this hs

/-! ## Buffers -/

theorem push_any {s t : St} (hm : s.b.mux.Ok) (he : Ext s) (hp : s.push = some t) :
    t.b.mux.Ok ∧ Ext t ∧ t.load < s.load ∧ t.bytes = s.bytes ∧ t.lent = s.lent + 1 ∧ t.back = s.back ∧ Kept s t ∧ t.b.crc = s.b.crc := by
  unfold St.push at hp
  by_cases hc : s.data.length < 2 ∧ s.b.mux.unread false ≠ []
  · rw [if_pos hc] at hp
    obtain ⟨hc1, hc2⟩ := hc
    obtain ⟨k1, k2, k3, k4, k5, k6⟩ := takeBuf_spec (m := s.b.mux) hm false
    cases hp
    obtain ⟨g1, g2, g3, g4, g5, g6, g7, g8, g9⟩ := he
    have hpos : 0 < (s.b.mux.unread false).length := List.length_pos_iff.mpr hc2
    refine ⟨k1, ?_, ?_, ?_, rfl, rfl, ⟨rfl, rfl, k6, k5, rfl, rfl, rfl, rfl⟩, rfl⟩
    · refine ⟨by simp only [List.length_append, List.length_singleton]; omega, g2, ?_, g4, ?_, g6, g7, g8, g9⟩
      · intro d hd
        simp only [List.mem_append, List.mem_singleton] at hd
        rcases hd with hd | rfl
        · exact g3 d hd
        · rw [k2]; exact hc2
      · simp only [List.length_append, List.length_singleton]; omega
    · simp only [St.load, k3, List.length_nil, List.map_append, List.map_cons, List.map_nil, List.sum_append, List.sum_cons, List.sum_nil, k2]
      omega
    · simp only [St.bytes, k3, List.length_nil, List.map_append, List.map_cons, List.map_nil, List.sum_append, List.sum_cons, List.sum_nil, k2]
      omega
  · rw [if_neg hc] at hp; cases hp

theorem push_back {s s2 : St} (ms : List (List UInt8)) (hp : s.push = some s2) :
    ({ s with back := ms } : St).push = some { s2 with back := ms } := by
  unfold St.push at hp ⊢
  by_cases hc : s.data.length < 2 ∧ s.b.mux.unread false ≠ []
  · rw [if_pos hc] at hp
    rw [if_pos hc]
    cases hp
    rfl
  · rw [if_neg hc] at hp; cases hp

theorem giveBack_any : ∀ (ms : List (List UInt8)) {s : St} (need : Bool),
    s.b.mux.Ok → Ext { s with back := ms } → s.back = [] →
    ∃ t need', St.giveBack ms s need = some (t, need') ∧ t.b.mux.Ok ∧ Ext t ∧ Kept s t ∧ t.load ≤ s.load ∧ t.bytes = s.bytes ∧
      t.b.crc = s.b.crc := by
  intro ms
  induction ms with
  | nil =>
    intro s need hm he hb
    have hs : ({ s with back := [] } : St) = s := by rw [← hb]
    rw [hs] at he
    exact ⟨s, need, rfl, hm, he, ⟨rfl, rfl, rfl, rfl, rfl, rfl, rfl, rfl⟩, Nat.le_refl _, rfl, rfl⟩
  | cons m ms ih =>
    intro s need hm he hb
    have hl := he.lent
    simp only [List.length_cons] at hl
    rw [St.giveBack, if_neg (by omega)]
    simp only
    have he1 : Ext { ({ s with lent := s.lent - 1 } : St) with back := ms } := by
      obtain ⟨g1, g2, g3, g4, g5, g6, g7, g8, g9⟩ := he
      simp only [List.length_cons] at g2
      exact ⟨g1, by simp only; omega, g3, g4, by simp only; omega, g6, g7, g8, g9⟩
    obtain ⟨s1, hs1⟩ : ∃ s1 : St, s1 = { s with lent := s.lent - 1 } := ⟨_, rfl⟩
    rw [← hs1] at he1 ⊢
    have hb1 : s1.back = [] := by rw [hs1]; exact hb
    have hm1 : s1.b.mux.Ok := by rw [hs1]; exact hm
    have hk1 : Kept s s1 := by rw [hs1]; exact ⟨rfl, rfl, rfl, rfl, rfl, rfl, rfl, rfl⟩
    have hld1 : s1.load = s.load := by rw [hs1]; rfl
    have hby1 : s1.bytes = s.bytes := by rw [hs1]; rfl
    have hcr1 : s1.b.crc = s.b.crc := by rw [hs1]
    unfold St.refill
    cases hp : s1.push with
    | some s2 =>
      simp only
      have hp' := push_back ms hp
      obtain ⟨p1, p2, p3, p4, p5, p6, p7, p8⟩ := push_any (s := { s1 with back := ms }) hm1 he1 hp'
      have hback : s2.back = [] := by
        unfold St.push at hp
        by_cases hc : s1.data.length < 2 ∧ s1.b.mux.unread false ≠ []
        · rw [if_pos hc] at hp; cases hp; exact hb1
        · rw [if_neg hc] at hp; cases hp
      have hld2 : s2.load < s1.load := by
        simp only [St.load] at p3 ⊢
        rw [hback, hb1]
        simp only [List.length_nil]
        omega
      have hby2 : s2.bytes = s1.bytes := p4
      obtain ⟨k1, k2, k5, k6⟩ := recycle_spec (m := s2.b.mux) p1 false m
      obtain ⟨t, need', e1, e2, e3, e4, e5, e6, e7⟩ := ih (s := { s2 with b := { s2.b with mux := s2.b.mux.recycle false m } }) need k1
        (by obtain ⟨g1, g2, g3, g4, g5, g6, g7, g8, g9⟩ := p2; exact ⟨g1, g2, g3, g4, g5, g6, g7, g8, g9⟩) hback
      obtain ⟨q1, q2, q3, q4, q5, q6, q7, q8⟩ := p7
      simp only at q1 q2 q3 q4 q5 q6 q7 q8
      refine ⟨t, need', e1, e2, e3, ⟨e4.rcv.trans (q1.trans hk1.rcv), e4.sum.trans (q2.trans hk1.sum),
        e4.eof.trans (k6.trans (q3.trans hk1.eof)), e4.btd.trans (k5.trans (q4.trans hk1.btd)), e4.hold.trans (q5.trans hk1.hold),
        e4.maps.trans (q6.trans hk1.maps), e4.result.trans (q7.trans hk1.result), e4.sawEnd.trans (q8.trans hk1.sawEnd)⟩, ?_, ?_, e7.trans (Eq.trans p8 hcr1)⟩
      · have : ({ s2 with b := { s2.b with mux := s2.b.mux.recycle false m } } : St).load = s2.load := by
          simp only [St.load, k2]
        omega
      · have : ({ s2 with b := { s2.b with mux := s2.b.mux.recycle false m } } : St).bytes = s2.bytes := by
          simp only [St.bytes, k2]
        omega
    | none =>
      simp only
      obtain ⟨k1, k2, k5, k6⟩ := recycle_spec (m := s1.b.mux) hm1 false m
      obtain ⟨t, need', e1, e2, e3, e4, e5, e6, e7⟩ := ih (s := { s1 with b := { s1.b with mux := s1.b.mux.recycle false m } })
        (need || (decide (s1.lent = 0) && (decide (s1.b.mux.unread false ≠ []) || !s1.b.mux.sawEof))) k1
        (by obtain ⟨g1, g2, g3, g4, g5, g6, g7, g8, g9⟩ := he1; exact ⟨g1, g2, g3, g4, g5, g6, g7, g8, g9⟩) hb1
      refine ⟨t, need', e1, e2, e3, ⟨e4.rcv.trans hk1.rcv, e4.sum.trans hk1.sum,
        e4.eof.trans (k6.trans hk1.eof), e4.btd.trans (k5.trans hk1.btd), e4.hold.trans hk1.hold,
        e4.maps.trans hk1.maps, e4.result.trans hk1.result, e4.sawEnd.trans hk1.sawEnd⟩, ?_, ?_, e7.trans hcr1⟩
      · have : ({ s1 with b := { s1.b with mux := s1.b.mux.recycle false m } } : St).load = s1.load := by
          simp only [St.load, k2]
        omega
      · have : ({ s1 with b := { s1.b with mux := s1.b.mux.recycle false m } } : St).bytes = s1.bytes := by
          simp only [St.bytes, k2]
        omega

theorem collect_live {s : St} (hl : Live L s) (hq : s.b.rcv.queue = []) :
    ∃ t need, s.collect = some (t, need) ∧ Live L t ∧
      t.b.rcv = { s.b.rcv with queue := s.result } ∧ t.b.sum = s.b.sum ∧ t.b.mux.eof = s.b.mux.eof ∧
      t.sawEnd = decide (s.b.rcv.core.at_ = .stop) ∧ (∀ p, nibbles t p = nibbles s p) ∧
      t.chores + s.back.length ≤ s.chores := by
  obtain ⟨s1, hs1⟩ : ∃ s1 : St, s1 = { s with b := { s.b with rcv := { s.b.rcv with queue := s.result } }, result := [], back := [] } :=
    ⟨_, rfl⟩
  have he1 : Ext { s1 with back := s.back } := by
    obtain ⟨g1, g2, g3, g4, g5, g6, g7, g8, g9⟩ := hl.ext
    rw [hs1]
    refine ⟨g1, g2, g3, g4, g5, ?_, g7, g8, fun hx => ⟨(g9 hx).1, rfl⟩⟩
    rw [hq] at g6
    simp only [pms, List.filter_nil, List.length_nil] at g6 ⊢
    omega
  obtain ⟨t, need, e1, e2, e3, e4, e5, e6, e7⟩ := giveBack_any s.back (s := s1) false (by rw [hs1]; exact hl.mux) he1 (by rw [hs1])
  have hrcv : t.b.rcv = { s.b.rcv with queue := s.result } := by rw [e4.rcv, hs1]
  have hres : t.result = [] := by rw [e4.result, hs1]
  have hsum : t.b.sum = s.b.sum := by rw [e4.sum, hs1]
  have heof : t.b.mux.eof = s.b.mux.eof := by rw [e4.eof, hs1]
  have hcrc : t.b.crc = s.b.crc := by rw [e7, hs1]
  unfold St.collect
  rw [← hs1, e1]
  refine ⟨{ t with sawEnd := decide (t.b.rcv.core.at_ = .stop) }, need, rfl, ?_, hrcv, hsum, heof, by simp only; rw [hrcv], ?_, ?_⟩
  · obtain ⟨-, d2, d3, d4, d5, d6, d7, d8, d9, d10, d11⟩ := hl
    refine ⟨?_, by simp only [hrcv]; exact d2, by simp only [hrcv]; exact d3, by simp only [hrcv]; exact d4, e2,
      by simp only [hrcv]; exact d6, by simp only [hrcv]; exact d7, by simp only [hrcv]; exact d8, by simp only [hsum]; exact d9,
      by simp only [hsum, heof]; exact d10, by simp only [hcrc]; exact d11⟩
    obtain ⟨g1, g2, g3, g4, g5, g6, g7, g8, g9⟩ := e3
    exact ⟨g1, g2, g3, g4, g5, g6, g7, g8, fun hx => ⟨by simpa using hx, hres⟩⟩
  · intro p
    have hb : ({ t with sawEnd := decide (t.b.rcv.core.at_ = .stop) } : St).bytes = s.bytes := by
      have : s1.bytes = s.bytes := by rw [hs1]; rfl
      rw [← this, ← e6]; rfl
    have hx : t.b.rcv.cmdRx = s.b.rcv.cmdRx := by rw [hrcv]
    unfold nibbles
    rw [hb]
    simp only [hx]
  · have hl1 : s1.load + s.back.length = s.load := by
      rw [hs1]; simp only [St.load, List.length_nil]; omega
    have hh : t.hold = s.hold := by rw [e4.hold, hs1]
    have hm : t.maps = s.maps := by rw [e4.maps, hs1]
    have ha : t.b.rcv.at_ = s.b.rcv.at_ := by rw [hrcv]
    have hqt : t.b.rcv.queue = s.result := by rw [hrcv]
    show t.load + t.hold.weight + t.maps + atCost t.b.rcv.at_ + cmdsCost t.b.rcv.queue + cmdsCost t.result +
      cmdsCost (held t.hold) + s.back.length ≤ s.chores
    rw [hh, hm, ha, hqt, hres]
    unfold St.chores
    rw [hq]
    simp only [cmdsCost, List.map_nil, List.sum_nil]
    omega

/-! ## The main side -/

/-- A step of the main side on any commands. -/
theorem main_any {r r' : Rcv} {room : Nat} {o : List UInt8} (g : Recode.Good r.ring) (h : r.main dw room = .ok (r', o)) :
    o.length ≤ room ∧ Recode.Good r'.ring ∧ r'.ring.len = r.ring.len ∧
      (∀ c, r.at_ = .content c → r'.at_ = .content c ∨ (r'.at_ ≠ .content c ∧ r'.at_ ≠ .finished ∧ atCost r'.at_ < atCost r.at_)) ∧
      (∀ c, r.at_ = .filling c → (r'.at_ = .filling c ∧ o.length = room) ∨ r'.at_ = .idle) ∧
      (∀ g q, r.at_ = .idle → r.queue = g :: q → r'.at_ ≠ .finished ∧ atCost r'.at_ + (if isPm g then 1 else 0) < cmdCost g) ∧
      (r.at_ = .idle → r.queue = [] → r.core.at_ = .stop →
        r'.at_ = .finished ∨ (r'.at_ = .idle ∧ o.length = room)) ∧
      (r.at_ = .finished → r' = r ∧ o = []) := by
  unfold Rcv.main at h
  cases hat : r.at_ with
  | idle =>
    rw [hat] at h
    simp only at h
    cases hq : r.queue with
    | cons c q =>
      rw [hq] at h
      simp only at h
      cases hn : Rcv.next dw { r with queue := q, at_ := .idle } c with
      | fail => rw [hn] at h; cases h
      | panic => rw [hn] at h; cases h
      | ok y =>
        rw [hn] at h
        simp only [Codec.Res.bind, Codec.Res.ok.injEq, Prod.mk.injEq] at h
        obtain ⟨rfl, rfl⟩ := h
        have key : y.ring = r.ring ∧ y.at_ ≠ .finished ∧ atCost y.at_ + (if isPm c then 1 else 0) < cmdCost c := by
          unfold Rcv.next at hn
          cases c with
          | copy d n => cases hn; exact ⟨rfl, by simp, by simp [atCost, cmdCost, isPm]⟩
          | dict z i t => cases hn; exact ⟨rfl, by simp, by simp [atCost, cmdCost, isPm]⟩
          | lit n e =>
            simp only at hn
            cases hl : Recode.last8 r.ring with
            | none => rw [hl] at hn; cases hn
            | some b => rw [hl] at hn; cases hn; exact ⟨rfl, by simp, by simp [atCost, cmdCost, isPm]⟩
          | bswitch k t st => cases k <;> (cases hn; exact ⟨rfl, by simp, by simp [atCost, cmdCost, isPm]⟩)
          | pm p =>
            simp only at hn
            cases hp : r.lbk.obsPm p with
            | ok l => rw [hp] at hn; cases hn; exact ⟨rfl, by simp, by simp [atCost, cmdCost, isPm]⟩
            | fail => rw [hp] at hn; cases hn
            | panic => rw [hp] at hn; cases hn
        refine ⟨by simp, by rw [key.1]; exact g, by rw [key.1], by simp, by simp, ?_, by simp, by simp⟩
        intro c' q' _ he
        cases he
        exact key.2
    | nil =>
      rw [hq] at h
      simp only at h
      by_cases hs : r.core.at_ = .stop
      · rw [if_pos hs] at h
        obtain ⟨ring', o', res, e1, k1, k2, -, k3, k4⟩ := Recode.flush_any g room
        rw [e1] at h
        rcases k4 with ⟨rfl, -⟩ | ⟨rfl, k4⟩
        · cases h
          exact ⟨k3, k1, k2, by simp, by simp, by simp, fun _ _ _ => Or.inl rfl, by simp⟩
        · cases h
          exact ⟨k3, k1, k2, by simp, by simp, by simp, fun _ _ _ => Or.inr ⟨rfl, k4⟩, by simp⟩
      · rw [if_neg hs] at h
        cases h
        exact ⟨by simp, g, rfl, by simp, by simp, by simp, fun _ _ hx => absurd hx hs, by simp⟩
  | content c =>
    rw [hat] at h
    simp only at h
    by_cases hl : c.left = 0
    · rw [if_pos hl] at h
      cases h
      refine ⟨by simp, g, rfl, fun c' hc => Or.inr ⟨by simp, by simp, ?_⟩, by simp, by simp, by simp, by simp⟩
      simp only [atCost, hl]
      split <;> omega
    · rw [if_neg hl] at h
      cases ha : c.ask r.lbk with
      | none => rw [ha] at h; cases h
      | some ch =>
        rw [ha] at h
        simp only at h
        cases hs : r.litRx.step ch with
        | mk rx on =>
          rw [hs] at h
          cases on with
          | none =>
            cases h
            exact ⟨by simp, g, rfl, fun c' hc => by cases hc; exact Or.inl rfl, by simp, by simp, by simp, by simp⟩
          | some n =>
            cases h
            refine ⟨by simp, g, rfl, fun c' hc => ?_, by simp, by simp, by simp, by simp⟩
            cases hc
            refine Or.inr ⟨fun h0 => take_moves c r.lbk n hl (by simpa using h0), by simp, ?_⟩
            unfold Lit.Content.take
            cases hh : c.high with
            | none => simp [atCost, hh]
            | some k =>
              simp only [atCost, hh]
              simp
              omega
  | filling c =>
    rw [hat] at h
    simp only at h
    cases he : Recode.encodeCmd r.ring c room with
    | panic => rw [he] at h; cases h
    | spin => rw [he] at h; cases h
    | done y =>
      obtain ⟨ring', o', res⟩ := y
      obtain ⟨k1, k2, k3, k4⟩ := Recode.encodeCmd_bounds r.ring g c room ring' o' res he
      rw [he] at h
      cases res with
      | fail => cases h
      | ok =>
        cases h
        exact ⟨k3, k1, k2, by simp, fun _ _ => Or.inr rfl, by simp, by simp, by simp⟩
      | more =>
        cases h
        exact ⟨k3, k1, k2, by simp, fun c' hc => by cases hc; exact Or.inl ⟨rfl, k4 rfl⟩, by simp, by simp, by simp⟩
  | finished =>
    rw [hat] at h
    cases h
    exact ⟨by simp, g, rfl, by simp, by simp, by simp, by simp, fun _ => ⟨rfl, rfl⟩⟩

/-- The same for the whole decompressor. -/
theorem bmain_any {b b' : File.Body} {room : Nat} {o : List UInt8} (hm : b.mux.Ok) (g : Recode.Good b.rcv.ring)
    (h : b.main dw room = .ok (b', o)) :
    o.length ≤ room ∧ b'.mux.Ok ∧ Recode.Good b'.rcv.ring ∧ b'.rcv.ring.len = b.rcv.ring.len ∧
      b'.mux.eof = b.mux.eof ∧ b'.mux.unread false = b.mux.unread false ∧ b'.sum = b.sum ∧ b'.crc = b.crc ∧
      b'.rcv.cmdRx = b.rcv.cmdRx ∧ b'.rcv.core = b.rcv.core ∧
      b'.rcv.queue = (if b.rcv.at_ = .idle then b.rcv.queue.tail else b.rcv.queue) ∧
      (∀ c, b.rcv.at_ = .content c → b'.rcv.at_ = .content c ∨
        (b'.rcv.at_ ≠ .content c ∧ b'.rcv.at_ ≠ .finished ∧ atCost b'.rcv.at_ < atCost b.rcv.at_)) ∧
      (∀ c, b.rcv.at_ = .filling c → (b'.rcv.at_ = .filling c ∧ o.length = room) ∨ b'.rcv.at_ = .idle) ∧
      (∀ g q, b.rcv.at_ = .idle → b.rcv.queue = g :: q →
        b'.rcv.at_ ≠ .finished ∧ atCost b'.rcv.at_ + (if isPm g then 1 else 0) < cmdCost g) ∧
      (b.rcv.at_ = .idle → b.rcv.queue = [] → b.rcv.core.at_ = .stop →
        b'.rcv.at_ = .finished ∨ (b'.rcv.at_ = .idle ∧ o.length = room)) ∧
      (b.rcv.at_ = .finished → b'.rcv.at_ = .finished ∧ o = []) := by
  unfold File.Body.main at h
  simp only at h
  cases hr : Rcv.main dw { b.rcv with litRx := { b.rcv.litRx with buf := b.mux.unread true } } room with
  | fail => rw [hr] at h; cases h
  | panic => rw [hr] at h; cases h
  | ok y =>
    obtain ⟨r1, o1⟩ := y
    rw [hr] at h
    simp only [Codec.Res.bind, Codec.Res.ok.injEq, Prod.mk.injEq] at h
    obtain ⟨rfl, rfl⟩ := h
    obtain ⟨a1, a2, a3, a4, a5, a6, a7, a8⟩ := main_any (r := { b.rcv with litRx := { b.rcv.litRx with buf := b.mux.unread true } }) g hr
    obtain ⟨f1, f2, f3⟩ := main_frame hr
    have hle : (b.mux.unread true).length - r1.litRx.buf.length ≤ (b.mux.unread true).length := Nat.sub_le _ _
    obtain ⟨m1, m2, m3, m4, m5⟩ := unread_consume hm true _ hle
    refine ⟨a1, m1, a2, a3, m5, m3 false (by simp), rfl, rfl, f1, f2, f3, a4, a5, a6, a7, ?_⟩
    intro hf
    obtain ⟨u1, u2⟩ := a8 hf
    exact ⟨by simp only; rw [u1]; exact hf, u2⟩

/-- A step of the decoders keeps the decompressor alive. -/
theorem main_live {s : St} {b' : File.Body} {room : Nat} {o : List UInt8} (hl : Live L s) (h : s.b.main dw room = .ok (b', o))
    (maps : Nat) (hpm : maps + pms b'.rcv.queue = s.maps + pms s.b.rcv.queue)
    (hfin : b'.rcv.at_ = .finished → s.b.rcv.core.at_ = .stop) : Live L { s with b := b', maps := maps } := by
  obtain ⟨d1, d2, d3, d4, d5, d6, d7, d8, d9, d10, d11⟩ := hl
  obtain ⟨-, a2, a3, a4, a5, -, a7, a8, a9, a10, -⟩ := bmain_any d5 d6 h
  refine ⟨?_, by simp only [a9]; exact d2, by simp only [a9]; exact d3, by simp only [a9]; exact d4, a2, a3, a4.trans d7,
    by simp only [a10]; exact hfin, by simp only [a7]; exact d9, by simp only [a7, a5]; exact d10, by simp only [a8]; exact d11⟩
  obtain ⟨g1, g2, g3, g4, g5, g6, g7, g8, g9⟩ := d1
  exact ⟨g1, g2, g3, by simp only [a9]; exact g4, g5, by simp only; omega, g7, by simp only [a10]; exact g8, by simp only [a10]; exact g9⟩

theorem finish_live {s t : St} {room : Nat} {o : List UInt8} {a : After} (hl : Live L s)
    (hat : s.b.rcv.at_ = .finished ∨ (s.b.rcv.at_ = .idle ∧ s.b.rcv.queue = [] ∧ s.sawEnd = true))
    (h : s.finish dw skip room = .ok (t, o, a)) :
    o.length ≤ room ∧ Live L t ∧ (∃ r, a = .ret r) ∧ (a = .ret .needsOutput → o.length = room) ∧
      (a = .ret .needsInput → t.b.rcv.at_ = .finished ∧ t.b.sum.length ≠ 8) ∧
      (a = .ret .success → t.b.rcv.at_ = .finished ∧ t.b.sum.length = 8 ∧ sumOk skip t.b.crc t.b.sum = true) := by
  unfold St.finish at h
  cases hm : s.b.main dw room with
  | fail => rw [hm] at h; cases h
  | panic => rw [hm] at h; cases h
  | ok x =>
    obtain ⟨b', o'⟩ := x
    rw [hm] at h
    simp only [Codec.Res.bind] at h
    obtain ⟨a1, a2, a3, a4, a5, a6, a7, a8, a9, a10, a11, c1, c2, c3, c4, c5⟩ := bmain_any hl.mux hl.ring hm
    have hstop : s.b.rcv.core.at_ = .stop := by
      rcases hat with h1 | ⟨h1, h2, h3⟩
      · exact hl.fin h1
      · exact (hl.ext.fin h3).1
    have hq : b'.rcv.queue = s.b.rcv.queue := by
      rw [a11]
      rcases hat with h1 | ⟨h1, h2, h3⟩
      · rw [h1, if_neg (by simp)]
      · rw [h2]; simp
    have hlive := main_live hl hm s.maps (by rw [hq]) (fun _ => hstop)
    have hs : ({ s with b := b', maps := s.maps } : St) = { s with b := b' } := rfl
    rw [hs] at hlive
    have hfull : b'.rcv.at_ ≠ .finished → o'.length = room := by
      intro hnf
      rcases hat with h1 | ⟨h1, h2, h3⟩
      · exact absurd (c5 h1).1 hnf
      · rcases c4 h1 h2 hstop with h4 | h4
        · exact absurd h4 hnf
        · exact h4.2
    by_cases hfin : b'.rcv.at_ = .finished
    · rw [if_neg (by simp [hfin])] at h
      by_cases h8 : b'.sum.length = 8
      · rw [if_neg (by simp [h8])] at h
        by_cases hok : sumOk skip b'.crc b'.sum = true
        · rw [if_pos hok] at h
          simp only [Codec.Res.ok.injEq, Prod.mk.injEq] at h
          obtain ⟨rfl, rfl, rfl⟩ := h
          exact ⟨a1, hlive, ⟨_, rfl⟩, by simp, by simp, fun _ => ⟨hfin, h8, hok⟩⟩
        · rw [if_neg hok] at h; cases h
      · rw [if_pos h8] at h
        simp only [Codec.Res.ok.injEq, Prod.mk.injEq] at h
        obtain ⟨rfl, rfl, rfl⟩ := h
        exact ⟨a1, hlive, ⟨_, rfl⟩, by simp, fun _ => ⟨hfin, h8⟩, by simp⟩
    · rw [if_pos hfin] at h
      simp only [Codec.Res.ok.injEq, Prod.mk.injEq] at h
      obtain ⟨rfl, rfl, rfl⟩ := h
      exact ⟨a1, hlive, ⟨_, rfl⟩, fun _ => hfull hfin, by simp, by simp⟩

/-- A step of the main side. -/
theorem output_live {s t : St} {room : Nat} {o : List UInt8} {a : After} (hl : Live L s)
    (h : s.output dw skip room = .ok (t, o, a)) :
    o.length ≤ room ∧ Live L t ∧
      (a = .go → (∀ p, nibbles t p = nibbles s p) ∧ (t.chores < s.chores ∨
        (t.chores ≤ s.chores ∧ Fetching s ∧ (t.b.rcv.queue ≠ [] ∨ t.sawEnd = true)))) ∧
      (a = .yield → (∀ p, nibbles t p = nibbles s p) ∧ (t.chores < s.chores ∨
        (t.chores ≤ s.chores ∧ Fetching s ∧ s.result = [] ∧ s.b.rcv.core.at_ ≠ .stop ∧ s.back = []))) ∧
      (a = .ret .needsOutput → o.length = room) ∧
      (a = .ret .success → t.b.rcv.at_ = .finished ∧ t.b.sum.length = 8 ∧ sumOk skip t.b.crc t.b.sum = true) := by
  unfold St.output at h
  have hnib : ∀ {b' : File.Body} {k : Nat}, b'.mux.unread false = s.b.mux.unread false → b'.rcv.cmdRx = s.b.rcv.cmdRx →
      ∀ p, nibbles { s with b := b', maps := k } p = nibbles s p := by
    intro b' k h1 h2 p
    simp only [nibbles, St.bytes, h1, h2]
  cases hat : s.b.rcv.at_ with
  | content c =>
    rw [hat] at h
    simp only at h
    cases hm : s.b.main dw room with
    | fail => rw [hm] at h; cases h
    | panic => rw [hm] at h; cases h
    | ok x =>
      obtain ⟨b', o'⟩ := x
      rw [hm] at h
      simp only [Codec.Res.bind, Codec.Res.ok.injEq, Prod.mk.injEq] at h
      obtain ⟨rfl, rfl, rfl⟩ := h
      obtain ⟨a1, a2, a3, a4, a5, a6, a7, a8, a9, a10, a11, c1, c2, c3, c4, c5⟩ := bmain_any hl.mux hl.ring hm
      rw [hat, if_neg (by simp)] at a11
      have hlive := main_live hl hm s.maps (by rw [a11]) (fun hx => by
        rcases c1 c hat with u | u
        · rw [u] at hx; cases hx
        · exact absurd hx u.2.1)
      refine ⟨a1, hlive, ?_, ?_, ?_, ?_⟩
      · intro hgo
        refine ⟨hnib a6 a9, Or.inl ?_⟩
        rcases c1 c hat with u | u
        · rw [if_pos u] at hgo; cases hgo
        · simp only [St.chores, St.load, a6, a9, a11]
          omega
      all_goals
        intro hgo
        by_cases hx : b'.rcv.at_ = .content c
        · rw [if_pos hx] at hgo; cases hgo
        · rw [if_neg hx] at hgo; cases hgo
  | filling c =>
    rw [hat] at h
    simp only at h
    cases hm : s.b.main dw room with
    | fail => rw [hm] at h; cases h
    | panic => rw [hm] at h; cases h
    | ok x =>
      obtain ⟨b', o'⟩ := x
      rw [hm] at h
      simp only [Codec.Res.bind, Codec.Res.ok.injEq, Prod.mk.injEq] at h
      obtain ⟨rfl, rfl, rfl⟩ := h
      obtain ⟨a1, a2, a3, a4, a5, a6, a7, a8, a9, a10, a11, c1, c2, c3, c4, c5⟩ := bmain_any hl.mux hl.ring hm
      rw [hat, if_neg (by simp)] at a11
      have hlive := main_live hl hm s.maps (by rw [a11]) (fun hx => by
        rcases c2 c hat with u | u
        · rw [u.1] at hx; cases hx
        · rw [u] at hx; cases hx)
      refine ⟨a1, hlive, ?_, ?_, ?_, ?_⟩
      · intro hgo
        refine ⟨hnib a6 a9, Or.inl ?_⟩
        rcases c2 c hat with u | u
        · rw [if_pos u.1] at hgo; cases hgo
        · simp only [St.chores, St.load, a6, a9, a11, u, hat, atCost]
          omega
      · intro hgo
        by_cases hx : b'.rcv.at_ = .filling c
        · rw [if_pos hx] at hgo; cases hgo
        · rw [if_neg hx] at hgo; cases hgo
      · intro hgo
        rcases c2 c hat with u | u
        · exact u.2
        · rw [if_neg (by rw [u]; simp)] at hgo; cases hgo
      · intro hgo
        by_cases hx : b'.rcv.at_ = .filling c
        · rw [if_pos hx] at hgo; cases hgo
        · rw [if_neg hx] at hgo; cases hgo
  | finished =>
    rw [hat] at h
    simp only at h
    obtain ⟨e1, e2, ⟨r, rfl⟩, e4, -, e6⟩ := finish_live hl (Or.inl hat) h
    exact ⟨e1, e2, by simp, by simp, e4, e6⟩
  | idle =>
    rw [hat] at h
    simp only at h
    cases hq : s.b.rcv.queue with
    | nil =>
      rw [hq] at h
      simp only at h
      cases hse : s.sawEnd with
      | true =>
        rw [hse] at h
        simp only [if_true] at h
        obtain ⟨e1, e2, ⟨r, rfl⟩, e4, -, e6⟩ := finish_live hl (Or.inr ⟨hat, hq, hse⟩) h
        exact ⟨e1, e2, by simp, by simp, e4, e6⟩
      | false =>
        rw [hse] at h
        simp only [Bool.false_eq_true, if_false] at h
        obtain ⟨t', need, e1, e2, e3, e4, e5, e6, e7, e8⟩ := collect_live hl hq
        rw [e1] at h
        simp only [Codec.Res.ok.injEq, Prod.mk.injEq] at h
        obtain ⟨rfl, rfl, rfl⟩ := h
        have hqt : t'.b.rcv.queue = s.result := by rw [e3]
        have hfet : Fetching s := ⟨hat, hq, hse⟩
        refine ⟨by simp, e2, ?_, ?_, ?_, ?_⟩
        all_goals
          cases need with
          | true => simp
          | false =>
            simp only [Bool.false_eq_true, if_false]
            by_cases hc : t'.b.rcv.queue = [] ∧ t'.sawEnd = false
            · rw [if_pos hc]
              first
              | simp; done
              | intro _
                refine ⟨e7, ?_⟩
                by_cases hbk : s.back = []
                · right
                  refine ⟨by omega, hfet, by rw [← hqt]; exact hc.1, ?_, hbk⟩
                  intro h0
                  rw [e6, h0] at hc
                  simp at hc
                · left
                  have := List.length_pos_iff.mpr hbk
                  omega
            · rw [if_neg hc]
              first
              | simp; done
              | intro _
                refine ⟨e7, ?_⟩
                right
                refine ⟨by omega, hfet, ?_⟩
                by_cases h1 : t'.b.rcv.queue = []
                · right
                  cases h2 : t'.sawEnd with
                  | true => rfl
                  | false => exact absurd ⟨h1, h2⟩ hc
                · exact Or.inl h1
    | cons g q =>
      rw [hq] at h
      simp only at h
      cases hm : s.b.main dw room with
      | fail => rw [hm] at h; cases h
      | panic => rw [hm] at h; cases h
      | ok x =>
        obtain ⟨b', o'⟩ := x
        rw [hm] at h
        simp only [Codec.Res.bind] at h
        obtain ⟨a1, a2, a3, a4, a5, a6, a7, a8, a9, a10, a11, c1, c2, c3, c4, c5⟩ := bmain_any hl.mux hl.ring hm
        rw [hat, if_pos rfl, hq, List.tail_cons] at a11
        obtain ⟨hnf, hcost⟩ := c3 g q hat hq
        have hpm : pms (g :: q) = (if isPm g then 1 else 0) + pms q := by
          rw [← pms_one, ← pms_append]; rfl
        have hcq : cmdsCost (g :: q) = cmdCost g + cmdsCost q := by simp [cmdsCost]
        have hlt : ∀ k, k = s.maps + (if isPm g then 1 else 0) → ({ s with b := b', maps := k } : St).chores < s.chores := by
          intro k hk
          have h0 : atCost s.b.rcv.at_ = 0 := by rw [hat]; rfl
          have h1 : cmdsCost s.b.rcv.queue = cmdCost g + cmdsCost q := by rw [hq, hcq]
          simp only [St.chores, St.load, a6, a9, a11]
          rw [h0, h1]
          omega
        have hlive : ∀ k, k = s.maps + (if isPm g then 1 else 0) → Live L { s with b := b', maps := k } := by
          intro k hk
          exact main_live hl hm k (by rw [a11, hq, hpm]; omega) (fun hx => absurd hx hnf)
        cases g with
        | pm p =>
          simp only at h
          by_cases h2 : s.maps = 2
          · rw [if_pos h2] at h; cases h
          · rw [if_neg h2] at h
            simp only [Codec.Res.ok.injEq, Prod.mk.injEq] at h
            obtain ⟨rfl, rfl, rfl⟩ := h
            exact ⟨a1, hlive _ rfl, fun _ => ⟨hnib a6 a9, Or.inl (hlt _ rfl)⟩, by simp, by simp, by simp⟩
        | lit n e =>
          simp only [Codec.Res.ok.injEq, Prod.mk.injEq] at h
          obtain ⟨rfl, rfl, rfl⟩ := h
          exact ⟨a1, hlive s.maps rfl, by simp, fun _ => ⟨hnib (k := s.maps) a6 a9, Or.inl (hlt s.maps rfl)⟩, by simp, by simp⟩
        | copy d n =>
          simp only [Codec.Res.ok.injEq, Prod.mk.injEq] at h
          obtain ⟨rfl, rfl, rfl⟩ := h
          exact ⟨a1, hlive s.maps rfl, fun _ => ⟨hnib (k := s.maps) a6 a9, Or.inl (hlt s.maps rfl)⟩, by simp, by simp, by simp⟩
        | dict z i t =>
          simp only [Codec.Res.ok.injEq, Prod.mk.injEq] at h
          obtain ⟨rfl, rfl, rfl⟩ := h
          exact ⟨a1, hlive s.maps rfl, fun _ => ⟨hnib (k := s.maps) a6 a9, Or.inl (hlt s.maps rfl)⟩, by simp, by simp, by simp⟩
        | bswitch k t st =>
          simp only [Codec.Res.ok.injEq, Prod.mk.injEq] at h
          obtain ⟨rfl, rfl, rfl⟩ := h
          exact ⟨a1, hlive s.maps rfl, fun _ => ⟨hnib (k := s.maps) a6 a9, Or.inl (hlt s.maps rfl)⟩, by simp, by simp, by simp⟩

end Divans.Call
