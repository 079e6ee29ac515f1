import Verif.Fast
import Verif.RxProps
import Verif.LitProps

namespace Divans.Fast
open Divans.Adaptive Divans.Lit

/-! ### Filling -/

theorem push_nil {d : Ans.Dec} (x : List UInt8) (h : d.Good) (hx : x.length ≤ d.numPushAvail) :
    ((d.pushData x).1.pushData []).1 = (d.pushData x).1 := by
  rw [Ans.pushData_split d x [] h, List.append_nil]

theorem push_zero {d : Ans.Dec} (h : d.Good) (h0 : d.numPushAvail = 0) (x : List UInt8) : d.pushData x = (d, 0) := by
  have : d.reqA = 0 := by
    unfold Ans.Dec.Good at h
    unfold Ans.Dec.numPushAvail at h0
    split_ifs at h0 <;> omega
  unfold Ans.Dec.pushData
  rw [if_pos this]

theorem reqA_zero {d : Ans.Dec} (h : d.Good) : d.numPushAvail = 0 ↔ d.reqA = 0 := by
  unfold Ans.Dec.Good at h
  unfold Ans.Dec.numPushAvail
  constructor
  · intro h0; split_ifs at h0 <;> omega
  · intro h0; rw [if_pos h0]

/-- Filling in one formula. -/
theorem fill_eq {j : Job} (h : j.rx.dec.Good) : j.fill =
    ({ j with rx := ⟨j.rx.ses, (j.rx.dec.pushData j.rx.buf).1, j.rx.buf.drop j.rx.dec.numPushAvail⟩ },
      decide (j.rx.dec.numPushAvail ≤ j.rx.buf.length)) := by
  unfold Job.fill
  by_cases h0 : j.rx.dec.numPushAvail = 0
  · rw [if_pos h0, push_zero h h0, h0]
    simp
  · rw [if_neg h0]
    simp only [Ans.pushData_count _ _ h, Ans.pushData_avail _ _ h]
    congr 3
    · rcases Nat.le_total j.rx.buf.length j.rx.dec.numPushAvail with hle | hle
      · rw [Nat.min_eq_left hle, List.drop_length, List.drop_of_length_le hle]
      · rw [Nat.min_eq_right hle]
    · exact propext (by omega)

theorem fill_good {j : Job} (h : j.rx.dec.Good) : j.fill.1.rx.dec.Good := by
  rw [fill_eq h]; exact Ans.pushData_good _ _ h

theorem fill_idem {j : Job} (h : j.rx.dec.Good) : j.fill.1.fill = j.fill := by
  rw [fill_eq (fill_good h)]
  have h1 := Ans.pushData_avail j.rx.dec j.rx.buf h
  have hg := Ans.pushData_good j.rx.dec j.rx.buf h
  rw [fill_eq h]
  simp only [h1]
  rcases Nat.le_total j.rx.dec.numPushAvail j.rx.buf.length with hle | hle
  · rw [push_zero hg (by omega)]
    simp [Nat.sub_eq_zero_of_le hle, hle]
  · rw [List.drop_of_length_le hle, push_nil _ h hle]
    simp only [List.drop_nil, List.length_nil, Prod.mk.injEq, true_and, decide_eq_decide]
    omega

theorem fill_true {j : Job} (h : j.rx.dec.Good) (hf : j.fill.2 = true) : j.fill.1.rx.dec.numPushAvail = 0 := by
  rw [fill_eq h] at hf ⊢
  simp only [decide_eq_true_eq] at hf
  simp only [Ans.pushData_avail _ _ h]; omega

theorem fill_full {j : Job} (h : j.rx.dec.numPushAvail = 0) : j.fill = (j, true) := by
  unfold Job.fill; rw [if_pos h]

theorem fill_con (j : Job) : j.fill.1.con = j.con := by unfold Job.fill; split <;> rfl
theorem fill_lbk (j : Job) : j.fill.1.lbk = j.lbk := by unfold Job.fill; split <;> rfl

/-! ### What is known about the entropy decoder -/

/-- Chunks begin between bytes, and the decoder asks for a new chunk only there. -/
structure Inv (j : Job) : Prop where
  good : j.rx.dec.Good
  reqB : j.rx.dec.reqB ≤ 1
  fresh : 4 < j.rx.dec.reqA → j.rx.dec.symCount = 0
  small : j.rx.dec.symCount < 65536
  even : j.rx.dec.symCount % 2 = if j.con.high.isSome then 1 else 0
  inside : j.con.high ≠ none → j.con.left ≠ 0

theorem pushData_sym (d : Ans.Dec) (x : List UInt8) (h : 4 < d.reqA → d.symCount = 0) :
    (d.pushData x).1.symCount = d.symCount := by
  unfold Ans.Dec.pushData Ans.Dec.pushRare Ans.Dec.pushReallyRare
  dsimp only
  split_ifs <;> first | rfl | (simp only; exact (h (by omega)).symm)

theorem Inv.fill {j : Job} (h : Inv j) : Inv j.fill.1 := by
  have e := fill_eq h.good
  have hs := pushData_sym j.rx.dec j.rx.buf h.fresh
  have hr := Ans.pushData_reqA j.rx.dec j.rx.buf h.good
  have hg := h.good
  refine ⟨fill_good h.good, ?_, ?_, ?_, ?_, ?_⟩
  · rw [e]; simp only [Ans.pushData_reqB]; exact h.reqB
  · rw [e]; simp only [hs, hr]
    intro hc
    apply h.fresh
    unfold Ans.Dec.Good at hg
    unfold Ans.Dec.numPushAvail at hc
    split_ifs at hc <;> omega
  · rw [e]; simp only [hs]; exact h.small
  · rw [e]; simp only [hs]; exact h.even
  · rw [e]; exact h.inside

/-- The decoder after a half byte. -/
structure After (j j1 : Job) : Prop where
  inv : Inv j1
  reqA : j1.rx.dec.reqA = j.rx.dec.reqB ∨
    (j.con.high.isSome ∧ (j1.rx.dec.reqA = 8 ∨ j1.rx.dec.reqA = 9))
  buf : j1.rx.buf = j.rx.buf
  high : j1.con.high.isSome = !j.con.high.isSome
  left : j1.con.left = if j.con.high.isSome then j.con.left - 1 else j.con.left

theorem nibble_after {j j1 : Job} (h : Inv j) (_ : j.rx.dec.numPushAvail = 0) (hl : j.con.left ≠ 0)
    (hn : j.nibble = some j1) : After j j1 := by
  unfold Job.nibble at hn
  cases ha : j.con.ask j.lbk with
  | none => rw [ha] at hn; simp at hn
  | some ch =>
    rw [ha] at hn
    simp only [Option.some.injEq] at hn
    generalize (j.rx.ses.coding ch).lookup j.rx.dec.offset = x at hn
    have hC : Ans.symbolsPerChunk = 65536 := rfl
    have hb : j.rx.dec.reqB = 0 ∨ j.rx.dec.reqB = 1 := by have := h.reqB; omega
    have hsm := h.small
    have hev := h.even
    have hA : (j.rx.dec.advance x.2.toSlot).reqA = j.rx.dec.reqB ∧ j.rx.dec.symCount ≠ 65535 ∨
        (j.rx.dec.symCount = 65535 ∧ ((j.rx.dec.advance x.2.toSlot).reqA = 8 ∨
          (j.rx.dec.advance x.2.toSlot).reqA = 9)) := by
      unfold Ans.Dec.advance
      simp only [hC]
      by_cases hs : j.rx.dec.symCount = 65535
      · right; rcases hb with hb | hb <;> simp [hs, hb]
      · left; simp [hs]
    have hS : (j.rx.dec.advance x.2.toSlot).symCount = (j.rx.dec.symCount + 1) % 65536 := rfl
    have hB : (j.rx.dec.advance x.2.toSlot).reqB ≤ 1 := by
      show (if _ then 1 else 0) ≤ 1
      split_ifs <;> omega
    have hG : (j.rx.dec.advance x.2.toSlot).Good := by unfold Ans.Dec.Good; omega
    have hodd : j.rx.dec.symCount = 65535 → j.con.high.isSome = true := by
      intro hs
      rw [hs] at hev
      cases hh : j.con.high.isSome
      · rw [hh] at hev; simp at hev
      · rfl
    cases hh : j.con.high with
    | none =>
      have ht : (j.con.take j.lbk x.1) = (j.lbk, { j.con with high := some x.1 }) := by
        unfold Content.take; rw [hh]
      rw [ht] at hn
      subst hn
      rw [hh] at hev hodd
      simp only [Option.isSome_none, Bool.false_eq_true, if_false, imp_false] at hev hodd
      refine ⟨⟨hG, hB, ?_, ?_, ?_, fun _ => hl⟩, Or.inl ?_, rfl, by simp [hh], by simp [hh]⟩
      · intro h4; simp only at h4; omega
      · simp only [hS]; omega
      · simp only [hS, Option.isSome_some, if_true]; omega
      · simp only; omega
    | some v =>
      have ht : (j.con.take j.lbk x.1) = (j.lbk.pushByte (UInt8.ofNat (x.1 ||| (v <<< 4))),
          ⟨j.con.left - 1, none, UInt8.ofNat (x.1 ||| (v <<< 4)) :: j.con.done⟩) := by
        unfold Content.take; rw [hh]
      rw [ht] at hn
      subst hn
      rw [hh] at hev
      simp only [Option.isSome_some, if_true] at hev
      refine ⟨⟨hG, hB, ?_, ?_, ?_, fun hx => absurd rfl hx⟩, ?_, rfl, by simp [hh], by simp [hh]⟩
      · intro h4; simp only at h4 ⊢; rw [hS]; omega
      · simp only [hS]; omega
      · simp only [hS, Option.isSome_none, Bool.false_eq_true, if_false]; omega
      · simp only [hh, Option.isSome_some, true_and]; omega

/-! ### Reading half byte by half byte -/

/-- Half bytes read one after the other, each only when the entropy decoder has all it asks for. -/
inductive Steps : Job → Job → Prop where
  | refl (j : Job) : Steps j j
  | step {j j1 j2 : Job} (hl : j.con.left ≠ 0) (hf : j.fill.2 = true) (hn : j.fill.1.nibble = some j1)
      (r : Steps j1 j2) : Steps j j2

/-- A property of jobs that reading does not lose, under which indices are in range. -/
structure Closed (P : Job → Prop) : Prop where
  fill : ∀ j, P j → P j.fill.1
  ask : ∀ j, P j → j.con.left ≠ 0 → ∃ j1, j.nibble = some j1
  nibble : ∀ j j1, P j → Inv j → j.rx.dec.numPushAvail = 0 → j.con.left ≠ 0 → j.nibble = some j1 → P j1

/-- At the end of a chunk no state of the entropy coder is waiting for input. -/
def Calm (P : Job → Prop) : Prop := ∀ j, P j → 4 < j.rx.dec.reqA → j.rx.dec.reqB = 0

/-- How state and position fit together. -/
def SubOk (s : Sub) (j : Job) : Prop :=
  match s with
  | .safe => j.con.high = none ∧ 16 ≤ j.rx.buf.length
  | .low => j.con.high = none
  | .second => j.con.high ≠ none
  | .full => False

theorem Steps.snoc {j j' j1 : Job} (h : Steps j j') (hl : j'.con.left ≠ 0) (hf : j'.fill.2 = true)
    (hn : j'.fill.1.nibble = some j1) : Steps j j1 := by
  induction h with
  | refl j => exact .step hl hf hn (.refl _)
  | step a b c _ ih => exact .step a b c (ih hl hf hn)

theorem Steps.trans {a b c : Job} (h : Steps a b) (g : Steps b c) : Steps a c := by
  induction h with
  | refl _ => exact g
  | step x y z _ ih => exact .step x y z (ih g)

/-- From a filled job to the same job before. -/
theorem Steps.unfill {j j' : Job} (hg : j.rx.dec.Good) (h : Steps j.fill.1 j') :
    ∃ j2, Steps j j2 ∧ j2.fill = j'.fill ∧ j2.con = j'.con := by
  generalize hq : j.fill.1 = q at h
  cases h with
  | refl _ => exact ⟨j, .refl j, by rw [← hq, fill_idem hg], by rw [← hq, fill_con]⟩
  | step hl hf hn r =>
    subst hq
    rw [fill_idem hg] at hf hn
    rw [fill_con] at hl
    exact ⟨j', .step hl hf hn r, rfl, rfl⟩

/-- What a call achieves: it has read half bytes properly, and stopped because all bytes are there or because
the entropy decoder is short of input. -/
structure Done (P : Job → Prop) (j j' : Job) (ret : Ret) (s : Sub) (starved : Prop) : Prop where
  steps : ∃ j2, Steps j j2 ∧ j2.fill = j'.fill ∧ j2.con = j'.con
  keep : P j'
  inv : Inv j'
  good : ret = .success → j'.con.left = 0
  more : ret = .needsInput → j'.con.left ≠ 0 ∧ SubOk s j' ∧ s ≠ .safe ∧ (starved → j'.fill.2 = false)

theorem fill_false_buf {j : Job} (h : j.rx.dec.Good) (hf : j.fill.2 = false) : j.fill.1.rx.buf = [] := by
  rw [fill_eq h] at hf ⊢
  simp only [decide_eq_false_iff_not] at hf
  simp only
  exact List.drop_of_length_le (by omega)

/-- The careful path. -/
theorem array_low {P : Job → Prop} (hP : Closed P) (strict : Bool) : ∀ (n : Nat) (j : Job), j.con.left = n →
    j.rx.dec.numPushAvail = 0 → P j → Inv j →
    ∃ j' ret s, array strict false n j = some (j', ret, s) ∧ Done P j j' ret s True := by
  intro n
  induction n with
  | zero =>
    intro j hl h0 hp hi
    exact ⟨j, .success, .full, rfl, ⟨j, .refl j, rfl, rfl⟩, hp, hi, fun _ => hl, by simp⟩
  | succ n ih =>
    -- the low half
    have low : ∀ (warn : Bool) (j : Job), j.con.left = n + 1 → j.rx.dec.numPushAvail = 0 → P j → Inv j →
        j.con.high.isSome = true →
        ∃ j' ret s, lowHalf strict false warn j (array strict false n) = some (j', ret, s) ∧
          Done P j j' ret s True := by
      intro warn j hl h0 hp hi hh
      obtain ⟨j1, e1⟩ := hP.ask j hp (by omega)
      have a := nibble_after hi h0 (by omega) e1
      have p1 := hP.nibble j j1 hp hi h0 (by omega) e1
      have hff := fill_full h0
      have st : Steps j j1 := .step (by omega) (by rw [hff]) (by rw [hff]; exact e1) (.refl _)
      have hl1 : j1.con.left = n := by rw [a.left, hh]; simp [hl]
      have hh1 : j1.con.high = none := by
        have := a.high; rw [hh] at this
        exact Option.isNone_iff_eq_none.1 (by rw [← Option.not_isSome]; simpa using this)
      simp only [lowHalf, e1, Bool.false_and, Bool.false_eq_true, if_false]
      by_cases hf : j1.fill.2 = true
      · rw [if_pos hf]
        obtain ⟨j', ret, s, e, d⟩ := ih j1.fill.1 (by rw [fill_con]; exact hl1) (fill_true a.inv.good hf)
          (hP.fill _ p1) a.inv.fill
        refine ⟨j', ret, s, e, ?_, d.keep, d.inv, d.good, d.more⟩
        obtain ⟨j2, s2, f2, c2⟩ := d.steps
        obtain ⟨j3, s3, f3, c3⟩ := s2.unfill a.inv.good
        exact ⟨j3, st.trans s3, f3.trans f2, c3.trans c2⟩
      · rw [if_neg hf]
        have hf' : j1.fill.2 = false := by simpa using hf
        refine ⟨_, _, _, rfl, ⟨j1, st, (fill_idem a.inv.good).symm, (fill_con j1).symm⟩, hP.fill _ p1, a.inv.fill,
          ?_, ?_⟩
        · intro hr; rw [fill_con]
          by_contra hne
          rw [if_neg hne] at hr; simp at hr
        · intro hr
          rw [fill_con, fill_false_buf a.inv.good hf']
          refine ⟨?_, by simpa [SubOk, subOf, fill_con] using hh1, by simp [subOf], fun _ => ?_⟩
          · intro hz; rw [if_pos hz] at hr; simp at hr
          · rw [fill_idem a.inv.good]; exact hf'
    intro j hl h0 hp hi
    rw [array]
    cases hh : j.con.high with
    | some v => exact low false j hl h0 hp hi (by rw [hh]; rfl)
    | none =>
      obtain ⟨j1, e1⟩ := hP.ask j hp (by omega)
      have a := nibble_after hi h0 (by omega) e1
      have p1 := hP.nibble j j1 hp hi h0 (by omega) e1
      have hff := fill_full h0
      have st : Steps j j1 := .step (by omega) (by rw [hff]) (by rw [hff]; exact e1) (.refl _)
      have hl1 : j1.con.left = n + 1 := by rw [a.left, hh]; simp [hl]
      have hh1 : j1.con.high.isSome = true := by rw [a.high, hh]; rfl
      simp only [e1, Bool.false_eq_true, if_false]
      by_cases hf : j1.fill.2 = true
      · rw [if_pos hf]
        obtain ⟨j', ret, s, e, d⟩ := low (decide (j1.fill.1.rx.buf.length < 16)) j1.fill.1
          (by rw [fill_con]; exact hl1) (fill_true a.inv.good hf) (hP.fill _ p1) a.inv.fill
          (by rw [fill_con]; exact hh1)
        refine ⟨j', ret, s, e, ?_, d.keep, d.inv, d.good, d.more⟩
        obtain ⟨j2, s2, f2, c2⟩ := d.steps
        obtain ⟨j3, s3, f3, c3⟩ := s2.unfill a.inv.good
        exact ⟨j3, st.trans s3, f3.trans f2, c3.trans c2⟩
      · rw [if_neg hf]
        have hf' : j1.fill.2 = false := by simpa using hf
        refine ⟨_, _, _, rfl, ⟨j1, st, (fill_idem a.inv.good).symm, (fill_con j1).symm⟩, hP.fill _ p1, a.inv.fill,
          by simp, fun _ => ⟨by rw [fill_con]; omega, ?_, by simp, fun _ => by rw [fill_idem a.inv.good]; exact hf'⟩⟩
        simp only [SubOk, fill_con]
        intro hx; rw [hx] at hh1; simp at hh1

/-- The fast path. -/
theorem array_safe {P : Job → Prop} (hP : Closed P) (hC : Calm P) (strict : Bool) : ∀ (n : Nat) (j : Job),
    j.con.left = n → j.rx.dec.numPushAvail = 0 → P j → Inv j → j.con.high = none →
    (j.rx.dec.reqB = 0 ∨ 4 ≤ j.rx.buf.length) →
    ∃ j' ret s, array strict true n j = some (j', ret, s) ∧ Done P j j' ret s False := by
  intro n
  induction n with
  | zero =>
    intro j hl h0 hp hi _ _
    exact ⟨j, .success, .full, rfl, ⟨j, .refl j, rfl, rfl⟩, hp, hi, fun _ => hl, by simp⟩
  | succ n ih =>
    intro j hl h0 hp hi hh hneed
    rw [array, hh]
    simp only
    obtain ⟨j1, e1⟩ := hP.ask j hp (by omega)
    have a := nibble_after hi h0 (by omega) e1
    have p1 := hP.nibble j j1 hp hi h0 (by omega) e1
    have hff := fill_full h0
    have st : Steps j j1 := .step (by omega) (by rw [hff]) (by rw [hff]; exact e1) (.refl _)
    have hl1 : j1.con.left = n + 1 := by rw [a.left, hh]; simp [hl]
    have hh1 : j1.con.high.isSome = true := by rw [a.high, hh]; rfl
    have hreq : j1.rx.dec.reqA = j.rx.dec.reqB := by
      rcases a.reqA with h | ⟨h, -⟩
      · exact h
      · rw [hh] at h; simp at h
    have hf : j1.fill.2 = true := by
      rw [fill_eq a.inv.good]
      simp only [decide_eq_true_eq]
      have hb := hi.reqB
      have : j1.rx.dec.numPushAvail ≤ 4 * j.rx.dec.reqB := by
        unfold Ans.Dec.numPushAvail
        rw [hreq]
        split_ifs <;> omega
      rw [a.buf]; omega
    rw [e1]
    simp only [if_true, hf, Bool.not_true, Bool.and_false, Bool.false_eq_true, if_false]
    -- the low half
    have p1' := hP.fill _ p1
    have i1 := a.inv.fill
    have f1 := fill_true a.inv.good hf
    have c1 : j1.fill.1.con = j1.con := fill_con j1
    have idem1 := fill_idem a.inv.good
    have good1 := a.inv.good
    generalize hj2 : j1.fill.1 = j2 at *
    obtain ⟨j3, e3⟩ := hP.ask j2 p1' (by rw [c1]; omega)
    have a3 := nibble_after i1 f1 (by rw [c1]; omega) e3
    have p3 := hP.nibble j2 j3 p1' i1 f1 (by rw [c1]; omega) e3
    have st3 : Steps j j3 := st.snoc (by omega) hf (by rw [hj2]; exact e3)
    have hl3 : j3.con.left = n := by rw [a3.left, c1, hh1, hl1]; simp
    have hh3 : j3.con.high = none := by
      have := a3.high; rw [c1, hh1] at this
      exact Option.isNone_iff_eq_none.1 (by rw [← Option.not_isSome]; simpa using this)
    simp only [lowHalf, e3, Bool.true_and, if_true]
    by_cases hw : j2.rx.buf.length < 16
    · simp only [hw, decide_true, if_true]
      refine ⟨_, _, _, rfl, ⟨j3, st3, rfl, rfl⟩, p3, a3.inv, ?_, ?_⟩
      · intro hr
        by_contra hne
        rw [if_neg hne] at hr; simp at hr
      · intro hr
        have hb : ¬ 16 ≤ j3.rx.buf.length := by rw [a3.buf]; omega
        refine ⟨?_, ?_, ?_, False.elim⟩
        · intro hz; rw [if_pos hz] at hr; simp at hr
        · simp only [subOf, hb, if_false, SubOk]; exact hh3
        · simp [subOf, hb]
    · simp only [hw, decide_false, Bool.false_eq_true, if_false]
      have havail : j3.rx.dec.numPushAvail ≤ 16 := by
        have := a3.inv.good
        unfold Ans.Dec.Good at this
        unfold Ans.Dec.numPushAvail
        split_ifs <;> omega
      have hf3 : j3.fill.2 = true := by
        rw [fill_eq a3.inv.good]
        simp only [decide_eq_true_eq]
        rw [a3.buf]; omega
      simp only [hf3, Bool.not_true, Bool.and_false, Bool.false_eq_true, if_false]
      obtain ⟨j', ret, s, e, d⟩ := ih j3.fill.1 (by rw [fill_con]; exact hl3) (fill_true a3.inv.good hf3)
        (hP.fill _ p3) a3.inv.fill (by rw [fill_con]; exact hh3) (by
          rw [fill_eq a3.inv.good]
          simp only [Ans.pushData_reqB, List.length_drop, a3.buf]
          rcases a3.reqA with h | ⟨-, h⟩
          · right
            have hb := i1.reqB
            have : j3.rx.dec.numPushAvail ≤ 4 := by
              unfold Ans.Dec.numPushAvail
              rw [h]
              split_ifs <;> omega
            omega
          · left; exact hC j3 p3 (by omega))
      refine ⟨j', ret, s, e, ?_, d.keep, d.inv, d.good, d.more⟩
      obtain ⟨j4, s4, f4, c4⟩ := d.steps
      obtain ⟨j5, s5, f5, c5⟩ := s4.unfill a3.inv.good
      exact ⟨j5, st3.trans s5, f5.trans f4, c5.trans c4⟩

/-- A call on the careful path. -/
theorem content_low {P : Job → Prop} (hP : Closed P) (strict : Bool) (k : Nat) {s : Sub} {j : Job}
    (hs : SubOk s j) (hns : s ≠ .safe) (hl : j.con.left ≠ 0) (hp : P j) (hi : Inv j) :
    ∃ j' ret s', content strict (k + 1) s j = some (j', ret, s') ∧ Done P j j' ret s' True := by
  rw [content.eq_def]
  simp only
  by_cases hf : j.fill.2 = true
  · rw [if_pos hf]
    obtain ⟨j', ret, s', e, d⟩ := array_low hP strict j.fill.1.con.left j.fill.1 rfl (fill_true hi.good hf)
      (hP.fill _ hp) hi.fill
    have hst : ∃ j2, Steps j j2 ∧ j2.fill = j'.fill ∧ j2.con = j'.con := by
      obtain ⟨j2, s2, f2, c2⟩ := d.steps
      obtain ⟨j3, s3, f3, c3⟩ := s2.unfill hi.good
      exact ⟨j3, s3, f3.trans f2, c3.trans c2⟩
    cases s with
    | safe => exact absurd rfl hns
    | full => exact absurd hs (by simp [SubOk])
    | low =>
      simp only [e]
      cases ret with
      | success => exact ⟨j', _, _, rfl, hst, d.keep, d.inv, d.good, by simp⟩
      | needsInput => exact ⟨j', _, _, rfl, hst, d.keep, d.inv, d.good, d.more⟩
    | second =>
      simp only [e]
      cases ret with
      | success => exact ⟨j', _, _, rfl, hst, d.keep, d.inv, d.good, by simp⟩
      | needsInput => exact ⟨j', _, _, rfl, hst, d.keep, d.inv, d.good, d.more⟩
  · rw [if_neg hf]
    refine ⟨_, _, _, rfl, ⟨j, .refl j, (fill_idem hi.good).symm, (fill_con j).symm⟩, hP.fill _ hp, hi.fill,
      by simp, fun _ => ⟨by rw [fill_con]; exact hl, ?_, hns, fun _ => by
        rw [fill_idem hi.good]; simpa using hf⟩⟩
    cases s with
    | safe => exact absurd rfl hns
    | full => exact hs
    | low => simpa [SubOk, fill_con] using hs
    | second => simpa [SubOk, fill_con] using hs

/-- A call on either path. -/
theorem content_any {P : Job → Prop} (hP : Closed P) (hC : Calm P) (strict : Bool) {s : Sub} {j : Job}
    (hs : SubOk s j) (hl : j.con.left ≠ 0) (hp : P j) (hi : Inv j) :
    ∃ j' ret s', content strict 2 s j = some (j', ret, s') ∧ Done P j j' ret s' True := by
  by_cases hns : s = .safe
  · subst hns
    obtain ⟨hh, hb⟩ := hs
    have havail : j.rx.dec.numPushAvail ≤ 16 := by
      have := hi.good
      unfold Ans.Dec.Good at this
      unfold Ans.Dec.numPushAvail
      split_ifs <;> omega
    have hf : j.fill.2 = true := by
      rw [fill_eq hi.good]; simp only [decide_eq_true_eq]; omega
    obtain ⟨j', ret, s', e, d⟩ := array_safe hP hC strict j.fill.1.con.left j.fill.1 rfl (fill_true hi.good hf)
      (hP.fill _ hp) hi.fill (by rw [fill_con]; exact hh) (by
        rw [fill_eq hi.good]
        simp only [Ans.pushData_reqB, List.length_drop]
        by_cases h4 : 4 < j.rx.dec.reqA
        · left; exact hC j hp h4
        · right
          have : j.rx.dec.numPushAvail ≤ 4 := by
            unfold Ans.Dec.numPushAvail
            split_ifs <;> omega
          omega)
    have hst : ∃ j2, Steps j j2 ∧ j2.fill = j'.fill ∧ j2.con = j'.con := by
      obtain ⟨j2, s2, f2, c2⟩ := d.steps
      obtain ⟨j3, s3, f3, c3⟩ := s2.unfill hi.good
      exact ⟨j3, s3, f3.trans f2, c3.trans c2⟩
    rw [content, if_pos hf]
    simp only [e]
    cases ret with
    | success => exact ⟨j', _, _, rfl, hst, d.keep, d.inv, d.good, by simp⟩
    | needsInput =>
      obtain ⟨m1, m2, m3, -⟩ := d.more rfl
      obtain ⟨j4, ret, s4, e4, d4⟩ := content_low hP strict 0 m2 m3 m1 d.keep d.inv
      refine ⟨j4, ret, s4, e4, ?_, d4.keep, d4.inv, d4.good, d4.more⟩
      -- join the two parts
      obtain ⟨j2, s2, f2, c2⟩ := hst
      obtain ⟨j5, s5, f5, c5⟩ := d4.steps
      cases s5 with
      | refl _ => exact ⟨j2, s2, f2.trans f5, c2.trans c5⟩
      | step x y z r =>
        exact ⟨j5, s2.trans (.step (by rw [c2]; exact x) (by rw [f2]; exact y) (by rw [f2]; exact z) r), f5, c5⟩
  · exact content_low hP strict 1 hs hns hl hp hi

end Divans.Fast
