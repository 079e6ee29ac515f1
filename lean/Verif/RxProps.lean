import Verif.Rx
import Verif.AdaptiveProps
import Mathlib.Tactic.SplitIfs

/-!
# A stream received nibble by nibble

`Feeds cm tr fut r`: the receiver `r`, once the bytes `fut` have arrived too, will get exactly the
nibbles of `tr`, provided it asks for each in the way `tr` says.  With `cm` true, moreover, no state of
the entropy decoder is waiting for input at the end of a chunk; this holds for streams of the encoder.
-/

namespace Divans.Adaptive

variable {κ ι : Type} [DecidableEq κ] [DecidableEq ι]

/-- Traces that are coded safely: speeds that cannot overflow, nibbles below 16. -/
def Trace.Ok (tr : Trace κ ι) : Prop := ∀ x ∈ tr, x.1.Safe ∧ x.2 < 16

/-- The bytes to come are those of an encoder for `tr`, followed by `tail`.  `d0` is the decoder when it started to wait for bytes, `x` the bytes it
has taken since. -/
structure Coded (tr : Trace κ ι) (fut tail : List UInt8) (r : Rx κ ι) : Prop where
  ok : r.ses.Ok
  safe : Trace.Ok tr
  good : r.dec.Good
  reqB : r.dec.reqB ≤ 1
  link : ∃ d0 x, d0.Good ∧ (∀ y, (r.dec.pushData y).1 = (Ans.Dec.pushData d0 (x ++ y)).1) ∧
    r.dec.numPushAvail + x.length = d0.numPushAvail ∧
    Ans.SInv d0 (slotsOf r.ses tr) (x ++ (r.buf ++ fut)) tail

theorem slotsOf_valid : ∀ (tr : Trace κ ι) (s : Session κ ι), s.Ok → Trace.Ok tr →
    ∀ sl ∈ slotsOf s tr, sl.Valid := by
  intro tr
  induction tr with
  | nil => intro s _ _ sl h; simp [slotsOf] at h
  | cons a t ih =>
    obtain ⟨ch, n⟩ := a
    intro s hs ht sl h
    obtain ⟨h1, h2⟩ := ht (ch, n) (by simp)
    rw [slotsOf] at h
    rcases List.mem_cons.1 h with h | h
    · obtain ⟨c, hu, ec⟩ := coding_usable s hs ch
      rw [h, ec]
      exact (Cdf.slotsExact_of_usable (Cdf.Opt.new c).divByMax c hu
        (Cdf.exactDiv_opt c (Cdf.max_pos c hu) hu.1)).1 n h2
    · exact ih _ (after_ok s hs ch h1 n h2) (fun x hx => ht x (by simp [hx])) sl h

/-- Bytes on their way arrive. -/
theorem Coded.push {tr : Trace κ ι} {p fut tail : List UInt8} {r : Rx κ ι}
    (h : Coded tr (p ++ fut) tail r) : Coded tr fut tail (r.push p) := by
  obtain ⟨d0, x, h1, h2, h3, h4⟩ := h.link
  exact ⟨h.ok, h.safe, h.good, h.reqB, d0, x, h1, h2, h3, by
    simpa [Rx.push, List.append_assoc] using h4⟩

/-- One request. -/
theorem Coded.step {ch : Choice κ ι} {n : Nat} {tr : Trace κ ι} {fut tail : List UInt8} {r : Rx κ ι}
    (h : Coded ((ch, n) :: tr) fut tail r) :
    (∃ r', r.step ch = (r', some n) ∧ r'.ses = r.ses.after ch n ∧ Coded tr fut tail r') ∨
    (∃ r', r.step ch = (r', none) ∧ r'.ses = r.ses ∧ r'.buf = [] ∧ fut ≠ [] ∧
      Coded ((ch, n) :: tr) fut tail r') := by
  obtain ⟨d0, x, hg0, hl, hav, hS⟩ := h.link
  obtain ⟨hsafe, hn⟩ := h.safe (ch, n) (by simp)
  have hcount := Ans.pushData_count r.dec r.buf h.good
  have havail := Ans.pushData_avail r.dec r.buf h.good
  have hgood := Ans.pushData_good r.dec r.buf h.good
  have hrb := Ans.pushData_reqB r.dec r.buf
  obtain ⟨d1, cur', more', hfill, ⟨o1, o2⟩, hS'⟩ := Ans.SInv_step d0 ((r.ses.coding ch).symRange n).toSlot
    (slotsOf (r.ses.after ch n) tr) (x ++ (r.buf ++ fut)) [] tail
    (slotsOf_valid _ r.ses h.ok h.safe) (by simpa [slotsOf] using hS)
  have hfs := Ans.fill_spec d0 (x ++ (r.buf ++ fut)) [] hg0
  simp only [List.flatten_nil, List.append_nil] at hfs hS'
  have henough : d0.numPushAvail ≤ (x ++ (r.buf ++ fut)).length := by
    rcases Nat.lt_or_ge (x ++ (r.buf ++ fut)).length d0.numPushAvail with hlt | hge
    · rw [hfs.2 hlt] at hfill; simp at hfill
    · exact hge
  obtain ⟨c2, m2, e1, e2⟩ := hfs.1 henough
  rw [hfill] at e1
  simp only [Option.some.injEq, Prod.mk.injEq] at e1
  obtain ⟨rfl, rfl, rfl⟩ := e1
  simp only [List.length_append] at henough
  by_cases hc : r.dec.numPushAvail ≤ r.buf.length
  · left
    have h0 : (r.dec.pushData r.buf).1.numPushAvail = 0 := by omega
    have hd : (r.dec.pushData r.buf).1 = (d0.pushData (x ++ (r.buf ++ fut))).1 := by
      rw [hl r.buf, ← List.append_assoc]
      exact (Ans.pushData_full d0 (x ++ r.buf) fut hg0 (by simp; omega)).symm
    obtain ⟨c, hu, ec⟩ := coding_usable r.ses h.ok ch
    obtain ⟨-, -, x3⟩ := Cdf.slotsExact_of_usable (Cdf.Opt.new c).divByMax c hu
        (Cdf.exactDiv_opt c (Cdf.max_pos c hu) hu.1)
    have hlook := x3 n hn (r.dec.pushData r.buf).1.offset (by
      rw [ec] at o1; rw [hd]; exact o1) (by rw [ec] at o2; rw [hd]; exact o2)
    have hl1 : ((r.ses.coding ch).lookup (r.dec.pushData r.buf).1.offset).1 = n := by
      rw [ec]; exact congrArg Prod.fst hlook
    have hl2 : ((r.ses.coding ch).lookup (r.dec.pushData r.buf).1.offset).2.toSlot =
        ((r.ses.coding ch).symRange n).toSlot := by
      rw [ec]; exact congrArg Prod.snd hlook
    have hbuf : r.buf.drop (r.dec.pushData r.buf).2 ++ fut =
        (x ++ (r.buf ++ fut)).drop d0.numPushAvail := by
      rw [hcount, Nat.min_eq_right hc, show d0.numPushAvail = x.length + r.dec.numPushAvail by omega,
        ← List.drop_drop, List.drop_left, List.drop_append_of_le_length hc]
    refine ⟨⟨r.ses.after ch n, (r.dec.pushData r.buf).1.advance ((r.ses.coding ch).symRange n).toSlot,
      r.buf.drop (r.dec.pushData r.buf).2⟩, ?_, rfl, ?_⟩
    · simp only [Rx.step]
      rw [if_neg (by simp [h0]), hl1, hl2]
    · have hreqB : (r.dec.pushData r.buf).1.reqB ≤ 1 := by rw [hrb]; exact h.reqB
      have hg' : ((r.dec.pushData r.buf).1.advance ((r.ses.coding ch).symRange n).toSlot).Good := by
        generalize (r.dec.pushData r.buf).1 = e at hreqB
        have hb : e.reqB = 0 ∨ e.reqB = 1 := by omega
        unfold Ans.Dec.Good Ans.Dec.advance
        rcases hb with hb | hb <;> rw [hb] <;> split_ifs <;> simp
      refine ⟨after_ok _ h.ok ch hsafe n hn, fun y hy => h.safe y (by simp [hy]), hg', ?_,
        (r.dec.pushData r.buf).1.advance ((r.ses.coding ch).symRange n).toSlot, [], hg',
        fun y => rfl, rfl, ?_⟩
      · show (if _ then 1 else 0) ≤ 1
        split_ifs <;> omega
      · rw [List.nil_append]
        rw [e2, ← hbuf, ← hd] at hS'
        exact hS'
  · right
    have h1 : (r.dec.pushData r.buf).1.numPushAvail ≠ 0 := by omega
    have hall : (r.dec.pushData r.buf).2 = r.buf.length := by omega
    refine ⟨⟨r.ses, (r.dec.pushData r.buf).1, []⟩, ?_, rfl, rfl, ?_, h.ok, h.safe, hgood,
      by rw [hrb]; exact h.reqB, d0, x ++ r.buf, hg0, ?_, ?_, ?_⟩
    · simp only [Rx.step]
      rw [if_pos h1, hall, List.drop_length]
    · rintro rfl
      simp at henough
      omega
    · intro y
      rw [Ans.pushData_split r.dec r.buf y h.good, hl, List.append_assoc]
    · simp only [havail, List.length_append]; omega
    · simpa [List.append_assoc] using hS

/-- At the start, the bytes of an encoder run feed their trace. -/
theorem coded_start (tr : Trace κ ι) (htr : Trace.Ok tr) (ops : List Ans.EncOp)
    (hputs : Ans.putsOf ops = slotsOf Session.init tr) (hclosed : Ans.ClosedOnce ops)
    (out : List UInt8) (e : Ans.Enc) (hrun : Ans.Enc.init.run ops = some (out, e)) (hq : e.q = [])
    (tail : List UInt8) : Coded tr (out ++ tail) tail Rx.init := by
  have hvs := slotsOf_valid tr (Session.init : Session κ ι) ok_init htr
  have hb := Ans.run_spec ops Ans.Enc.init out e (by simp [Ans.Enc.init, Ans.symbolsPerChunk, Ans.maxBufferSize])
    (by simp [Ans.Enc.init]) (by rw [hputs]; exact hvs) hclosed hrun
  rw [hq, hputs] at hb
  have hg : Ans.Dec.init.Good := by simp [Ans.Dec.Good, Ans.Dec.init]
  refine ⟨ok_init, htr, hg, by simp [Rx.init, Ans.Dec.init], Ans.Dec.init, [], hg, fun y => rfl, rfl, ?_⟩
  simp only [Ans.Enc.init, List.append_nil, List.nil_append, List.reverse_nil] at hb
  exact Or.inl ⟨⟨rfl, rfl⟩, by simp [hb, Rx.init]⟩

/-- Between chunks a stream of the encoder leaves no state waiting for input. -/
theorem Coded.calm {tr : Trace κ ι} {fut tail : List UInt8} {r : Rx κ ι} (h : Coded tr fut tail r)
    (h4 : 4 < r.dec.reqA) : r.dec.reqB = 0 := by
  obtain ⟨d0, x, g0, hl, hav, hS⟩ := h.link
  have e := hl []
  rw [List.append_nil] at e
  have hb : r.dec.reqB = d0.reqB := by
    have h1 := Ans.pushData_reqB r.dec []
    have h2 := Ans.pushData_reqB d0 x
    rw [e] at h1; rw [← h1, h2]
  have hg := h.good
  rcases hS with ⟨⟨h8, h0⟩, -⟩ | ⟨-, pa, pb, hA, -, -⟩
  · rw [hb]; exact h0
  · exfalso
    have h1 : d0.reqA ≤ 1 := by rcases hA with ⟨h, -⟩ | ⟨h, -⟩ <;> omega
    have r1 := Ans.pushData_reqA r.dec [] hg
    have r2 := Ans.pushData_reqA d0 x g0
    rw [e, r2] at r1
    unfold Ans.Dec.Good at hg
    have a1 : d0.numPushAvail ≤ 4 := by unfold Ans.Dec.numPushAvail; split_ifs <;> omega
    have a2 : 0 < r.dec.numPushAvail := by unfold Ans.Dec.numPushAvail; split_ifs <;> omega
    simp only [List.length_nil] at r1
    rw [if_neg (by omega : ¬ r.dec.numPushAvail ≤ 0)] at r1
    split_ifs at r1 <;> omega

/-! ## Any bytes -/

/-- No state of the entropy decoder is waiting for input at the end of a chunk. -/
def CalmDec (d : Ans.Dec) : Prop := 4 < d.reqA → d.reqB = 0

/-- The receiver, with the bytes it has, gets the nibbles of `tr` when it asks as `tr` says. -/
inductive Gives (cm : Bool) : Rx κ ι → Trace κ ι → Prop where
  | done {r : Rx κ ι} : (cm = true → CalmDec r.dec) → Gives cm r []
  | more {r r' : Rx κ ι} {ch : Choice κ ι} {n : Nat} {tr : Trace κ ι} : (cm = true → CalmDec r.dec) →
      r.step ch = (r', some n) → Gives cm r' tr → Gives cm r ((ch, n) :: tr)

theorem Gives.calm {r : Rx κ ι} {tr : Trace κ ι} (h : Gives true r tr) : CalmDec r.dec := by
  cases h with
  | done h => exact h rfl
  | more h _ _ => exact h rfl

/-- See the head of the file. -/
structure Feeds (cm : Bool) (tr : Trace κ ι) (fut : List UInt8) (r : Rx κ ι) : Prop where
  good : r.dec.Good
  reqB : r.dec.reqB ≤ 1
  gives : Gives cm (r.push fut) tr

theorem Feeds.calm {tr : Trace κ ι} {fut : List UInt8} {r : Rx κ ι} (h : Feeds true tr fut r) :
    CalmDec r.dec := h.gives.calm

/-- Bytes on their way arrive. -/
theorem Feeds.push {cm : Bool} {tr : Trace κ ι} {p fut : List UInt8} {r : Rx κ ι}
    (h : Feeds cm tr (p ++ fut) r) : Feeds cm tr fut (r.push p) :=
  ⟨h.good, h.reqB, by have := h.gives; simpa [Rx.push, List.append_assoc] using this⟩

/-- `advance` keeps the decoder in good shape. -/
theorem advance_good {d : Ans.Dec} (hb : d.reqB ≤ 1) (sl : Ans.Slot) :
    (d.advance sl).Good ∧ (d.advance sl).reqB ≤ 1 := by
  constructor
  · have hb : d.reqB = 0 ∨ d.reqB = 1 := by omega
    unfold Ans.Dec.Good Ans.Dec.advance
    rcases hb with hb | hb <;> rw [hb] <;> split_ifs <;> simp
  · show (if _ then 1 else 0) ≤ 1
    split_ifs <;> omega

/-- A request keeps the receiver in good shape. -/
theorem step_good {r r' : Rx κ ι} {ch : Choice κ ι} {x : Option Nat} (hg : r.dec.Good)
    (hb : r.dec.reqB ≤ 1) (h : r.step ch = (r', x)) : r'.dec.Good ∧ r'.dec.reqB ≤ 1 := by
  have hgood := Ans.pushData_good r.dec r.buf hg
  have hrb := Ans.pushData_reqB r.dec r.buf
  simp only [Rx.step] at h
  split_ifs at h
  · simp only [Prod.mk.injEq] at h
    rw [← h.1]
    exact ⟨hgood, by simp only [hrb]; exact hb⟩
  · simp only [Prod.mk.injEq] at h
    rw [← h.1]
    exact advance_good (by rw [hrb]; exact hb) _

/-- A request that is answered is answered the same with more bytes there. -/
theorem step_some_push {r r' : Rx κ ι} {ch : Choice κ ι} {n : Nat} (hg : r.dec.Good)
    (h : r.step ch = (r', some n)) (fut : List UInt8) : (r.push fut).step ch = (r'.push fut, some n) := by
  have hcount := Ans.pushData_count r.dec r.buf hg
  have hcount' := Ans.pushData_count r.dec (r.buf ++ fut) hg
  have havail := Ans.pushData_avail r.dec r.buf hg
  simp only [Rx.step] at h
  split_ifs at h with h0
  · simp at h
  have hle : r.dec.numPushAvail ≤ r.buf.length := by omega
  have hfull := Ans.pushData_full r.dec r.buf fut hg hle
  simp only [Prod.mk.injEq, Option.some.injEq] at h
  obtain ⟨rfl, rfl⟩ := h
  simp only [Rx.step, Rx.push, hfull]
  rw [if_neg h0, hcount', hcount, Nat.min_eq_right hle,
    Nat.min_eq_right (by rw [List.length_append]; omega), List.drop_append_of_le_length hle]

/-- A request that is not answered only moves bytes. -/
theorem step_none {r r' : Rx κ ι} {ch : Choice κ ι} (hg : r.dec.Good) (h : r.step ch = (r', none)) :
    r' = ⟨r.ses, (r.dec.pushData r.buf).1, []⟩ ∧ r.buf.length < r.dec.numPushAvail := by
  have hcount := Ans.pushData_count r.dec r.buf hg
  have havail := Ans.pushData_avail r.dec r.buf hg
  simp only [Rx.step] at h
  split_ifs at h with h0
  rotate_left
  · simp at h
  simp only [Prod.mk.injEq, and_true] at h
  have hlt : r.buf.length < r.dec.numPushAvail := by omega
  refine ⟨?_, hlt⟩
  rw [← h, hcount, Nat.min_eq_left (Nat.le_of_lt hlt), List.drop_length]

/-- Bytes moved into the decoder early: the next request does not notice. -/
theorem step_moved (r : Rx κ ι) (hg : r.dec.Good) (k : Nat) (hk : k ≤ r.dec.numPushAvail) (ch : Choice κ ι) :
    (⟨r.ses, (r.dec.pushData (r.buf.take k)).1, r.buf.drop k⟩ : Rx κ ι).step ch = r.step ch := by
  have hg' := Ans.pushData_good r.dec (r.buf.take k) hg
  have ha := Ans.pushData_avail r.dec (r.buf.take k) hg
  have hs := Ans.pushData_split r.dec (r.buf.take k) (r.buf.drop k) hg
  rw [List.take_append_drop] at hs
  have hd : (r.buf.drop k).drop ((r.dec.pushData (r.buf.take k)).1.pushData (r.buf.drop k)).2 =
      r.buf.drop (r.dec.pushData r.buf).2 := by
    rw [Ans.pushData_count _ _ hg', Ans.pushData_count _ _ hg, ha, List.drop_drop, List.length_take,
      List.length_drop]
    rcases Nat.le_total k r.buf.length with h | h
    · congr 1; omega
    · rw [List.drop_eq_nil_of_le (by omega), List.drop_eq_nil_of_le (by omega)]
  simp only [Rx.step, hs, hd]

/-- Bytes moved into the decoder early make no difference. -/
theorem gives_moved {cm : Bool} {r : Rx κ ι} {tr : Trace κ ι} (hg : r.dec.Good) (k : Nat)
    (hk : k ≤ r.dec.numPushAvail) :
    Gives cm r tr → Gives cm (⟨r.ses, (r.dec.pushData (r.buf.take k)).1, r.buf.drop k⟩ : Rx κ ι) tr := by
  intro h
  have hcalm : CalmDec r.dec → CalmDec (r.dec.pushData (r.buf.take k)).1 := by
    intro hc h4
    rw [Ans.pushData_reqB]
    apply hc
    have hr := Ans.pushData_reqA r.dec (r.buf.take k) hg
    have ha := Ans.pushData_avail r.dec (r.buf.take k) hg
    have hg' := Ans.pushData_good r.dec (r.buf.take k) hg
    unfold Ans.Dec.Good at hg
    rw [hr] at h4
    unfold Ans.Dec.numPushAvail at h4
    split_ifs at h4 <;> omega
  cases h with
  | done hc => exact .done (fun e => hcalm (hc e))
  | more hc hs ht => exact .more (fun e => hcalm (hc e)) (by rw [step_moved r hg k hk]; exact hs) ht

/-- The way back. -/
theorem gives_unmoved {r : Rx κ ι} {tr : Trace κ ι} (hg : r.dec.Good) (k : Nat)
    (hk : k ≤ r.dec.numPushAvail)
    (h : Gives false (⟨r.ses, (r.dec.pushData (r.buf.take k)).1, r.buf.drop k⟩ : Rx κ ι) tr) :
    Gives false r tr := by
  cases h with
  | done hc => exact .done (by simp)
  | more hc hs ht => exact .more (by simp) (by rw [← step_moved r hg k hk]; exact hs) ht

/-- One request. -/
theorem Feeds.step {cm : Bool} {ch : Choice κ ι} {n : Nat} {tr : Trace κ ι} {fut : List UInt8} {r : Rx κ ι}
    (h : Feeds cm ((ch, n) :: tr) fut r) :
    (∃ r', r.step ch = (r', some n) ∧ Feeds cm tr fut r') ∨
    (∃ r', r.step ch = (r', none) ∧ r'.buf = [] ∧ fut ≠ [] ∧ Feeds cm ((ch, n) :: tr) fut r') := by
  obtain ⟨hg, hb, hgv⟩ := h
  rcases hst : r.step ch with ⟨r', _ | m⟩
  · right
    obtain ⟨rfl, hlt⟩ := step_none hg hst
    have hg' := step_good hg hb hst
    refine ⟨_, rfl, rfl, ?_, hg'.1, hg'.2, ?_⟩
    · rintro rfl
      cases hgv with
      | more _ hs _ =>
        rw [show r.push [] = r by simp [Rx.push], hst] at hs
        simp at hs
    · have := gives_moved (r := r.push fut) hg r.buf.length (Nat.le_of_lt hlt) hgv
      simpa [Rx.push] using this
  · left
    have h1 := step_some_push hg hst fut
    have hg' := step_good hg hb hst
    cases hgv with
    | more _ hs ht =>
      rw [h1] at hs
      simp only [Prod.mk.injEq, Option.some.injEq] at hs
      obtain ⟨rfl, rfl⟩ := hs
      exact ⟨r', rfl, hg'.1, hg'.2, ht⟩

/-- A stream of the encoder gives its nibbles. -/
theorem Coded.feeds {tr : Trace κ ι} {fut tail : List UInt8} {r : Rx κ ι} (h : Coded tr fut tail r) :
    Feeds true tr fut r := by
  refine ⟨h.good, h.reqB, ?_⟩
  rw [← List.append_nil fut] at h
  have h := h.push
  revert h
  clear * -
  generalize r.push fut = q
  induction tr generalizing q with
  | nil => intro h; exact .done (fun _ => h.calm)
  | cons a t ih =>
    intro h
    obtain ⟨ch, n⟩ := a
    have hc : true = true → CalmDec q.dec := fun _ => h.calm
    rcases h.step with ⟨r', h1, -, h3⟩ | ⟨r', -, -, -, h4, -⟩
    · exact .more hc h1 (ih _ h3)
    · exact absurd rfl h4

/-- At the start, the bytes of an encoder run feed their trace. -/
theorem feeds_start (tr : Trace κ ι) (htr : Trace.Ok tr) (ops : List Ans.EncOp)
    (hputs : Ans.putsOf ops = slotsOf Session.init tr) (hclosed : Ans.ClosedOnce ops)
    (out : List UInt8) (e : Ans.Enc) (hrun : Ans.Enc.init.run ops = some (out, e)) (hq : e.q = [])
    (tail : List UInt8) : Feeds true tr (out ++ tail) Rx.init :=
  (coded_start tr htr ops hputs hclosed out e hrun hq tail).feeds

/-- Such an encoder run exists for every safe trace. -/
theorem trace_encode_total (tr : Trace κ ι) (htr : Trace.Ok tr) :
    ∃ ops out e, Ans.putsOf ops = slotsOf Session.init tr ∧ Ans.ClosedOnce ops ∧
      Ans.Enc.init.run ops = some (out, e) ∧ e.q = [] := by
  obtain ⟨out, e, h1, h2, h3, h4⟩ := Ans.ans_encode_total _
    (slotsOf_valid tr (Session.init : Session κ ι) ok_init htr)
  exact ⟨_, out, e, h3, h4, h1, h2⟩

/-- A trace that meets the hypotheses: a mixed, a plain and a fixed model. -/
example : Trace.Ok ([(.mixed 0 1 () (some ⟨1664, 16384⟩) (some ⟨16, 48⟩), 3),
    (.plain 1 (some ⟨64, 16384⟩), 15), (.fixed, 0)] : Trace (Fin 2) Unit) := by
  intro x hx
  simp only [List.mem_cons, List.not_mem_nil, or_false] at hx
  rcases hx with rfl | rfl | rfl <;> simp [Choice.Safe, Cdf.SafeSpeed]

end Divans.Adaptive
