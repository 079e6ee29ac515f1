import Verif.CallEndRun
import Verif.RecodeCrash
import Verif.CodecRobust
import Verif.OnceLemmas
import Verif.LitProps

/-!
# What can make a call of the decompressor panic

The invariant of `Verif.CallEnd` with what the decoders of commands and literals need besides: bounded commands,
tables of the right size, a recoder that is where the main side thinks it is.  With it every panic of a step has one
of the causes listed here.
-/

namespace Divans.Lit

/-- The tables of the literal decoder have the right sizes. -/
structure Lbk.Shape (l : Lbk) : Prop where
  map : l.ctxMap.length = 16384
  mix : l.mixing.length = 8192
  mode : l.mode ≤ 3
  adapt : l.adapt.length = 4

theorem shape_init : Lbk.init.Shape := ⟨init_ok.map, init_ok.mix, init_ok.mode, init_ok.adaptLen⟩

/-- No lookup of the literal decoder is out of bounds. -/
theorem nibChoice_shape {l : Lbk} (h : l.Shape) (high : Bool) {prior : Nat} (hp : prior < 16) : ∃ ch, nibChoice l high prior = some ch := by
  obtain ⟨ctx, hc, hc'⟩ := context_total (l := { l with adapt := Lbk.init.adapt })
    ⟨h.map, h.mix, h.mode, init_ok.adaptLen, init_ok.speeds⟩
  replace hc : l.context = some ctx := hc
  have hprev : (l.last8 >>> 0x38) &&& 0xff < 256 := by
    have : (l.last8 >>> 0x38) &&& 0xff ≤ 0xff := Nat.and_le_right
    omega
  have hmi : mixIndex high ctx ((l.last8 >>> 0x38) &&& 0xff) prior < l.mixing.length := by
    rw [h.mix]; exact mixIndex_lt hc' hprev
  obtain ⟨mm, hmm⟩ : ∃ mm, l.mixing[mixIndex high ctx ((l.last8 >>> 0x38) &&& 0xff) prior]? = some mm :=
    ⟨_, List.getElem?_eq_getElem hmi⟩
  obtain ⟨i1, i2, i3⟩ := nibIndex_lt (high := high) (mm := mm) hc' (strideByte_lt l.last8 mm) hp
  have get : ∀ i, i < 4 → ∃ s, l.adapt[i]? = some s := by
    intro i hi
    have : i < l.adapt.length := by rw [h.adapt]; exact hi
    exact ⟨_, List.getElem?_eq_getElem this⟩
  obtain ⟨sp, hsp⟩ := get 0 (by omega)
  obtain ⟨sc, hsc⟩ := get (if high then 3 else 2) (by cases high <;> decide)
  obtain ⟨cm, hcm⟩ : ∃ cm, cmKey high prior ctx = some cm := by
    unfold cmKey
    cases high
    · exact ⟨_, by rw [if_neg (by simp), lin3 (by omega) hp hc']; rfl⟩
    · exact ⟨_, by rw [if_pos rfl, lin2 (by omega) hc']; rfl⟩
  unfold nibChoice nibKey
  rw [hc]; simp only [Option.bind_some]
  rw [hmm]; simp only [Option.bind_some]
  rw [lin3 i1 i2 i3]; simp only [Option.bind_some, Option.map_some]
  rw [hsp]; simp only [Option.bind_some]
  rw [hcm, hsc]; simp only [Option.bind_some]
  by_cases h1 : 1 < l.mixParam
  · rw [if_pos h1]; exact ⟨_, rfl⟩
  · rw [if_neg h1]
    by_cases h2 : mm = 2
    · rw [if_pos h2]; exact ⟨_, rfl⟩
    · rw [if_neg h2]; exact ⟨_, rfl⟩

/-- What a literal in progress knows of its current byte. -/
def Content.Half (c : Content) : Prop := ∀ h, c.high = some h → h < 16

theorem ask_shape {l : Lbk} (h : l.Shape) {c : Content} (hc : c.Half) : ∃ ch, c.ask l = some ch := by
  unfold Content.ask
  cases hh : c.high with
  | none => exact nibChoice_shape h true (by decide)
  | some k => exact nibChoice_shape h false (hc k hh)

theorem take_shape {l : Lbk} (h : l.Shape) (c : Content) {n : Nat} (hn : n < 16) : (c.take l n).1.Shape ∧ (c.take l n).2.Half := by
  unfold Content.take
  cases hh : c.high with
  | none => exact ⟨h, fun k hk => by cases hk; exact hn⟩
  | some k =>
    obtain ⟨h1, h2, h3, h4⟩ := h
    exact ⟨⟨h1, h2, h3, h4⟩, fun k hk => by cases hk⟩

theorem mapM_length : ∀ (fs : List (Nat × Nat)) (a : List Cdf.Speed), fs.mapM speedOf = some a → a.length = fs.length := by
  intro fs
  induction fs with
  | nil => intro a h; simp at h; subst h; rfl
  | cons f t ih =>
    intro a h
    rw [List.mapM_cons] at h
    cases hf : speedOf f with
    | none => rw [hf] at h; cases h
    | some s =>
      rw [hf] at h
      cases ht : t.mapM speedOf with
      | none => rw [ht] at h; cases h
      | some b =>
        rw [ht] at h
        cases h
        simp [ih b ht]

theorem mapM_none : ∀ (fs : List (Nat × Nat)), fs.mapM speedOf = none → ∃ f ∈ fs, speedOf f = none := by
  intro fs
  induction fs with
  | nil => intro h; cases h
  | cons f t ih =>
    intro h
    rw [List.mapM_cons] at h
    cases hf : speedOf f with
    | none => exact ⟨f, by simp, hf⟩
    | some s =>
      rw [hf] at h
      cases ht : t.mapM speedOf with
      | none =>
        obtain ⟨g, hg, hg'⟩ := ih ht
        exact ⟨g, by simp [hg], hg'⟩
      | some b => rw [ht] at h; cases h

/-- A prediction mode command is accepted unless one of its speeds is out of range. -/
theorem obsPm_shape {l : Lbk} {p : Codec.Pm} (hp : Codec.PmInv p) :
    (l.obsPm p = .panic → ∃ f ∈ p.speeds, speedOf f = none) ∧ ∀ l', l.obsPm p = .ok l' → l'.Shape := by
  unfold Lbk.obsPm
  have := hp.mode
  rw [if_neg (by omega)]
  cases hm : p.speeds.mapM speedOf with
  | none => exact ⟨fun _ => mapM_none _ hm, by simp⟩
  | some a =>
    simp only
    rw [if_pos ⟨hp.lit, hp.mix⟩]
    refine ⟨by simp, ?_⟩
    intro l' h
    cases h
    exact ⟨hp.lit, hp.mix, hp.mode, (mapM_length _ _ hm).trans hp.speeds⟩

end Divans.Lit

namespace Divans.Call
open Divans.Adaptive Divans.Pipe Divans.File

variable {dw : Nat → Nat → Nat → List UInt8} {skip : Bool} {L : Nat}

/-- What the main side is doing and where the recoder is. -/
def AtOk (dw : Nat → Nat → Nat → List UInt8) (r : Rcv) : Prop :=
  match r.at_ with
  | .idle => r.ring.sub = 0
  | .content c => r.ring.sub = 0 ∧ c.Half
  | .filling c => Recode.SubOk c r.ring.sub ∧ ∀ w n, c = .dict w n → ∃ z i t, w = dw z i t
  | .finished => True

/-- What holds besides `Live` after any bytes. -/
structure Fit (dw : Nat → Nat → Nat → List UInt8) (s : St) : Prop where
  core : Codec.CoreInv s.b.rcv.core
  hold : ∀ g ∈ held s.hold, Codec.GotOk g
  result : ∀ g ∈ s.result, Codec.GotOk g
  queue : ∀ g ∈ s.b.rcv.queue, Codec.GotOk g
  lbk : s.b.rcv.lbk.Shape
  at_ : AtOk dw s.b.rcv

/-- The main side and the decoder of commands are the same. -/
structure Alike (s t : St) : Prop where
  core : t.b.rcv.core = s.b.rcv.core
  lbk : t.b.rcv.lbk = s.b.rcv.lbk
  ring : t.b.rcv.ring = s.b.rcv.ring
  at_ : t.b.rcv.at_ = s.b.rcv.at_
  queue : t.b.rcv.queue = s.b.rcv.queue
  hold : t.hold = s.hold
  result : t.result = s.result

theorem Alike.fit {s t : St} (h : Alike s t) (f : Fit dw s) : Fit dw t := by
  obtain ⟨h1, h2, h3, h4, h5, h6, h7⟩ := h
  obtain ⟨f1, f2, f3, f4, f5, f6⟩ := f
  refine ⟨by rw [h1]; exact f1, by rw [h6]; exact f2, by rw [h7]; exact f3, by rw [h5]; exact f4, by rw [h2]; exact f5, ?_⟩
  unfold AtOk at f6 ⊢
  rw [h4, h3]
  exact f6

theorem pull_alike (s : St) : Alike s s.pull := by
  unfold St.pull
  by_cases h1 : s.b.rcv.cmdRx.buf ≠ []
  · rw [if_pos h1]; exact ⟨rfl, rfl, rfl, rfl, rfl, rfl, rfl⟩
  rw [if_neg h1]
  by_cases h2 : s.mem ≠ [] ∧ 2 ≤ s.back.length
  · rw [if_pos h2]; exact ⟨rfl, rfl, rfl, rfl, rfl, rfl, rfl⟩
  rw [if_neg h2]
  simp only
  by_cases hm : s.mem = []
  · simp only [if_pos hm]
    cases s.data <;> exact ⟨rfl, rfl, rfl, rfl, rfl, rfl, rfl⟩
  · simp only [if_neg hm]
    cases s.data <;> exact ⟨rfl, rfl, rfl, rfl, rfl, rfl, rfl⟩

theorem fill_alike (s : St) : Alike s s.fill.1 := by
  unfold St.fill
  by_cases h0 : s.b.rcv.cmdRx.dec.numPushAvail = 0
  · rw [if_pos h0]; exact ⟨rfl, rfl, rfl, rfl, rfl, rfl, rfl⟩
  rw [if_neg h0]
  obtain ⟨h1, h2, h3, h4, h5, h6, h7⟩ := pull_alike s
  exact ⟨h1, h2, h3, h4, h5, h6, h7⟩

theorem lookup_small (c : Cdf.Cdf) (off : Int) : Cdf.lookupSym c off < 16 := by
  have := Pipe.firstAbove_le c (Num.i16 ((off * Cdf.max c) >>> 15)) 15 0
  unfold Cdf.lookupSym
  omega

theorem take_small {κ ι : Type} [DecidableEq κ] [DecidableEq ι] (r : Rx κ ι) (ch : Choice κ ι) : (take r ch).2 < 16 :=
  lookup_small _ _

theorem held_of_holdFor {o : Option Codec.Got} {g : Codec.Got} (h : g ∈ held (holdFor o)) : o = some g := by
  cases o with
  | none => simp [holdFor, held] at h
  | some x =>
    cases x with
    | bswitch k t st => cases k <;> simp_all [holdFor, held]
    | _ => simp_all [holdFor, held]

/-- The nibble that the decoder of commands reads next is `n`. -/
def Reads (s : St) (n : Nat) : Prop :=
  ∃ a, s.fill.2 = true ∧ Codec.coreAsk s.b.rcv.core = some a ∧ n = (take s.fill.1.b.rcv.cmdRx (.plain a.key (some a.speed))).2

/-- A copy whose length or distance the decoder of commands cannot compute. -/
def BadCopy (s : St) : Prop :=
  (s.b.rcv.core.bk.lastLlen = 0 ∧ ∃ k, s.b.rcv.core.at_ = .copy k ∧ k.at_ = .countSmall) ∨
  (∃ k n, s.b.rcv.core.at_ = .copy k ∧ k.at_ = .countMore ∧ Reads s n ∧ 14 ≤ n) ∨
  (∃ k n, s.b.rcv.core.at_ = .copy k ∧ k.at_ = .distMnem ∧ Reads s n ∧ Codec.Overflows s.b.rcv.core.bk.dist n)

/-- A step of the worker. -/
theorem work_fit {s : St} (f : Fit dw s) :
    (s.work = .panic → BadCopy s) ∧ ∀ t p, s.work = .ok (t, p) → Fit dw t := by
  have fa := fill_alike s
  have ff := fa.fit f
  unfold St.work
  cases hh : s.hold with
  | ready g =>
    simp only
    by_cases hc : s.result.length < 256 ∧ (isPm g = true → (s.result.filter isPm).length < 2)
    · rw [if_pos hc]
      refine ⟨by simp, ?_⟩
      intro t p h
      simp only [Codec.Res.ok.injEq, Prod.mk.injEq] at h
      obtain ⟨rfl, -⟩ := h
      obtain ⟨f1, f2, f3, f4, f5, f6⟩ := f
      refine ⟨f1, by simp [held], ?_, f4, f5, f6⟩
      intro x hx
      simp only [List.mem_append, List.mem_singleton] at hx
      rcases hx with hx | rfl
      · exact f3 x hx
      · exact f2 x (by rw [hh]; simp [held])
    · rw [if_neg hc]
      refine ⟨by simp, ?_⟩
      intro t p h
      simp only [Codec.Res.ok.injEq, Prod.mk.injEq] at h
      obtain ⟨rfl, -⟩ := h
      exact f
  | decoded g =>
    simp only
    cases hf : s.fill.2 with
    | true =>
      simp only [if_true]
      refine ⟨by simp, ?_⟩
      intro t p h
      simp only [Codec.Res.ok.injEq, Prod.mk.injEq] at h
      obtain ⟨rfl, -⟩ := h
      obtain ⟨f1, f2, f3, f4, f5, f6⟩ := ff
      refine ⟨f1, ?_, f3, f4, f5, f6⟩
      rw [fa.hold, hh] at f2
      exact f2
    | false =>
      simp only [Bool.false_eq_true, if_false]
      refine ⟨by simp, ?_⟩
      intro t p h
      simp only [Codec.Res.ok.injEq, Prod.mk.injEq] at h
      obtain ⟨rfl, -⟩ := h
      exact ff
  | none =>
    simp only
    by_cases hs : s.b.rcv.core.at_ = .stop
    · rw [if_pos hs]
      refine ⟨by simp, ?_⟩
      intro t p h
      simp only [Codec.Res.ok.injEq, Prod.mk.injEq] at h
      obtain ⟨rfl, -⟩ := h
      exact f
    rw [if_neg hs]
    by_cases hp : (inPm s.b.rcv.core.at_ && !s.map) = true
    · rw [if_pos hp]
      by_cases h0 : s.maps = 0
      · rw [if_pos h0]
        refine ⟨by simp, ?_⟩
        intro t p h
        simp only [Codec.Res.ok.injEq, Prod.mk.injEq] at h
        obtain ⟨rfl, -⟩ := h
        exact f
      · rw [if_neg h0]
        refine ⟨by simp, ?_⟩
        intro t p h
        simp only [Codec.Res.ok.injEq, Prod.mk.injEq] at h
        obtain ⟨rfl, -⟩ := h
        obtain ⟨f1, f2, f3, f4, f5, f6⟩ := f
        exact ⟨f1, by simp [held], f3, f4, f5, f6⟩
    rw [if_neg hp]
    cases hf : s.fill.2 with
    | false =>
      simp only [Bool.false_eq_true, if_false]
      refine ⟨by simp, ?_⟩
      intro t p h
      simp only [Codec.Res.ok.injEq, Prod.mk.injEq] at h
      obtain ⟨rfl, -⟩ := h
      exact ff
    | true =>
      simp only [if_true]
      have hinv := ff.core
      have hns : s.fill.1.b.rcv.core.at_ ≠ .stop := by rw [fa.core]; exact hs
      have hbad : ∀ n, Reads s n → Codec.StepPanics s.fill.1.b.rcv.core n → BadCopy s := by
        intro n hn h
        rw [fa.core] at h
        unfold Codec.StepPanics Codec.NoLength Codec.CopyPanics at h
        rcases h with h | h | ⟨k, h1, h2 | h2⟩
        · exact absurd h hs
        · exact Or.inl h
        · exact Or.inr (Or.inl ⟨k, n, h1, h2.1, hn, h2.2⟩)
        · exact Or.inr (Or.inr ⟨k, n, h1, h2.1, hn, h2.2⟩)
      cases hask : Codec.coreAsk s.fill.1.b.rcv.core with
      | none =>
        refine ⟨fun _ => ?_, by simp⟩
        by_cases hl : Codec.NoLength s.fill.1.b.rcv.core
        · rw [fa.core] at hl
          exact Or.inl hl
        · obtain ⟨a, ha⟩ := Codec.coreAsk_inv hinv hns hl
          rw [hask] at ha
          cases ha
      | some a =>
        simp only
        have hn := take_small s.fill.1.b.rcv.cmdRx (.plain a.key (some a.speed))
        obtain ⟨n, hn0⟩ : ∃ n, n = (take s.fill.1.b.rcv.cmdRx (.plain a.key (some a.speed))).2 := ⟨_, rfl⟩
        rw [← hn0] at hn ⊢
        have hdec : Codec.decStep s.fill.1.b.rcv.core n = Codec.coreTake s.fill.1.b.rcv.core n := by
          unfold Codec.decStep; rw [hask]
        rcases Codec.decStep_inv hinv hn with ⟨-, ⟨c', g, h1, h2, h3⟩ | h1⟩ | ⟨h1, h2⟩
        · rw [hdec] at h1
          rw [h1]
          refine ⟨by simp [Codec.Res.bind], ?_⟩
          intro t p h
          simp only [Codec.Res.bind, Codec.Res.ok.injEq, Prod.mk.injEq] at h
          obtain ⟨rfl, -⟩ := h
          obtain ⟨f1, f2, f3, f4, f5, f6⟩ := ff
          refine ⟨h2, ?_, f3, f4, f5, f6⟩
          intro x hx
          exact h3 x (held_of_holdFor hx)
        · rw [hdec] at h1
          rw [h1]
          exact ⟨by simp [Codec.Res.bind], by simp [Codec.Res.bind]⟩
        · exact ⟨fun _ => hbad n ⟨a, hf, by rw [← fa.core]; exact hask, hn0⟩ h1, by rw [hdec] at h2; rw [h2]; simp [Codec.Res.bind]⟩

/-! ## The main side -/

/-- What the main side cannot do: take up a prediction mode with a speed out of range, carry out a command the recoder
cannot carry out. -/
def Blocked (r : Rcv) : Prop :=
  (∃ p q, r.at_ = .idle ∧ r.queue = .pm p :: q ∧ ∃ f ∈ p.speeds, Lit.speedOf f = none) ∨
  (∃ c, r.at_ = .filling c ∧ Recode.Harmful r.ring.len c)

theorem last8_some {s : Recode.St} (g : Recode.Good s) : ∃ b, Recode.last8 s = some b := by
  have := g.dec
  unfold Recode.last8
  by_cases h : s.dec < 8
  · rw [if_pos h]; exact ⟨_, rfl⟩
  · rw [if_neg h]
    obtain ⟨o, e⟩ := Recode.slice_some (mem := s.mem) (i := s.dec - 8) (n := 8) (by
      have : s.len = s.mem.length := rfl
      omega)
    rw [e]
    exact ⟨_, rfl⟩

theorem next_fit {r : Rcv} (g : Recode.Good r.ring) (hb : r.lbk.Shape) (hat : r.at_ = .idle) (hsub : r.ring.sub = 0)
    {c : Codec.Got} (hc : Codec.GotOk c) :
    (Rcv.next dw r c = .panic → ∃ p, c = .pm p ∧ ∃ f ∈ p.speeds, Lit.speedOf f = none) ∧
      ∀ r', Rcv.next dw r c = .ok r' → r'.lbk.Shape ∧ AtOk dw r' := by
  unfold Rcv.next
  cases c with
  | copy d n =>
    refine ⟨by simp, ?_⟩
    intro r' h
    cases h
    exact ⟨hb, by simp only [AtOk, hsub]; exact ⟨Recode.subOk_zero _, by simp⟩⟩
  | dict z i t =>
    refine ⟨by simp, ?_⟩
    intro r' h
    cases h
    exact ⟨hb, by simp only [AtOk, hsub]; exact ⟨Recode.subOk_zero _, fun w n h => ⟨z, i, t, by cases h; rfl⟩⟩⟩
  | lit n e =>
    obtain ⟨b, hl⟩ := last8_some g
    simp only
    rw [hl]
    refine ⟨by simp, ?_⟩
    intro r' h
    cases h
    exact ⟨⟨hb.map, hb.mix, hb.mode, hb.adapt⟩, hsub, fun k hk => by cases hk⟩
  | bswitch k t st =>
    cases k
    all_goals
      refine ⟨by simp, ?_⟩
      intro r' h
      cases h
    · exact ⟨⟨hb.map, hb.mix, hb.mode, hb.adapt⟩, by unfold AtOk; simp only [hat]; exact hsub⟩
    · exact ⟨hb, by simp only [AtOk, hsub]; exact ⟨Recode.subOk_zero _, by simp⟩⟩
    · exact ⟨hb, by simp only [AtOk, hsub]; exact ⟨Recode.subOk_zero _, by simp⟩⟩
  | pm p =>
    obtain ⟨h1, h2⟩ := Lit.obsPm_shape (l := r.lbk) (p := p) hc
    cases hp : r.lbk.obsPm p with
    | ok l =>
      simp only [hp, Codec.Res.bind]
      refine ⟨by simp, ?_⟩
      intro r' h
      cases h
      exact ⟨h2 l hp, by unfold AtOk; rw [show ({ r with lbk := l } : Rcv).at_ = .idle from hat]; exact hsub⟩
    | fail => simp only [hp, Codec.Res.bind]; exact ⟨by simp, by simp⟩
    | panic => simp only [hp, Codec.Res.bind]; exact ⟨fun _ => ⟨p, rfl, h1 hp⟩, by simp⟩

/-- A step of the main side. -/
theorem rmain_fit {r : Rcv} (g : Recode.Good r.ring) (hL : Recode.repeatMax ≤ r.ring.len) (hb : r.lbk.Shape) (ha : AtOk dw r)
    (hq : ∀ c ∈ r.queue, Codec.GotOk c) (room : Nat) :
    (r.main dw room = .panic → Blocked r) ∧ ∀ r' o, r.main dw room = .ok (r', o) → r'.lbk.Shape ∧ AtOk dw r' := by
  unfold Rcv.main
  cases hat : r.at_ with
  | idle =>
    have hsub : r.ring.sub = 0 := by unfold AtOk at ha; rw [hat] at ha; exact ha
    simp only
    cases hqq : r.queue with
    | cons c q =>
      simp only
      obtain ⟨h1, h2⟩ := next_fit (dw := dw) (r := { r with queue := q, at_ := .idle }) g hb rfl hsub (hq c (by rw [hqq]; simp))
      cases hn : Rcv.next dw { r with queue := q, at_ := .idle } c with
      | fail => simp [Codec.Res.bind]
      | panic =>
        refine ⟨fun _ => ?_, by simp [Codec.Res.bind]⟩
        obtain ⟨p, rfl, h3⟩ := h1 hn
        exact Or.inl ⟨p, q, hat, hqq, h3⟩
      | ok y =>
        refine ⟨by simp [Codec.Res.bind], ?_⟩
        intro r' o h
        simp only [Codec.Res.bind, Codec.Res.ok.injEq, Prod.mk.injEq] at h
        obtain ⟨rfl, -⟩ := h
        exact h2 y hn
    | nil =>
      simp only
      by_cases hs : r.core.at_ = .stop
      · rw [if_pos hs]
        obtain ⟨ring', o', res, e1, -, -, k3, -, k4⟩ := Recode.flush_any g room
        rw [e1]
        rcases k4 with ⟨rfl, -⟩ | ⟨rfl, -⟩
        · refine ⟨by simp, ?_⟩
          intro r' o h
          cases h
          exact ⟨hb, trivial⟩
        · refine ⟨by simp, ?_⟩
          intro r' o h
          cases h
          exact ⟨hb, by simp only [AtOk]; rw [k3]; exact hsub⟩
      · rw [if_neg hs]
        refine ⟨by simp, ?_⟩
        intro r' o h
        cases h
        exact ⟨hb, ha⟩
  | content c =>
    obtain ⟨hsub, hc⟩ : r.ring.sub = 0 ∧ c.Half := by unfold AtOk at ha; rw [hat] at ha; exact ha
    simp only
    by_cases hl : c.left = 0
    · rw [if_pos hl]
      refine ⟨by simp, ?_⟩
      intro r' o h
      cases h
      exact ⟨hb, by simp only [AtOk, hsub]; exact ⟨Recode.subOk_zero _, by simp⟩⟩
    · rw [if_neg hl]
      obtain ⟨ch, hask⟩ := Lit.ask_shape hb hc
      rw [hask]
      simp only
      cases hs : r.litRx.step ch with
      | mk rx on =>
        cases on with
        | none =>
          refine ⟨by simp, ?_⟩
          intro r' o h
          cases h
          exact ⟨hb, by simp only [AtOk]; exact ⟨hsub, hc⟩⟩
        | some n =>
          refine ⟨by simp, ?_⟩
          intro r' o h
          cases h
          obtain ⟨h1, h2⟩ := Lit.take_shape hb c (Pipe.lookup_lt hs)
          exact ⟨h1, by simp only [AtOk]; exact ⟨hsub, h2⟩⟩
  | filling c =>
    obtain ⟨hsub, hword⟩ : Recode.SubOk c r.ring.sub ∧ ∀ w n, c = .dict w n → ∃ z i t, w = dw z i t := by unfold AtOk at ha; rw [hat] at ha; exact ha
    simp only
    cases he : Recode.encodeCmd r.ring c room with
    | panic => exact ⟨fun _ => Or.inr ⟨c, hat, Recode.encodeCmd_crash g hL hsub (Or.inl he)⟩, by simp⟩
    | spin => exact ⟨fun _ => Or.inr ⟨c, hat, Recode.encodeCmd_crash g hL hsub (Or.inr he)⟩, by simp⟩
    | done y =>
      obtain ⟨ring', o', res⟩ := y
      obtain ⟨k1, k2⟩ := (Recode.encodeLoop_crash _ g hL hsub).2 ring' o' res he
      cases res with
      | fail => exact ⟨by simp, by simp⟩
      | ok =>
        refine ⟨by simp, ?_⟩
        intro r' o h
        cases h
        exact ⟨hb, by simp only [AtOk]; exact k1 rfl⟩
      | more =>
        refine ⟨by simp, ?_⟩
        intro r' o h
        cases h
        exact ⟨hb, by simp only [AtOk]; exact ⟨k2 rfl, hword⟩⟩
  | finished =>
    refine ⟨by simp, ?_⟩
    intro r' o h
    cases h
    exact ⟨hb, ha⟩

/-- The same in the decompressor. -/
theorem bmain_fit {s : St} (hl : Live L s) (hL : Recode.repeatMax ≤ L) (f : Fit dw s) (room : Nat) :
    (s.b.main dw room = .panic → Blocked s.b.rcv) ∧
      ∀ b o maps, s.b.main dw room = .ok (b, o) → Fit dw { s with b := b, maps := maps } := by
  obtain ⟨h1, h2⟩ := rmain_fit (dw := dw) (r := { s.b.rcv with litRx := { s.b.rcv.litRx with buf := s.b.mux.unread true } })
    hl.ring (by simp only; rw [hl.len]; exact hL) f.lbk f.at_ f.queue room
  refine ⟨?_, ?_⟩
  · intro h
    unfold File.Body.main at h
    simp only at h
    cases hr : Rcv.main dw { s.b.rcv with litRx := { s.b.rcv.litRx with buf := s.b.mux.unread true } } room with
    | fail => rw [hr] at h; cases h
    | panic => exact h1 hr
    | ok y => rw [hr] at h; cases h
  · intro b o maps h
    obtain ⟨-, -, -, -, -, -, -, -, -, a10, a11, -⟩ := bmain_any hl.mux hl.ring h
    unfold File.Body.main at h
    simp only at h
    cases hr : Rcv.main dw { s.b.rcv with litRx := { s.b.rcv.litRx with buf := s.b.mux.unread true } } room with
    | fail => rw [hr] at h; cases h
    | panic => rw [hr] at h; cases h
    | ok y =>
      obtain ⟨r', o'⟩ := y
      rw [hr] at h
      simp only [Codec.Res.bind, Codec.Res.ok.injEq, Prod.mk.injEq] at h
      obtain ⟨rfl, -⟩ := h
      obtain ⟨k1, k2⟩ := h2 r' o' hr
      refine ⟨by rw [a10]; exact f.core, f.hold, f.result, ?_, k1, k2⟩
      intro c hc
      rw [a11] at hc
      by_cases hi : s.b.rcv.at_ = .idle
      · rw [if_pos hi] at hc; exact f.queue c (List.mem_of_mem_tail hc)
      · rw [if_neg hi] at hc; exact f.queue c hc

theorem finish_fit {s : St} (hl : Live L s) (hL : Recode.repeatMax ≤ L) (f : Fit dw s) (room : Nat) :
    (s.finish dw skip room = .panic → Blocked s.b.rcv) ∧ ∀ t o a, s.finish dw skip room = .ok (t, o, a) → Fit dw t := by
  obtain ⟨h1, h2⟩ := bmain_fit (dw := dw) hl hL f room
  unfold St.finish
  cases hm : s.b.main dw room with
  | fail => simp [Codec.Res.bind]
  | panic => exact ⟨fun _ => h1 hm, by simp [Codec.Res.bind]⟩
  | ok x =>
    obtain ⟨b', o'⟩ := x
    have hf := h2 b' o' s.maps hm
    simp only [Codec.Res.bind]
    by_cases hfin : b'.rcv.at_ ≠ .finished
    · rw [if_pos hfin]
      refine ⟨by simp, ?_⟩
      intro t o a h
      simp only [Codec.Res.ok.injEq, Prod.mk.injEq] at h
      obtain ⟨rfl, -⟩ := h
      exact hf
    · rw [if_neg hfin]
      by_cases h8 : b'.sum.length ≠ 8
      · rw [if_pos h8]
        refine ⟨by simp, ?_⟩
        intro t o a h
        simp only [Codec.Res.ok.injEq, Prod.mk.injEq] at h
        obtain ⟨rfl, -⟩ := h
        exact hf
      · rw [if_neg h8]
        by_cases hok : sumOk skip b'.crc b'.sum = true
        · rw [if_pos hok]
          refine ⟨by simp, ?_⟩
          intro t o a h
          simp only [Codec.Res.ok.injEq, Prod.mk.injEq] at h
          obtain ⟨rfl, -⟩ := h
          exact hf
        · rw [if_neg hok]; exact ⟨by simp, by simp⟩

theorem push_hold {s t : St} (h : s.push = some t) : t.hold = s.hold ∧ t.result = s.result := by
  unfold St.push at h
  by_cases hc : s.data.length < 2 ∧ s.b.mux.unread false ≠ []
  · rw [if_pos hc] at h; cases h; exact ⟨rfl, rfl⟩
  · rw [if_neg hc] at h; cases h

theorem refill_hold (s : St) (need : Bool) : (s.refill need).1.hold = s.hold ∧ (s.refill need).1.result = s.result := by
  unfold St.refill
  cases hp : s.push with
  | none => exact ⟨rfl, rfl⟩
  | some t => exact push_hold hp

theorem giveBack_hold : ∀ (ms : List (List UInt8)) {s t : St} {need need' : Bool}, St.giveBack ms s need = some (t, need') →
    t.hold = s.hold ∧ t.result = s.result := by
  intro ms
  induction ms with
  | nil => intro s t need need' h; cases h; exact ⟨rfl, rfl⟩
  | cons m ms ih =>
    intro s t need need' h
    rw [St.giveBack] at h
    by_cases h0 : s.lent = 0
    · rw [if_pos h0] at h; cases h
    · rw [if_neg h0] at h
      simp only at h
      obtain ⟨h1, h2⟩ := ih h
      obtain ⟨h3, h4⟩ := refill_hold ({ s with lent := s.lent - 1 } : St) need
      exact ⟨h1.trans h3, h2.trans h4⟩

theorem collect_hold {s t : St} {need : Bool} (h : s.collect = some (t, need)) : t.hold = s.hold ∧ t.result = [] := by
  unfold St.collect at h
  cases hg : St.giveBack s.back { s with b := { s.b with rcv := { s.b.rcv with queue := s.result } }, result := [], back := [] } false with
  | none => rw [hg] at h; cases h
  | some x =>
    obtain ⟨t', n'⟩ := x
    rw [hg] at h
    simp only [Option.map_some, Option.some.injEq, Prod.mk.injEq] at h
    obtain ⟨rfl, -⟩ := h
    exact giveBack_hold _ hg

/-- A step of the main side. -/
theorem output_fit {s : St} (hl : Live L s) (hL : Recode.repeatMax ≤ L) (f : Fit dw s) (room : Nat) :
    (s.output dw skip room = .panic → Blocked s.b.rcv) ∧ ∀ t o a, s.output dw skip room = .ok (t, o, a) → Fit dw t := by
  obtain ⟨h1, h2⟩ := bmain_fit (dw := dw) hl hL f room
  unfold St.output
  cases hat : s.b.rcv.at_ with
  | content c =>
    simp only
    cases hm : s.b.main dw room with
    | fail => simp [Codec.Res.bind]
    | panic => exact ⟨fun _ => h1 hm, by simp [Codec.Res.bind]⟩
    | ok x =>
      refine ⟨by simp [Codec.Res.bind], ?_⟩
      intro t o a h
      simp only [Codec.Res.bind, Codec.Res.ok.injEq, Prod.mk.injEq] at h
      obtain ⟨rfl, -⟩ := h
      exact h2 x.1 x.2 s.maps hm
  | filling c =>
    simp only
    cases hm : s.b.main dw room with
    | fail => simp [Codec.Res.bind]
    | panic => exact ⟨fun _ => h1 hm, by simp [Codec.Res.bind]⟩
    | ok x =>
      refine ⟨by simp [Codec.Res.bind], ?_⟩
      intro t o a h
      simp only [Codec.Res.bind, Codec.Res.ok.injEq, Prod.mk.injEq] at h
      obtain ⟨rfl, -⟩ := h
      exact h2 x.1 x.2 s.maps hm
  | finished => exact finish_fit hl hL f room
  | idle =>
    simp only
    cases hq : s.b.rcv.queue with
    | nil =>
      simp only
      cases hse : s.sawEnd with
      | true =>
        simp only [if_true]
        exact finish_fit hl hL f room
      | false =>
        simp only [Bool.false_eq_true, if_false]
        obtain ⟨t', need, e1, e2, e3, -⟩ := collect_live hl hq
        rw [e1]
        refine ⟨by simp, ?_⟩
        intro t o a h
        simp only [Codec.Res.ok.injEq, Prod.mk.injEq] at h
        obtain ⟨rfl, -⟩ := h
        obtain ⟨c1, c2⟩ := collect_hold e1
        obtain ⟨f1, f2, f3, f4, f5, f6⟩ := f
        refine ⟨by rw [e3]; exact f1, by rw [c1]; exact f2, by rw [c2]; simp, by rw [e3]; exact f3, by rw [e3]; exact f5, ?_⟩
        unfold AtOk at f6 ⊢
        rw [e3]
        exact f6
    | cons g q =>
      simp only
      cases hm : s.b.main dw room with
      | fail => simp [Codec.Res.bind]
      | panic => exact ⟨fun _ => h1 hm, by simp [Codec.Res.bind]⟩
      | ok x =>
        simp only [Codec.Res.bind]
        have hmaps : isPm g = true → s.maps ≠ 2 := by
          intro _
          have := hl.ext.maps
          omega
        cases g with
        | pm p =>
          simp only
          rw [if_neg (hmaps rfl)]
          refine ⟨by simp, ?_⟩
          intro t o a h
          simp only [Codec.Res.ok.injEq, Prod.mk.injEq] at h
          obtain ⟨rfl, -⟩ := h
          exact h2 x.1 x.2 _ hm
        | _ =>
          refine ⟨by simp, ?_⟩
          intro t o a h
          simp only [Codec.Res.ok.injEq, Prod.mk.injEq] at h
          obtain ⟨rfl, -⟩ := h
          exact h2 x.1 x.2 s.maps hm

end Divans.Call
