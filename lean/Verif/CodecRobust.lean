import Verif.CodecStream

/-!
# The command decoder on arbitrary input

An invariant of the decoder that holds whatever nibbles it is fed, valid or not.
-/

namespace Divans.Codec
open Divans.Num Divans.Cdf

/-- One step of the decoder: look the model up, then act on the nibble.  A failed lookup is a panic. -/
def decStep (c : Core) (nib : Nat) : Res (Core × Option Got) :=
  match coreAsk c with
  | none => .panic
  | some _ => coreTake c nib

/-- Bookkeeping the decoder can reach on any input. -/
structure BkInv (b : Bk) : Prop where
  map : b.distMap.length = 1024
  cmap : b.cmap.length = 13
  last4 : b.last4 < 256
  llen : b.lastLlen < 2 ^ 32
  l0 : b.dist.d0 < 2 ^ 32
  l1 : b.dist.d1 < 2 ^ 32
  l2 : b.dist.d2 < 2 ^ 32
  l3 : b.dist.d3 < 2 ^ 32

/-- A mantissa being read: nibbles still missing, value so far. -/
def MantOk (bits rem acc : Nat) : Prop := 4 ≤ rem ∧ rem ≤ bits ∧ rem % 4 = 0 ∧ acc < 2 ^ bits

/-- Reachable states of a copy. -/
def CopyInv (s : CopySt) : Prop :=
  s.num < 2 ^ 32 ∧ s.distance < 2 ^ 32 ∧
    match s.at_ with
    | .countMant _ rem acc => MantOk 32 rem acc
    | .distMant _ rem acc => MantOk 32 rem acc
    | _ => True

/-- Reachable states of a dictionary reference. -/
def DictInv (s : DictSt) : Prop :=
  match s.at_ with
  | .sizeFirst => True
  | .sizeMore => True
  | .index _ rem acc => 4 ≤ s.size ∧ s.size ≤ 24 ∧ MantOk (dictIndexBits s.size) rem acc
  | .transHigh => 4 ≤ s.size ∧ s.size ≤ 24 ∧ s.id < 2 ^ dictIndexBits s.size
  | .transLow => 4 ≤ s.size ∧ s.size ≤ 24 ∧ s.id < 2 ^ dictIndexBits s.size ∧ s.transform < 256
  | .done => 4 ≤ s.size ∧ s.size ≤ 24 ∧ s.id < 2 ^ dictIndexBits s.size ∧ s.transform ≤ 120

/-- Reachable states of a literal length. -/
def LitInv (s : LitSt) : Prop :=
  match s.at_ with
  | .countMant rem acc => MantOk 32 rem acc
  | .done => 1 ≤ s.len ∧ s.len < 2 ^ 32 + 15
  | _ => True

/-- Reachable states of a block switch. -/
def BsInv (k : Switch) : BsAt → Prop
  | .final low => low < 16
  | .stride _ => k = .lit
  | .done _ st => st < 16 ∧ (k ≠ .lit → st = 0)
  | _ => True

/-- Reachable prediction mode buffers. -/
structure PmInv (p : Pm) : Prop where
  lit : p.litMap.length = 16384
  dist : p.distMap.length = 1024
  mix : p.mixing.length = 8192
  vals : ∀ v ∈ p.mixing, v < 16
  mode : p.mode ≤ 3
  math : p.mixMath < 4
  adv : p.adv < 4
  speeds : p.speeds.length = 4

/-- Reachable states of a prediction mode command. -/
def PmAtInv : PmAt → Prop
  | .speed i acc _ => i < 16 ∧ acc.length = 4 ∧ ∀ q ∈ acc, q.1 < 128 ∧ q.2 < 128
  | .second _ _ high _ => high < 16
  | .values i _ => i < 8192
  | _ => True

/-- Reachable states of the command decoder. -/
structure CoreInv (c : Core) : Prop where
  bk : BkInv c.bk
  pm : PmInv c.pm
  at_ : match c.at_ with
    | .begin => True
    | .copy s => CopyInv s ∧ s.at_ ≠ .done
    | .dict s => DictInv s ∧ s.at_ ≠ .done
    | .lit s => LitInv s ∧ s.at_ ≠ .done
    | .bswitch k s => BsInv k s ∧ ∀ t st, s ≠ .done t st
    | .pm s => PmAtInv s ∧ s ≠ .done
    | .stop => True

/-- What a decoded command can be at most. -/
def GotOk : Got → Prop
  | .copy d n => d < 2 ^ 32 ∧ n < 2 ^ 32
  | .dict z i t => 4 ≤ z ∧ z ≤ 24 ∧ i < 2 ^ dictIndexBits z ∧ t ≤ 120
  | .lit n _ => 1 ≤ n ∧ n < 2 ^ 32 + 15
  | .bswitch k _ st => st < 16 ∧ (k ≠ .lit → st = 0)
  | .pm p => PmInv p

/-! ## Initial state -/

theorem bkInv_init : BkInv Bk.init := by
  refine ⟨?_, ?_, ?_, ?_, ?_, ?_, ?_, ?_⟩
  · exact List.length_replicate
  all_goals decide

theorem pmInv_init : PmInv Pm.init := by
  refine ⟨List.length_replicate, List.length_replicate, List.length_replicate, ?_, ?_, ?_, ?_,
    List.length_replicate⟩
  · intro v hv
    rw [(List.mem_replicate.1 hv).2]
    decide
  all_goals decide

theorem coreInv_init : CoreInv Core.init := ⟨bkInv_init, pmInv_init, trivial⟩

/-! ## Lookups -/

theorem distPrior_inv {b : Bk} (h : BkInv b) (n : Nat) : ∃ p, distPrior b n = some p := by
  have hc : b.bdist.cur.toNat < 256 := b.bdist.cur.toNat_lt
  unfold distPrior
  have hlt : b.bdist.cur.toNat * 4 + min (max n 2 - 2) 3 < b.distMap.length := by
    rw [h.map]
    omega
  exact ⟨_, List.getElem?_eq_getElem hlt⟩

/-- The one lookup that can fail. -/
def NoLength (c : Core) : Prop :=
  c.bk.lastLlen = 0 ∧ ∃ s, c.at_ = .copy s ∧ s.at_ = .countSmall

theorem copyAsk_inv {b : Bk} {s : CopySt} (hb : BkInv b) (hs : CopyInv s) (hd : s.at_ ≠ .done)
    (hl : b.lastLlen ≠ 0 ∨ s.at_ ≠ .countSmall) : ∃ a, copyAsk b s = some a := by
  obtain ⟨hn, _, hm⟩ := hs
  obtain ⟨p, hp⟩ := distPrior_inv hb s.num
  have hc := ctype_lt b
  have hp' : p.toNat < 256 := p.toNat_lt
  unfold copyAsk
  cases hat : s.at_ with
  | countSmall =>
    have : b.lastLlen ≠ 0 := hl.resolve_right (fun h => h hat)
    simp only
    rw [if_neg this]
    exact ask_copy_countSmall hc (by omega) _
  | countFirst => exact ask_copy_countBeg hc (by decide) _
  | countMore => exact ask_copy_countLast hc (by decide) _
  | countMant first rem acc => exact ask_copy_countMantissa hc (by split <;> omega) _
  | distMnem =>
    simp only [hp, Option.bind_some]
    exact ask_copy_distMnemonic hp' (by split <;> omega) _
  | distFirst =>
    simp only [hp, Option.bind_some]
    have := bitLen_le hn
    exact ask_copy_distBeg hp' (by omega) _
  | distMore =>
    simp only [hp, Option.bind_some]
    exact ask_copy_distLast hp' (by omega) _
  | distMant first rem acc =>
    simp only [hp, Option.bind_some]
    exact ask_copy_distMantissa hp' (by split <;> omega) _
  | done => exact absurd hat hd

theorem dictAsk_inv {b : Bk} {s : DictSt} (hb : BkInv b) (hs : DictInv s) (hd : s.at_ ≠ .done) :
    ∃ a, dictAsk b s = some a := by
  obtain ⟨p, hp⟩ := distPrior_inv hb s.size
  have hc := ctype_lt b
  have hp' : p.toNat < 256 := p.toNat_lt
  unfold DictInv at hs
  unfold dictAsk
  cases hat : s.at_ with
  | sizeFirst => exact ask_dict_sizeBeg hc _
  | sizeMore => exact ask_dict_sizeLast hc _
  | index first rem acc =>
    rw [hat] at hs
    obtain ⟨k, h1, _⟩ := dictBits_spec s.size hs.1 hs.2.1
    simp only [h1, hp, Option.bind_some]
    exact ask_dict_index hp' (by split <;> omega) _
  | transHigh =>
    rw [hat] at hs
    exact ask_dict_transform (by decide) (by have := hs.2.1; omega) _
  | transLow =>
    rw [hat] at hs
    exact ask_dict_transform (by decide) (by have := hs.2.2.2; omega) _
  | done => exact absurd hat hd

theorem litAsk_inv {b : Bk} {s : LitSt} (hd : s.at_ ≠ .done) : ∃ a, litAsk b s = some a := by
  have hc := ctype_lt b
  unfold litAsk
  cases hat : s.at_ with
  | countSmall f => exact ask_lit_countSmall hc (by decide) _
  | countFirst => exact ask_lit_sizeBeg hc _
  | countMore => exact ask_lit_sizeLast hc _
  | countMant rem acc => exact ask_lit_sizeMantissa hc _
  | done => exact absurd hat hd

/-- Every model lookup is in range, except the one that divides by the length of the last literal. -/
theorem coreAsk_inv {c : Core} (h : CoreInv c) (hs : c.at_ ≠ .stop) (hl : ¬ NoLength c) :
    ∃ a, coreAsk c = some a := by
  have hat := h.at_
  unfold coreAsk
  cases hc : c.at_ with
  | begin => exact ask_cc (by have := h.bk.last4; omega) _
  | copy s =>
    rw [hc] at hat
    refine copyAsk_inv h.bk hat.1 hat.2 ?_
    by_cases h0 : c.bk.lastLlen = 0
    · exact Or.inr fun e => hl ⟨h0, s, hc, e⟩
    · exact Or.inl h0
  | dict s =>
    rw [hc] at hat
    exact dictAsk_inv h.bk hat.1 hat.2
  | lit s =>
    rw [hc] at hat
    exact litAsk_inv hat.2
  | bswitch k s =>
    rw [hc] at hat
    exact ask_bt k s hat.2
  | pm s =>
    rw [hc] at hat
    by_cases hv : ∃ i co, s = .values i co
    · obtain ⟨i, co, rfl⟩ := hv
      have h1 : i < 8192 := hat.1
      exact ask_pm_values _ _ _ (by rw [h.pm.mix]; omega)
    · exact ask_pm_simple _ _ (fun i co e => hv ⟨i, co, e⟩) hat.2
  | stop => exact absurd hc hs

theorem coreAsk_noLength {c : Core} (h : NoLength c) : coreAsk c = none := by
  obtain ⟨h0, s, h1, h2⟩ := h
  simp [coreAsk, h1, copyAsk, h2, h0]

/-! ## Mantissas -/

theorem mantissaTake_lt {bits rem acc n : Nat} (h : MantOk bits rem acc) (hn : n < 16) :
    mantissaTake acc rem n < 2 ^ bits := by
  obtain ⟨h4, hle, _, ha⟩ := h
  refine Nat.or_lt_two_pow ha ?_
  rw [Nat.shiftLeft_eq]
  have h1 : 16 * 2 ^ (rem - 4) ≤ 2 ^ bits := by
    rw [show (16 : Nat) = 2 ^ 4 from rfl, ← Nat.pow_add]
    exact Nat.pow_le_pow_right (by decide) (by omega)
  have h2 : n * 2 ^ (rem - 4) < 16 * 2 ^ (rem - 4) := Nat.mul_lt_mul_of_pos_right hn (Nat.two_pow_pos _)
  omega

theorem mantOk_next {bits rem acc n : Nat} (h : MantOk bits rem acc) (hn : n < 16) (hne : rem ≠ 4) :
    MantOk bits (rem - 4) (mantissaTake acc rem n) := by
  have h1 := mantissaTake_lt h hn
  obtain ⟨h4, hle, hm, ha⟩ := h
  exact ⟨by omega, by omega, by omega, h1⟩

theorem mantissaStart_inv (bits : Nat) (h0 : bits ≠ 0) (h : bits < 32) :
    ∃ r, mantissaStart bits = .ok (r, 2 ^ bits) ∧ MantOk 32 r (2 ^ bits) := by
  obtain ⟨r, h1, _, h3, h4, h5⟩ := mantissaStart_spec bits h0 h
  exact ⟨r, h1, h5, h4, h3, Nat.pow_lt_pow_right (by decide) h⟩

theorem mantissaStart_panic (bits : Nat) (h : 32 ≤ bits) : mantissaStart bits = .panic := if_pos h

/-! ## Short codes -/

/-- The addition of a short code overflows. -/
def Overflows (l : Lru4) (n : Nat) : Prop :=
  4 ≤ n ∧ n < 15 ∧
    (n % 2 = 0 ∧ 2 ^ 31 ≤ l.get (n % 4 / 2) + n / 4 ∧ l.get (n % 4 / 2) < 2 ^ 31 ∨
      n % 2 = 1 ∧ 2 ^ 31 ≤ l.get (n % 4 / 2) ∧ l.get (n % 4 / 2) < 2 ^ 31 + n / 4)

theorem lru_get_lt32 {b : Bk} (h : BkInv b) (i : Nat) : b.dist.get i < 2 ^ 32 := by
  have h0 := h.l0
  have h1 := h.l1
  have h2 := h.l2
  have h3 := h.l3
  unfold Lru4.get
  split <;> assumption

theorem i32_high {x : Int} (h1 : 2 ^ 31 ≤ x) (h2 : x < 2 ^ 32 + 2 ^ 31) : i32 x = x - 2 ^ 32 := by
  unfold i32
  omega

theorem i32_low {x : Int} (h1 : - 2 ^ 32 ≤ x) (h2 : x < -2 ^ 31) : i32 x = x + 2 ^ 32 := by
  unfold i32
  omega

/-- The additions in `i32`, for a cached distance `x` and an offset `u` of at most 3. -/
theorem short_sum (x u : Nat) (odd : Bool) (hx : x < 2 ^ 32) (hu : u ≤ 3) :
    let sum : Int := i32 (x : Int) + (if odd = true then (u : Int) - 2 * u else u)
    (i32 sum = sum ↔ ¬ (odd = false ∧ 2 ^ 31 ≤ x + u ∧ x < 2 ^ 31 ∨
      odd = true ∧ 2 ^ 31 ≤ x ∧ x < 2 ^ 31 + u)) := by
  intro sum
  by_cases hx31 : x < 2 ^ 31
  · have e : i32 (x : Int) = x := i32_small (by omega) (by omega)
    cases odd
    · have es : sum = (x : Int) + u := by simp [sum, e]
      by_cases hov : 2 ^ 31 ≤ x + u
      · have : i32 sum = sum - 2 ^ 32 := by rw [es]; exact i32_high (by omega) (by omega)
        constructor
        · intro h; omega
        · intro h; exact absurd (Or.inl ⟨rfl, hov, hx31⟩) h
      · have : i32 sum = sum := by rw [es]; exact i32_small (by omega) (by omega)
        simp [this]
        omega
    · have es : sum = (x : Int) - u := by simp [sum, e]; omega
      have : i32 sum = sum := by rw [es]; exact i32_small (by omega) (by omega)
      simp [this]
      omega
  · have e : i32 (x : Int) = (x : Int) - 2 ^ 32 := i32_high (by omega) (by omega)
    cases odd
    · have es : sum = (x : Int) - 2 ^ 32 + u := by simp [sum, e]
      have : i32 sum = sum := by rw [es]; exact i32_small (by omega) (by omega)
      simp [this]
      omega
    · have es : sum = (x : Int) - 2 ^ 32 - u := by simp [sum, e]; omega
      by_cases hov : x < 2 ^ 31 + u
      · have : i32 sum = sum + 2 ^ 32 := by rw [es]; exact i32_low (by omega) (by omega)
        constructor
        · intro h; omega
        · intro h; exact absurd (Or.inr ⟨rfl, by omega, hov⟩) h
      · have : i32 sum = sum := by rw [es]; exact i32_small (by omega) (by omega)
        simp [this]
        omega

/-- The value of a short code that adds an offset. -/
theorem fromMnemonic_far (l : Lru4) (n : Nat) (h4 : ¬ n < 4) :
    ∃ sum : Int, sum = i32 (l.get (n % 4 / 2) : Int) +
        (if decide (n % 2 = 1) = true then ((n / 4 : Nat) : Int) - 2 * ((n / 4 : Nat) : Int)
          else ((n / 4 : Nat) : Int)) ∧
      fromMnemonic l n =
        if i32 sum = sum then some ((sum % 2 ^ 32).toNat, decide (0 < sum)) else none := by
  refine ⟨_, rfl, ?_⟩
  unfold fromMnemonic
  rw [if_neg h4]
  simp only [decide_eq_true_eq]

theorem fromMnemonic_none_iff {b : Bk} (h : BkInv b) {n : Nat} (hn : n < 15) :
    fromMnemonic b.dist n = none ↔ Overflows b.dist n := by
  by_cases h4 : n < 4
  · refine ⟨fun e => ?_, fun e => absurd e.1 (by omega)⟩
    rw [fromMnemonic, if_pos h4] at e
    exact absurd e (by simp)
  · obtain ⟨sum, hsum, hf⟩ := fromMnemonic_far b.dist n h4
    have hs := short_sum (b.dist.get (n % 4 / 2)) (n / 4) (decide (n % 2 = 1))
      (lru_get_lt32 h _) (by omega)
    simp only at hs
    rw [← hsum] at hs
    rw [hf]
    unfold Overflows
    simp only [decide_eq_true_eq, decide_eq_false_iff_not] at hs
    have e0 : (¬ n % 2 = 1) ↔ n % 2 = 0 := by omega
    rw [e0] at hs
    by_cases hi : i32 sum = sum
    · rw [if_pos hi]
      have hno := hs.1 hi
      exact ⟨fun e => absurd e (by simp), fun e => absurd e.2.2 hno⟩
    · rw [if_neg hi]
      refine ⟨fun _ => ⟨by omega, hn, ?_⟩, fun _ => rfl⟩
      by_contra hc
      exact hi (hs.2 hc)

theorem fromMnemonic_lt {b : Bk} (h : BkInv b) {n d : Nat} {ok : Bool}
    (hd : fromMnemonic b.dist n = some (d, ok)) : d < 2 ^ 32 := by
  by_cases h4 : n < 4
  · rw [fromMnemonic, if_pos h4] at hd
    simp only [Option.some.injEq, Prod.mk.injEq] at hd
    rw [← hd.1]
    exact lru_get_lt32 h _
  · obtain ⟨sum, _, hf⟩ := fromMnemonic_far b.dist n h4
    rw [hf] at hd
    by_cases hi : i32 sum = sum
    · rw [if_pos hi] at hd
      simp only [Option.some.injEq, Prod.mk.injEq] at hd
      rw [← hd.1]
      omega
    · rw [if_neg hi] at hd
      exact absurd hd (by simp)

/-! ## Steps -/

/-- When the action on a nibble panics. -/
def CopyPanics (b : Bk) (s : CopySt) (n : Nat) : Prop :=
  (s.at_ = .countMore ∧ 14 ≤ n) ∨ (s.at_ = .distMnem ∧ Overflows b.dist n)

theorem copyTake_inv {b : Bk} {s : CopySt} {n : Nat} (hb : BkInv b) (hs : CopyInv s)
    (hd : s.at_ ≠ .done) (hn : n < 16) :
    (¬ CopyPanics b s n ∧ ∃ b' s', copyTake b s n = .ok (b', s') ∧ BkInv b' ∧ CopyInv s') ∨
      (¬ CopyPanics b s n ∧ copyTake b s n = .fail) ∨
      (CopyPanics b s n ∧ copyTake b s n = .panic) := by
  obtain ⟨hnum, hdist, hm⟩ := hs
  unfold copyTake CopyPanics
  cases hat : s.at_ with
  | countSmall =>
    simp only
    left
    refine ⟨by simp, ?_⟩
    split
    · exact ⟨_, _, rfl, hb, hnum, hdist, trivial⟩
    · exact ⟨_, _, rfl, ⟨hb.map, hb.cmap, hb.last4, hb.llen, hb.l0, hb.l1, hb.l2, hb.l3⟩,
        by simp only; omega, hdist, trivial⟩
  | countFirst =>
    simp only
    left
    refine ⟨by simp, ?_⟩
    split
    · exact ⟨_, _, rfl, hb, hnum, hdist, trivial⟩
    · obtain ⟨r, h1, h2⟩ := mantissaStart_inv (n + 3) (by omega) (by omega)
      rw [h1]
      exact ⟨_, _, rfl, ⟨hb.map, hb.cmap, hb.last4, hb.llen, hb.l0, hb.l1, hb.l2, hb.l3⟩,
        hnum, hdist, h2⟩
  | countMore =>
    simp only
    by_cases h14 : 14 ≤ n
    · right; right
      refine ⟨by simp [h14], ?_⟩
      rw [mantissaStart_panic _ (by omega)]
      rfl
    · left
      refine ⟨by simp; omega, ?_⟩
      obtain ⟨r, h1, h2⟩ := mantissaStart_inv (n + 18) (by omega) (by omega)
      rw [h1]
      exact ⟨_, _, rfl, ⟨hb.map, hb.cmap, hb.last4, hb.llen, hb.l0, hb.l1, hb.l2, hb.l3⟩,
        hnum, hdist, h2⟩
  | countMant first rem acc =>
    rw [hat] at hm
    simp only at hm ⊢
    left
    refine ⟨by simp, ?_⟩
    rw [if_neg (by have := hm.1; omega)]
    by_cases h4 : rem = 4
    · rw [if_pos h4]
      exact ⟨_, _, rfl, hb, mantissaTake_lt hm hn, hdist, trivial⟩
    · rw [if_neg h4]
      exact ⟨_, _, rfl, hb, hnum, hdist, mantOk_next hm hn h4⟩
  | distMnem =>
    simp only
    by_cases h15 : n = 15
    · left
      rw [if_pos h15]
      refine ⟨?_, _, _, rfl, hb, hnum, hdist, trivial⟩
      simp [Overflows]
      omega
    · rw [if_neg h15]
      have hiff := fromMnemonic_none_iff hb (n := n) (by omega)
      cases hf : fromMnemonic b.dist n with
      | none =>
        right; right
        exact ⟨by simp [hiff.1 hf], rfl⟩
      | some r =>
        have hno : ¬ Overflows b.dist n := fun ho => by
          rw [hiff.2 ho] at hf
          exact absurd hf (by simp)
        obtain ⟨d, ok⟩ := r
        cases ok
        · right; left
          exact ⟨by simp [hno], rfl⟩
        · left
          exact ⟨by simp [hno], _, _, rfl,
            ⟨hb.map, hb.cmap, hb.last4, hb.llen, hb.l0, hb.l1, hb.l2, hb.l3⟩, hnum,
            fromMnemonic_lt hb hf, trivial⟩
  | distFirst =>
    simp only
    left
    refine ⟨by simp, ?_⟩
    split
    · exact ⟨_, _, rfl, hb, hnum, hdist, trivial⟩
    · split
      · exact ⟨_, _, rfl, ⟨hb.map, hb.cmap, hb.last4, hb.llen, hb.l0, hb.l1, hb.l2, hb.l3⟩, hnum,
          Nat.mod_lt _ (by decide), trivial⟩
      · split
        · exact ⟨_, _, rfl, ⟨hb.map, hb.cmap, hb.last4, hb.llen, hb.l0, hb.l1, hb.l2, hb.l3⟩, hnum,
            by simp only; omega, trivial⟩
        · obtain ⟨r, h1, h2⟩ := mantissaStart_inv n (by assumption) (by omega)
          rw [h1]
          exact ⟨_, _, rfl, ⟨hb.map, hb.cmap, hb.last4, hb.llen, hb.l0, hb.l1, hb.l2, hb.l3⟩,
            hnum, hdist, h2⟩
  | distMore =>
    simp only
    left
    refine ⟨by simp, ?_⟩
    obtain ⟨r, h1, h2⟩ := mantissaStart_inv (n + 14) (by omega) (by omega)
    rw [h1]
    exact ⟨_, _, rfl, ⟨hb.map, hb.cmap, hb.last4, hb.llen, hb.l0, hb.l1, hb.l2, hb.l3⟩,
      hnum, hdist, h2⟩
  | distMant first rem acc =>
    rw [hat] at hm
    simp only at hm ⊢
    left
    refine ⟨by simp, ?_⟩
    rw [if_neg (by have := hm.1; omega)]
    by_cases h4 : rem = 4
    · rw [if_pos h4]
      exact ⟨_, _, rfl, hb, hnum, mantissaTake_lt hm hn, trivial⟩
    · rw [if_neg h4]
      exact ⟨_, _, rfl, hb, hnum, hdist, mantOk_next hm hn h4⟩
  | done => exact absurd hat hd

theorem dictIndexStart_inv {s : DictSt} (h4 : 4 ≤ s.size) (h24 : s.size ≤ 24) :
    ∃ s', dictIndexStart s = .ok s' ∧ DictInv s' := by
  obtain ⟨k, h1, h2, h3⟩ := dictBits_spec s.size h4 h24
  refine ⟨{ s with at_ := .index true (dictIndexBits s.size) 0 }, ?_, ?_⟩
  · simp only [dictIndexStart, h1, h2]
  · exact ⟨h4, h24, by omega, Nat.le_refl _, by omega, Nat.two_pow_pos _⟩

theorem dictTake_inv {s : DictSt} {n : Nat} (hs : DictInv s) (hd : s.at_ ≠ .done) (hn : n < 16) :
    (∃ s', dictTake s n = .ok s' ∧ DictInv s') ∨ dictTake s n = .fail := by
  unfold DictInv at hs
  unfold dictTake
  cases hat : s.at_ with
  | sizeFirst =>
    simp only
    left
    split
    · exact ⟨_, rfl, trivial⟩
    · exact dictIndexStart_inv (by simp only; omega) (by simp only; omega)
  | sizeMore =>
    simp only
    split
    · exact Or.inr rfl
    · exact Or.inl (dictIndexStart_inv (by simp only; omega) (by simp only; omega))
  | index first rem acc =>
    rw [hat] at hs
    obtain ⟨h4, h24, hm⟩ := hs
    simp only
    left
    rw [if_neg (by have := hm.1; omega)]
    by_cases hr : rem = 4
    · rw [if_pos hr]
      exact ⟨_, rfl, h4, h24, mantissaTake_lt hm hn⟩
    · rw [if_neg hr]
      exact ⟨_, rfl, h4, h24, mantOk_next hm hn hr⟩
  | transHigh =>
    rw [hat] at hs
    exact Or.inl ⟨_, rfl, hs.1, hs.2.1, hs.2.2, by simp only; omega⟩
  | transLow =>
    rw [hat] at hs
    simp only
    split
    · exact Or.inr rfl
    · exact Or.inl ⟨_, rfl, hs.1, hs.2.1, hs.2.2.1, by simp only; omega⟩
  | done => exact absurd hat hd

theorem litTake_inv {b : Bk} {s : LitSt} {n : Nat} (hb : BkInv b) (hs : LitInv s)
    (hd : s.at_ ≠ .done) (hn : n < 16) :
    ∃ b' s', litTake b s n = .ok (b', s') ∧ BkInv b' ∧ LitInv s' := by
  unfold LitInv at hs
  unfold litTake
  cases hat : s.at_ with
  | countSmall f =>
    simp only
    split
    · exact ⟨_, _, rfl, hb, trivial⟩
    · split
      · exact ⟨_, _, rfl, hb, trivial⟩
      · exact ⟨_, _, rfl, ⟨hb.map, hb.cmap, hb.last4, by simp only; omega, hb.l0, hb.l1, hb.l2, hb.l3⟩,
          by simp only [LitInv]; omega⟩
  | countFirst =>
    simp only
    split
    · exact ⟨_, _, rfl, hb, trivial⟩
    · split
      · exact ⟨_, _, rfl, hb, by simp only [LitInv]; omega⟩
      · obtain ⟨r, h1, h2⟩ := mantissaStart_inv (n - 1) (by omega) (by omega)
        rw [h1]
        exact ⟨_, _, rfl, hb, h2⟩
  | countMore =>
    simp only
    obtain ⟨r, h1, h2⟩ := mantissaStart_inv (n + 14) (by omega) (by omega)
    rw [h1]
    exact ⟨_, _, rfl, hb, h2⟩
  | countMant rem acc =>
    rw [hat] at hs
    simp only at hs ⊢
    rw [if_neg (by have := hs.1; omega)]
    have hlt := mantissaTake_lt hs hn
    by_cases hr : rem = 4
    · rw [if_pos hr]
      exact ⟨_, _, rfl, ⟨hb.map, hb.cmap, hb.last4, Nat.mod_lt _ (by decide), hb.l0, hb.l1, hb.l2, hb.l3⟩,
        by simp only [LitInv]; omega⟩
    · rw [if_neg hr]
      exact ⟨_, _, rfl, hb, mantOk_next hs hn hr⟩
  | done => exact absurd hat hd

theorem bsKnown_inv (k : Switch) (t : UInt8) : BsInv k (bsKnown k t) := by
  cases k <;> simp [bsKnown, BsInv]

theorem bsTake_inv {b : Bk} {k : Switch} {s : BsAt} {n : Nat} (hs : BsInv k s)
    (hd : ∀ t st, s ≠ .done t st) (hn : n < 16) :
    ∃ s', bsTake b k s n = .ok s' ∧ BsInv k s' := by
  unfold bsTake
  cases s with
  | begin =>
    simp only
    split
    · exact ⟨_, rfl, bsKnown_inv _ _⟩
    · split
      · exact ⟨_, rfl, bsKnown_inv _ _⟩
      · split
        · exact ⟨_, rfl, trivial⟩
        · exact ⟨_, rfl, bsKnown_inv _ _⟩
  | two => exact ⟨_, rfl, hn⟩
  | final low => exact ⟨_, rfl, bsKnown_inv _ _⟩
  | stride t => exact ⟨_, rfl, hn, fun h => absurd hs h⟩
  | done t st => exact absurd rfl (hd t st)

/-! ## Prediction mode -/

theorem speedStore_inv {acc : List (Nat × Nat)} {i n : Nat} (hi : i < 16) (hl : acc.length = 4)
    (ha : ∀ q ∈ acc, q.1 < 128 ∧ q.2 < 128) (hn : n < 16) :
    (speedStore acc i n).length = 4 ∧ ∀ q ∈ speedStore acc i n, q.1 < 128 ∧ q.2 < 128 := by
  have hp : (acc.getD (i / 4) (0, 0)).1 < 2 ^ 7 ∧ (acc.getD (i / 4) (0, 0)).2 < 2 ^ 7 := by
    have hlt : i / 4 < acc.length := by omega
    rw [List.getD_eq_getElem?_getD, List.getElem?_eq_getElem hlt]
    exact ha _ (List.getElem_mem hlt)
  have hn3 : n <<< 3 < 2 ^ 7 := by
    rw [Nat.shiftLeft_eq]
    omega
  have hn7 : n < 2 ^ 7 := by omega
  unfold speedStore
  simp only
  refine ⟨by rw [List.length_set]; exact hl, ?_⟩
  intro q hq
  rcases List.mem_or_eq_of_mem_set hq with h | h
  · exact ha q h
  · rw [h]
    split_ifs
    · exact ⟨Nat.or_lt_two_pow hp.1 hn3, hp.2⟩
    · exact ⟨Nat.or_lt_two_pow hp.1 hn7, hp.2⟩
    · exact ⟨hp.1, Nat.or_lt_two_pow hp.2 hn3⟩
    · exact ⟨hp.1, Nat.or_lt_two_pow hp.2 hn7⟩

theorem mapM_kept : ∀ {l : List (Nat × Nat)}, (∀ q ∈ l, q.1 < 128 ∧ q.2 < 128) →
    ∃ r, l.mapM speedKept = some r ∧ r.length = l.length := by
  intro l
  induction l with
  | nil => exact fun _ => ⟨[], rfl, rfl⟩
  | cons a t ih =>
    intro h
    obtain ⟨x, hx⟩ := speedKept_some (f := a) (h a (by simp)).1 (h a (by simp)).2
    obtain ⟨r, hr, hlen⟩ := ih fun q hq => h q (by simp [hq])
    exact ⟨x :: r, by simp [List.mapM_cons, hx, hr], by simp [hlen]⟩

theorem bkInv_resetCmap {b : Bk} (h : BkInv b) : BkInv (resetCmap b) :=
  ⟨h.map, by rw [resetCmap, List.length_map, List.length_range], h.last4, h.llen, h.l0, h.l1, h.l2, h.l3⟩

theorem bkInv_resetDistMap {b : Bk} (h : BkInv b) : BkInv (resetDistMap b) :=
  ⟨by rw [resetDistMap, List.length_map, List.length_range]; exact h.map, h.cmap, h.last4, h.llen,
    h.l0, h.l1, h.l2, h.l3⟩

theorem touch_length13 {l : List UInt8} (v : UInt8) (h : l.length = 13) : (touch l v).length = 13 := by
  rw [touch_length v (by intro e; simp [e] at h), h]

theorem obsCmap_inv {b : Bk} (h : BkInv b) (k : MapKind) (i : Nat) (v : UInt8) :
    (∃ b', obsCmap b k i v = .ok b' ∧ BkInv b') ∨ obsCmap b k i v = .fail := by
  unfold obsCmap
  cases k with
  | lit => exact Or.inl ⟨_, rfl, h.map, touch_length13 v h.cmap, h.last4, h.llen, h.l0, h.l1, h.l2, h.l3⟩
  | dist =>
    simp only
    split
    · exact Or.inl ⟨_, rfl, by rw [List.length_set]; exact h.map, touch_length13 v h.cmap, h.last4, h.llen,
        h.l0, h.l1, h.l2, h.l3⟩
    · exact Or.inr rfl

theorem pmStore_inv {p : Pm} (h : PmInv p) (k : MapKind) (i : Nat) (v : UInt8) :
    (∃ p', pmStore p k i v = .ok p' ∧ PmInv p') ∨ pmStore p k i v = .fail := by
  unfold pmStore
  cases k with
  | lit =>
    simp only
    split
    · exact Or.inl ⟨_, rfl, by rw [List.length_set]; exact h.lit, h.dist, h.mix, h.vals, h.mode, h.math,
        h.adv, h.speeds⟩
    · exact Or.inr rfl
  | dist =>
    simp only
    split
    · exact Or.inl ⟨_, rfl, h.lit, by rw [List.length_set]; exact h.dist, h.mix, h.vals, h.mode, h.math,
        h.adv, h.speeds⟩
    · exact Or.inr rfl

theorem pmTake_inv {b : Bk} {p : Pm} {s : PmAt} {n : Nat} (hb : BkInv b) (hp : PmInv p)
    (hs : PmAtInv s) (hd : s ≠ .done) (hn : n < 16) :
    (∃ b' p' s', pmTake b p s n = .ok (b', p', s') ∧ BkInv b' ∧ PmInv p' ∧ PmAtInv s') ∨
      pmTake b p s n = .fail := by
  unfold pmTake
  cases s with
  | begin =>
    simp only
    split
    · exact Or.inr rfl
    · exact Or.inl ⟨_, _, _, rfl, bkInv_resetDistMap (bkInv_resetCmap hb),
        ⟨hp.lit, hp.dist, hp.mix, hp.vals, by simp only; omega, hp.math, hp.adv, hp.speeds⟩, trivial⟩
  | mixing =>
    exact Or.inl ⟨_, _, _, rfl, hb, ⟨hp.lit, hp.dist, hp.mix, hp.vals, hp.mode, by simp only; omega,
      by simp only; omega, hp.speeds⟩, trivial⟩
  | depth comb =>
    refine Or.inl ⟨_, _, _, rfl, hb, hp, by decide, List.length_replicate, ?_⟩
    intro q hq
    rw [(List.mem_replicate.1 hq).2]
    decide
  | speed i acc comb =>
    obtain ⟨hi, hl, ha⟩ := hs
    obtain ⟨hl', ha'⟩ := speedStore_inv hi hl ha hn
    simp only
    left
    split
    · obtain ⟨r, hr, hlen⟩ := mapM_kept ha'
      rw [hr]
      exact ⟨_, _, _, rfl, hb, ⟨hp.lit, hp.dist, hp.mix, hp.vals, hp.mode, hp.math, hp.adv,
        by simp only; omega⟩, trivial⟩
    · exact ⟨_, _, _, rfl, hb, hp, by omega, hl', ha'⟩
  | mnem i k comb =>
    simp only
    split
    · cases k with
      | lit => exact Or.inl ⟨_, _, _, rfl, bkInv_resetCmap hb, hp, trivial⟩
      | dist => exact Or.inl ⟨_, _, _, rfl, hb, hp, by simp [PmAtInv]⟩
    · split
      · exact Or.inl ⟨_, _, _, rfl, hb, hp, trivial⟩
      · obtain ⟨v, hv⟩ : ∃ v, v = (if n = 13 then maxOf b.cmap + 1 else b.cmap.getD n 0) := ⟨_, rfl⟩
        rw [← hv]
        rcases obsCmap_inv hb k i v with ⟨b', h1, h2⟩ | h1
        · rw [h1]
          rcases pmStore_inv hp k i v with ⟨p', h3, h4⟩ | h3
          · simp only [Res.bind, h3]
            exact Or.inl ⟨_, _, _, rfl, h2, h4, trivial⟩
          · simp only [Res.bind, h3]
            exact Or.inr trivial
        · rw [h1]
          exact Or.inr rfl
  | first i k comb => exact Or.inl ⟨_, _, _, rfl, hb, hp, hn⟩
  | second i k high comb =>
    simp only
    obtain ⟨v, hv⟩ : ∃ v, v = UInt8.ofNat ((high <<< 4) ||| n) := ⟨_, rfl⟩
    rw [← hv]
    rcases pmStore_inv hp k i v with ⟨p', h3, h4⟩ | h3
    · rw [h3]
      rcases obsCmap_inv hb k i v with ⟨b', h1, h2⟩ | h1
      · simp only [Res.bind, h1]
        exact Or.inl ⟨_, _, _, rfl, h2, h4, trivial⟩
      · simp only [Res.bind, h1]
        exact Or.inr trivial
    · rw [h3]
      exact Or.inr rfl
  | values i comb =>
    have hi : i < 8192 := hs
    simp only
    left
    rw [if_pos (by rw [hp.mix]; exact hi)]
    have hp' : PmInv { p with mixing := p.mixing.set i n } := by
      refine ⟨hp.lit, hp.dist, by simp only; rw [List.length_set]; exact hp.mix, ?_, hp.mode, hp.math,
        hp.adv, hp.speeds⟩
      intro v hv
      rcases List.mem_or_eq_of_mem_set hv with h | h
      · exact hp.vals v h
      · rw [h]
        exact hn
    split
    · exact ⟨_, _, _, rfl, hb, hp', trivial⟩
    · exact ⟨_, _, _, rfl, hb, hp', by simp only [PmAtInv]; omega⟩
  | done => exact absurd rfl hd

/-! ## The whole decoder -/

theorem obsState_inv {b : Bk} (h : BkInv b) {m : Nat} (hm : m < 256) : BkInv (obsState b m) :=
  ⟨h.map, h.cmap, or_lt256 h.last4 hm, h.llen, h.l0, h.l1, h.l2, h.l3⟩

theorem obsBtype_inv {b : Bk} (h : BkInv b) (k : Switch) (t : UInt8) : BkInv (obsBtype b k t) := by
  have h4 := h.last4
  cases k <;> exact ⟨h.map, h.cmap, by simp only [obsBtype]; omega, h.llen, h.l0, h.l1, h.l2, h.l3⟩

theorem obsDistance_inv {b : Bk} (h : BkInv b) {d : Nat} (hd : d < 2 ^ 32) :
    BkInv { b with dist := obsDistance b.dist d } := by
  have h0 := h.l0
  have h1 := h.l1
  have h2 := h.l2
  have h3 := h.l3
  unfold obsDistance
  split_ifs
  · exact ⟨h.map, h.cmap, h.last4, h.llen, hd, h0, h2, h3⟩
  · exact ⟨h.map, h.cmap, h.last4, h.llen, hd, h0, h1, h3⟩
  · exact ⟨h.map, h.cmap, h.last4, h.llen, hd, h0, h1, h2⟩
  · exact ⟨h.map, h.cmap, h.last4, h.llen, h0, h1, h2, h3⟩

/-- When a step of the decoder panics. -/
def StepPanics (c : Core) (n : Nat) : Prop :=
  c.at_ = .stop ∨ NoLength c ∨ ∃ s, c.at_ = .copy s ∧ CopyPanics c.bk s n

theorem startTake_inv {c : Core} (h : CoreInv c) (n : Nat) :
    (∃ c', startTake c n = .ok c' ∧ CoreInv c') ∨ startTake c n = .fail := by
  unfold startTake
  split_ifs
  · exact Or.inl ⟨_, rfl, obsState_inv h.bk (by decide), h.pm, ⟨by decide, by decide, trivial⟩, by decide⟩
  · exact Or.inl ⟨_, rfl, obsState_inv h.bk (by decide), h.pm, trivial, by decide⟩
  · exact Or.inl ⟨_, rfl, obsState_inv h.bk (by decide), h.pm, trivial, by decide⟩
  · exact Or.inl ⟨_, rfl, h.bk, h.pm, trivial, by simp⟩
  · exact Or.inl ⟨_, rfl, h.bk, h.pm, trivial, by simp⟩
  · exact Or.inl ⟨_, rfl, h.bk, h.pm, trivial, by simp⟩
  · exact Or.inl ⟨_, rfl, h.bk, h.pm, trivial, by simp⟩
  · exact Or.inl ⟨_, rfl, h.bk, h.pm, trivial⟩
  · exact Or.inr rfl

/-- The outcomes of acting on a nibble, in any reachable state. -/
theorem coreTake_inv {c : Core} (h : CoreInv c) (hst : c.at_ ≠ .stop) {n : Nat} (hn : n < 16) :
    ((¬ ∃ s, c.at_ = .copy s ∧ CopyPanics c.bk s n) ∧
      ((∃ c' g, coreTake c n = .ok (c', g) ∧ CoreInv c' ∧ ∀ g', g = some g' → GotOk g') ∨
        coreTake c n = .fail)) ∨
      ((∃ s, c.at_ = .copy s ∧ CopyPanics c.bk s n) ∧ coreTake c n = .panic) := by
  have hat := h.at_
  unfold coreTake
  cases hc : c.at_ with
  | begin =>
    left
    refine ⟨by simp, ?_⟩
    simp only
    rcases startTake_inv h n with ⟨c', h1, h2⟩ | h1
    · rw [h1]
      exact Or.inl ⟨_, _, rfl, h2, by simp⟩
    · rw [h1]
      exact Or.inr rfl
  | copy s =>
    rw [hc] at hat
    simp only
    rcases copyTake_inv h.bk hat.1 hat.2 hn with ⟨hp, b', s', h1, h2, h3⟩ | ⟨hp, h1⟩ | ⟨hp, h1⟩
    · left
      refine ⟨by simpa using hp, Or.inl ?_⟩
      rw [h1]
      simp only [Res.bind]
      split
      · refine ⟨_, _, rfl, ⟨obsDistance_inv h2 h3.2.1, h.pm, trivial⟩, ?_⟩
        intro g' hg
        rw [← Option.some.inj hg]
        exact ⟨h3.2.1, h3.1⟩
      · rename_i hnd
        exact ⟨_, _, rfl, ⟨h2, h.pm, h3, hnd⟩, by simp⟩
    · left
      refine ⟨by simpa using hp, Or.inr ?_⟩
      rw [h1]
      rfl
    · right
      refine ⟨⟨s, rfl, hp⟩, ?_⟩
      rw [h1]
      rfl
  | dict s =>
    left
    refine ⟨by simp, ?_⟩
    rw [hc] at hat
    simp only
    rcases dictTake_inv hat.1 hat.2 hn with ⟨s', h1, h2⟩ | h1
    · left
      rw [h1]
      simp only [Res.bind]
      split
      · rename_i hdone
        refine ⟨_, _, rfl, ⟨h.bk, h.pm, trivial⟩, ?_⟩
        intro g' hg
        rw [← Option.some.inj hg]
        unfold DictInv at h2
        rw [hdone] at h2
        exact h2
      · rename_i hnd
        exact ⟨_, _, rfl, ⟨h.bk, h.pm, h2, hnd⟩, by simp⟩
    · rw [h1]
      exact Or.inr rfl
  | lit s =>
    left
    refine ⟨by simp, Or.inl ?_⟩
    rw [hc] at hat
    simp only
    obtain ⟨b', s', h1, h2, h3⟩ := litTake_inv h.bk hat.1 hat.2 hn
    rw [h1]
    simp only [Res.bind]
    split
    · rename_i hdone
      refine ⟨_, _, rfl, ⟨h2, h.pm, trivial⟩, ?_⟩
      intro g' hg
      rw [← Option.some.inj hg]
      unfold LitInv at h3
      rw [hdone] at h3
      exact h3
    · rename_i hnd
      exact ⟨_, _, rfl, ⟨h2, h.pm, h3, hnd⟩, by simp⟩
  | bswitch k s =>
    left
    refine ⟨by simp, Or.inl ?_⟩
    rw [hc] at hat
    simp only
    obtain ⟨s', h1, h2⟩ := bsTake_inv (b := c.bk) hat.1 hat.2 hn
    rw [h1]
    simp only [Res.bind]
    cases s' with
    | done t st =>
      refine ⟨_, _, rfl, ⟨obsBtype_inv h.bk k t, h.pm, trivial⟩, ?_⟩
      intro g' hg
      rw [← Option.some.inj hg]
      exact h2
    | begin => exact ⟨_, _, rfl, ⟨h.bk, h.pm, h2, by simp⟩, by simp⟩
    | two => exact ⟨_, _, rfl, ⟨h.bk, h.pm, h2, by simp⟩, by simp⟩
    | final low => exact ⟨_, _, rfl, ⟨h.bk, h.pm, h2, by simp⟩, by simp⟩
    | stride t => exact ⟨_, _, rfl, ⟨h.bk, h.pm, h2, by simp⟩, by simp⟩
  | pm s =>
    left
    refine ⟨by simp, ?_⟩
    rw [hc] at hat
    simp only
    rcases pmTake_inv h.bk h.pm hat.1 hat.2 hn with ⟨b', p', s', h1, h2, h3, h4⟩ | h1
    · left
      rw [h1]
      simp only [Res.bind]
      split
      · refine ⟨_, _, rfl, ⟨h2, h3, trivial⟩, ?_⟩
        intro g' hg
        rw [← Option.some.inj hg]
        exact h3
      · rename_i hnd
        exact ⟨_, _, rfl, ⟨h2, h3, h4, hnd⟩, by simp⟩
    · rw [h1]
      exact Or.inr rfl
  | stop => exact absurd hc hst

/-- The outcomes of a step of the decoder, in any reachable state and for any nibble. -/
theorem decStep_inv {c : Core} (h : CoreInv c) {n : Nat} (hn : n < 16) :
    (¬ StepPanics c n ∧
      ((∃ c' g, decStep c n = .ok (c', g) ∧ CoreInv c' ∧ ∀ g', g = some g' → GotOk g') ∨
        decStep c n = .fail)) ∨
      (StepPanics c n ∧ decStep c n = .panic) := by
  unfold StepPanics decStep
  by_cases hs : c.at_ = .stop
  · right
    refine ⟨Or.inl hs, ?_⟩
    simp [coreAsk, hs]
  · by_cases hl : NoLength c
    · right
      refine ⟨Or.inr (Or.inl hl), ?_⟩
      rw [coreAsk_noLength hl]
    · obtain ⟨a, ha⟩ := coreAsk_inv h hs hl
      rw [ha]
      simp only [hs, hl, false_or]
      exact coreTake_inv h hs hn

/-! ## Distances and literal lengths in the state come from decoded commands -/

/-- The state of a decoder that has only seen moderate distances and lengths. -/
def Modest (b : Bk) : Prop :=
  1 ≤ b.lastLlen ∧ b.dist.d0 < 2 ^ 31 - 3 ∧ b.dist.d1 < 2 ^ 31 - 3 ∧ b.dist.d2 < 2 ^ 31 - 3 ∧
    b.dist.d3 < 2 ^ 31 - 3

/-- A decoded command with a moderate distance or length. -/
def Got.modest : Got → Prop
  | .copy d _ => d < 2 ^ 31 - 3
  | .lit n _ => n < 2 ^ 32
  | _ => True

theorem copyTake_keeps {b b' : Bk} {s s' : CopySt} {n : Nat} (h : copyTake b s n = .ok (b', s')) :
    b'.dist = b.dist ∧ b'.lastLlen = b.lastLlen := by
  have hm : ∀ {bits : Nat} {f : Nat × Nat → Bk × CopySt},
      (∀ m, (f m).1.dist = b.dist ∧ (f m).1.lastLlen = b.lastLlen) →
      ((mantissaStart bits).bind fun m => Res.ok (f m)) = .ok (b', s') →
      b'.dist = b.dist ∧ b'.lastLlen = b.lastLlen := by
    intro bits f hf he
    cases hms : mantissaStart bits with
    | ok m =>
      rw [hms] at he
      have := Res.ok.inj he
      have e1 : b' = (f m).1 := by rw [this]
      rw [e1]
      exact hf m
    | fail => rw [hms] at he; exact absurd he (by simp [Res.bind])
    | panic => rw [hms] at he; exact absurd he (by simp [Res.bind])
  unfold copyTake at h
  cases hat : s.at_ with
  | countSmall =>
    rw [hat] at h
    simp only at h
    split at h <;> (cases h; exact ⟨rfl, rfl⟩)
  | countFirst =>
    rw [hat] at h
    simp only at h
    split at h
    · cases h; exact ⟨rfl, rfl⟩
    · exact hm (fun _ => ⟨rfl, rfl⟩) h
  | countMore =>
    rw [hat] at h
    exact hm (fun _ => ⟨rfl, rfl⟩) h
  | countMant first rem acc =>
    rw [hat] at h
    simp only at h
    split at h
    · exact absurd h (by simp)
    · split at h <;> (cases h; exact ⟨rfl, rfl⟩)
  | distMnem =>
    rw [hat] at h
    simp only at h
    split at h
    · cases h; exact ⟨rfl, rfl⟩
    · split at h
      · exact absurd h (by simp)
      · cases h; exact ⟨rfl, rfl⟩
      · exact absurd h (by simp)
  | distFirst =>
    rw [hat] at h
    simp only at h
    split at h
    · cases h; exact ⟨rfl, rfl⟩
    · split at h
      · cases h; exact ⟨rfl, rfl⟩
      · split at h
        · cases h; exact ⟨rfl, rfl⟩
        · exact hm (fun _ => ⟨rfl, rfl⟩) h
  | distMore =>
    rw [hat] at h
    exact hm (fun _ => ⟨rfl, rfl⟩) h
  | distMant first rem acc =>
    rw [hat] at h
    simp only at h
    split at h
    · exact absurd h (by simp)
    · split at h <;> (cases h; exact ⟨rfl, rfl⟩)
  | done =>
    rw [hat] at h
    exact absurd h (by simp)

theorem litTake_keeps {b b' : Bk} {s s' : LitSt} {n : Nat} (h : litTake b s n = .ok (b', s')) :
    b'.dist = b.dist ∧ (b'.lastLlen = b.lastLlen ∨
      (s'.at_ = .done ∧ 1 ≤ s'.len ∧ b'.lastLlen = s'.len % 2 ^ 32)) ∨ 16 ≤ n := by
  by_cases hn : 16 ≤ n
  · exact Or.inr hn
  left
  have hm : ∀ {bits : Nat} {f : Nat × Nat → LitSt},
      ((mantissaStart bits).bind fun m => Res.ok (b, f m)) = .ok (b', s') → b' = b := by
    intro bits f he
    cases hms : mantissaStart bits with
    | ok m =>
      rw [hms] at he
      have := Res.ok.inj he
      exact (congrArg Prod.fst this).symm
    | fail => rw [hms] at he; exact absurd he (by simp [Res.bind])
    | panic => rw [hms] at he; exact absurd he (by simp [Res.bind])
  unfold litTake at h
  cases hat : s.at_ with
  | countSmall f =>
    rw [hat] at h
    simp only at h
    split at h
    · cases h; exact ⟨rfl, Or.inl rfl⟩
    · split at h
      · cases h; exact ⟨rfl, Or.inl rfl⟩
      · cases h
        refine ⟨rfl, Or.inr ⟨rfl, by simp only; omega, ?_⟩⟩
        simp only
        omega
  | countFirst =>
    rw [hat] at h
    simp only at h
    split at h
    · cases h; exact ⟨rfl, Or.inl rfl⟩
    · split at h
      · cases h; exact ⟨rfl, Or.inl rfl⟩
      · have := hm h
        subst this
        exact ⟨rfl, Or.inl rfl⟩
  | countMore =>
    rw [hat] at h
    have := hm h
    subst this
    exact ⟨rfl, Or.inl rfl⟩
  | countMant rem acc =>
    rw [hat] at h
    simp only at h
    split at h
    · exact absurd h (by simp)
    · split at h
      · cases h
        exact ⟨rfl, Or.inr ⟨rfl, by simp only; omega, rfl⟩⟩
      · cases h; exact ⟨rfl, Or.inl rfl⟩
  | done =>
    rw [hat] at h
    exact absurd h (by simp)

theorem obsCmap_keeps {b b' : Bk} {k : MapKind} {i : Nat} {v : UInt8} (h : obsCmap b k i v = .ok b') :
    b'.dist = b.dist ∧ b'.lastLlen = b.lastLlen := by
  unfold obsCmap at h
  cases k with
  | lit => cases h; exact ⟨rfl, rfl⟩
  | dist =>
    simp only at h
    split at h
    · cases h; exact ⟨rfl, rfl⟩
    · exact absurd h (by simp)

theorem pmTake_keeps {b b' : Bk} {p p' : Pm} {s s' : PmAt} {n : Nat}
    (h : pmTake b p s n = .ok (b', p', s')) : b'.dist = b.dist ∧ b'.lastLlen = b.lastLlen := by
  unfold pmTake at h
  cases s with
  | begin =>
    simp only at h
    split at h
    · exact absurd h (by simp)
    · cases h; exact ⟨rfl, rfl⟩
  | mixing => cases h; exact ⟨rfl, rfl⟩
  | depth comb => cases h; exact ⟨rfl, rfl⟩
  | speed i acc comb =>
    simp only at h
    split at h
    · split at h
      · exact absurd h (by simp)
      · cases h; exact ⟨rfl, rfl⟩
    · cases h; exact ⟨rfl, rfl⟩
  | mnem i k comb =>
    simp only at h
    split at h
    · cases k <;> (cases h; exact ⟨rfl, rfl⟩)
    · split at h
      · cases h; exact ⟨rfl, rfl⟩
      · obtain ⟨v, hv⟩ : ∃ v, v = (if n = 13 then maxOf b.cmap + 1 else b.cmap.getD n 0) := ⟨_, rfl⟩
        rw [← hv] at h
        cases h1 : obsCmap b k i v with
        | ok b1 =>
          rw [h1] at h
          cases h2 : pmStore p k i v with
          | ok p1 =>
            simp only [h2, Res.bind] at h
            cases h
            exact obsCmap_keeps h1
          | fail => simp [h2, Res.bind] at h
          | panic => simp [h2, Res.bind] at h
        | fail => simp [h1, Res.bind] at h
        | panic => simp [h1, Res.bind] at h
  | first i k comb => cases h; exact ⟨rfl, rfl⟩
  | second i k high comb =>
    simp only at h
    obtain ⟨v, hv⟩ : ∃ v, v = UInt8.ofNat ((high <<< 4) ||| n) := ⟨_, rfl⟩
    rw [← hv] at h
    cases h2 : pmStore p k i v with
    | ok p1 =>
      rw [h2] at h
      cases h1 : obsCmap b k i v with
      | ok b1 =>
        simp only [h1, Res.bind] at h
        cases h
        exact obsCmap_keeps h1
      | fail => simp [h1, Res.bind] at h
      | panic => simp [h1, Res.bind] at h
    | fail => simp [h2, Res.bind] at h
    | panic => simp [h2, Res.bind] at h
  | values i comb =>
    simp only at h
    split at h
    · split at h <;> (cases h; exact ⟨rfl, rfl⟩)
    · exact absurd h (by simp)
  | done => exact absurd h (by simp)

theorem modest_of_eq {b b' : Bk} (h : Modest b) (hd : b'.dist = b.dist) (hl : b'.lastLlen = b.lastLlen) :
    Modest b' := by
  unfold Modest
  rw [hd, hl]
  exact h

theorem startTake_modest {c c' : Core} {n : Nat} (h : Modest c.bk) (hs : startTake c n = .ok c') :
    Modest c'.bk := by
  unfold startTake at hs
  split_ifs at hs <;> (cases hs; exact h)

theorem modest_obsDistance {b : Bk} (h : Modest b) {d : Nat} (hd : d < 2 ^ 31 - 3) :
    Modest { b with dist := obsDistance b.dist d } := by
  obtain ⟨hl, h0, h1, h2, h3⟩ := h
  unfold obsDistance
  split_ifs
  · exact ⟨hl, hd, h0, h2, h3⟩
  · exact ⟨hl, hd, h0, h1, h3⟩
  · exact ⟨hl, hd, h0, h1, h2⟩
  · exact ⟨hl, h0, h1, h2, h3⟩

/-- Distances and lengths stay moderate as long as the decoded commands are. -/
theorem coreTake_modest {c c' : Core} {n : Nat} {g : Option Got} (h : Modest c.bk) (hn : n < 16)
    (ht : coreTake c n = .ok (c', g)) (hg : ∀ g', g = some g' → g'.modest) : Modest c'.bk := by
  unfold coreTake at ht
  cases hc : c.at_ with
  | begin =>
    rw [hc] at ht
    simp only at ht
    cases hs : startTake c n with
    | ok c1 =>
      rw [hs] at ht
      cases ht
      exact startTake_modest h hs
    | fail => simp [hs, Res.bind] at ht
    | panic => simp [hs, Res.bind] at ht
  | copy s =>
    rw [hc] at ht
    simp only at ht
    cases hs : copyTake c.bk s n with
    | ok r =>
      obtain ⟨b1, s1⟩ := r
      rw [hs] at ht
      simp only [Res.bind] at ht
      obtain ⟨e1, e2⟩ := copyTake_keeps hs
      have hb := modest_of_eq h e1 e2
      split at ht
      · cases ht
        exact modest_obsDistance hb (hg _ rfl)
      · cases ht
        exact hb
    | fail => simp [hs, Res.bind] at ht
    | panic => simp [hs, Res.bind] at ht
  | dict s =>
    rw [hc] at ht
    simp only at ht
    cases hs : dictTake s n with
    | ok r =>
      rw [hs] at ht
      simp only [Res.bind] at ht
      split at ht <;> (cases ht; exact h)
    | fail => simp [hs, Res.bind] at ht
    | panic => simp [hs, Res.bind] at ht
  | lit s =>
    rw [hc] at ht
    simp only at ht
    cases hs : litTake c.bk s n with
    | ok r =>
      obtain ⟨b1, s1⟩ := r
      rw [hs] at ht
      simp only [Res.bind] at ht
      rcases litTake_keeps hs with ⟨e1, e2⟩ | e
      · split at ht
        · rename_i hd
          cases ht
          rcases e2 with e2 | ⟨_, e3, e4⟩
          · exact modest_of_eq h e1 e2
          · have hlt : s1.len < 2 ^ 32 := hg _ rfl
            have hm : Modest b1 := by
              unfold Modest
              rw [e1, e4, Nat.mod_eq_of_lt hlt]
              exact ⟨e3, h.2⟩
            exact hm
        · rename_i hnd
          cases ht
          rcases e2 with e2 | ⟨e3, _⟩
          · exact modest_of_eq h e1 e2
          · exact absurd e3 hnd
      · omega
    | fail => simp [hs, Res.bind] at ht
    | panic => simp [hs, Res.bind] at ht
  | bswitch k s =>
    rw [hc] at ht
    simp only at ht
    cases hs : bsTake c.bk k s n with
    | ok r =>
      rw [hs] at ht
      simp only [Res.bind] at ht
      cases r with
      | done t st =>
        cases ht
        cases k <;> exact h
      | begin => cases ht; exact h
      | two => cases ht; exact h
      | final low => cases ht; exact h
      | stride t => cases ht; exact h
    | fail => simp [hs, Res.bind] at ht
    | panic => simp [hs, Res.bind] at ht
  | pm s =>
    rw [hc] at ht
    simp only at ht
    cases hs : pmTake c.bk c.pm s n with
    | ok r =>
      obtain ⟨b1, p1, s1⟩ := r
      rw [hs] at ht
      simp only [Res.bind] at ht
      obtain ⟨e1, e2⟩ := pmTake_keeps hs
      have hb := modest_of_eq h e1 e2
      split at ht <;> (cases ht; exact hb)
    | fail => simp [hs, Res.bind] at ht
    | panic => simp [hs, Res.bind] at ht
  | stop =>
    rw [hc] at ht
    exact absurd ht (by simp)

end Divans.Codec
