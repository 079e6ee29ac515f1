import Verif.Bits
import Verif.AnsProps
import Verif.RegProps
import Mathlib.Tactic.IntervalCases

/-!
Property theorems for what is coded bit by bit (C80-C82).

Specification vocabulary:
* `Cdf2.after`: an adaptive bit after a history of bits;
* `below d i`: how much of the distribution lies below symbol `i`;
* `chance`: the share of the lower half of a group of symbols, in 256ths, rounded down;
* `Serves get s calls s'`: a source of bits that, asked with the probabilities of `calls` in turn,
  answers with the bits of `calls`;
* `Reg.Holds r l`: the register queue holds the bytes `l`, first in first.
-/
namespace Divans.Bits

open Divans.Num Divans.Ans

/-! ### C80: the adaptive bit -/

/-- The states an adaptive bit can be in. -/
def Cdf2.Ok (c : Cdf2) : Prop :=
  1 ≤ c.f ∧ c.f ≤ 255 ∧ 1 ≤ c.t ∧ c.t ≤ 255 ∧
    (c.prob = 256 * c.f / (c.f + c.t) ∨ (c.f = 1 ∧ c.t = 255 ∧ c.prob = 0))

theorem share_lt (f t : Nat) (ht : 1 ≤ t) : 256 * f / (f + t) < 256 := by
  rw [Nat.div_lt_iff_lt_mul (by omega)]; omega

theorem ratio_eq (f t : Nat) (hf : f ≤ 255) (ht : 1 ≤ t) :
    ratio f (f + t) = some (256 * f / (f + t)) := by
  have h := share_lt f t ht
  unfold ratio
  rw [if_neg (by omega), Nat.shiftLeft_eq, show f * 2 ^ 8 = 256 * f by omega,
    Nat.mod_eq_of_lt (show 256 * f < 65536 by omega), Nat.mod_eq_of_lt h]

theorem blend_ok (c : Cdf2) (b : Bool) (h : c.Ok) : ∃ c', c.blend b = some c' ∧ c'.Ok := by
  obtain ⟨f, t, p⟩ := c
  obtain ⟨h1, h2, h3, h4, h5⟩ := h
  simp only at h1 h2 h3 h4 h5
  unfold Cdf2.blend
  simp only
  rw [if_neg (by omega)]
  cases b
  · simp only [Bool.false_eq_true, if_false]
    by_cases ho : f = 255
    · rw [if_pos ho]
      by_cases hn : t = 1
      · rw [if_pos hn]
        exact ⟨_, rfl, by subst ho hn; simp [Cdf2.Ok]⟩
      · rw [if_neg hn, Nat.mod_eq_of_lt (by omega), ratio_eq _ _ (by omega) (by omega)]
        refine ⟨_, rfl, ?_, ?_, ?_, ?_, Or.inl rfl⟩ <;> simp only <;> omega
    · rw [if_neg ho, Nat.mod_eq_of_lt (by omega), show f + t + 1 = (f + 1) + t by omega,
        ratio_eq _ _ (by omega) (by omega)]
      refine ⟨_, rfl, ?_, ?_, ?_, ?_, Or.inl rfl⟩ <;> simp only <;> omega
  · simp only [if_true]
    by_cases ho : t = 255
    · rw [if_pos ho]
      by_cases hn : f = 1
      · rw [if_pos hn]
        exact ⟨_, rfl, by subst ho hn; simp [Cdf2.Ok]⟩
      · rw [if_neg hn, Nat.mod_eq_of_lt (by omega), ratio_eq _ _ (by omega) (by omega)]
        refine ⟨_, rfl, ?_, ?_, ?_, ?_, Or.inl rfl⟩ <;> simp only <;> omega
    · rw [if_neg ho, Nat.mod_eq_of_lt (by omega), show f + t + 1 = f + (t + 1) by omega,
        ratio_eq _ _ (by omega) (by omega)]
      refine ⟨_, rfl, ?_, ?_, ?_, ?_, Or.inl rfl⟩ <;> simp only <;> omega

theorem after_ok (bs : List Bool) (c : Cdf2) (h : c.Ok) : ∃ c', c.after bs = some c' ∧ c'.Ok := by
  induction bs generalizing c with
  | nil => exact ⟨c, rfl, h⟩
  | cons b bs ih =>
    obtain ⟨c1, h1, h2⟩ := blend_ok c b h
    obtain ⟨c2, h3, h4⟩ := ih c1 h2
    exact ⟨c2, by rw [Cdf2.after, h1]; exact h3, h4⟩

/-- C80: an adaptive bit never fails, whatever bits it has seen: no count becomes zero or overflows,
nothing is divided by zero, and its probability is the share of false among its counts - except that
it is zero when false was never seen (or was forgotten) and true 255 times. -/
theorem bit_never_fails (bs : List Bool) :
    ∃ c, Cdf2.init.after bs = some c ∧ 1 ≤ c.f ∧ c.f ≤ 255 ∧ 1 ≤ c.t ∧ c.t ≤ 255 ∧
      (c.prob = 256 * c.f / (c.f + c.t) ∨ (c.f = 1 ∧ c.t = 255 ∧ c.prob = 0)) :=
  after_ok bs Cdf2.init (by simp [Cdf2.Ok, Cdf2.init])

theorem after_append (x y : List Bool) (c : Cdf2) :
    c.after (x ++ y) = (c.after x).bind fun c' => c'.after y := by
  induction x generalizing c with
  | nil => rfl
  | cons b x ih =>
    rw [List.cons_append, Cdf2.after, Cdf2.after]
    cases c.blend b with
    | none => rfl
    | some c1 => exact ih c1

/-- C80: until one of the two was seen 255 times nothing is forgotten: the probability of false is
one more than the number of times false was seen, among two more than the number of bits. -/
theorem bit_counts (bs : List Bool) (hf : bs.count false < 255) (ht : bs.count true < 255) :
    Cdf2.init.after bs = some ⟨bs.count false + 1, bs.count true + 1,
      256 * (bs.count false + 1) / (bs.length + 2)⟩ := by
  have key : ∀ (bs : List Bool) (f t : Nat), 1 ≤ f → 1 ≤ t → f + bs.count false ≤ 255 →
      t + bs.count true ≤ 255 →
      (Cdf2.mk f t (256 * f / (f + t))).after bs = some ⟨f + bs.count false, t + bs.count true,
        256 * (f + bs.count false) / (f + bs.count false + (t + bs.count true))⟩ := by
    intro bs
    induction bs with
    | nil => intro f t _ _ _ _; simp [Cdf2.after]
    | cons b bs ih =>
      intro f t h1 h2 h3 h4
      rw [Cdf2.after]
      cases b
      · simp only [List.count_cons, beq_self_eq_true, if_true, beq_iff_eq, Bool.false_eq_true,
          if_false, Nat.add_zero] at h3 h4 ⊢
        have hb : (Cdf2.mk f t (256 * f / (f + t))).blend false
            = some ⟨f + 1, t, 256 * (f + 1) / (f + 1 + t)⟩ := by
          unfold Cdf2.blend
          simp only [Bool.false_eq_true, if_false]
          rw [if_neg (by omega), if_neg (by omega), Nat.mod_eq_of_lt (by omega),
            show f + t + 1 = (f + 1) + t by omega, ratio_eq _ _ (by omega) (by omega)]
          rfl
        rw [hb]
        show (Cdf2.mk (f + 1) t _).after bs = _
        rw [ih (f + 1) t (by omega) h2 (by omega) (by omega),
          show f + 1 + bs.count false = f + (bs.count false + 1) by omega]
      · simp only [List.count_cons, beq_self_eq_true, if_true, beq_iff_eq, Bool.true_eq_false,
          if_false, Nat.add_zero] at h3 h4 ⊢
        have hb : (Cdf2.mk f t (256 * f / (f + t))).blend true
            = some ⟨f, t + 1, 256 * f / (f + (t + 1))⟩ := by
          unfold Cdf2.blend
          simp only [if_true]
          rw [if_neg (by omega), if_neg (by omega), Nat.mod_eq_of_lt (by omega),
            show f + t + 1 = f + (t + 1) by omega, ratio_eq _ _ (by omega) (by omega)]
          rfl
        rw [hb]
        show (Cdf2.mk f (t + 1) _).after bs = _
        rw [ih f (t + 1) h1 (by omega) (by omega) (by omega),
          show t + 1 + bs.count true = t + (bs.count true + 1) by omega]
  have hl : bs.length = bs.count false + bs.count true := by
    clear hf ht key
    induction bs with
    | nil => rfl
    | cons b bs ih => cases b <;> simp [ih] <;> omega
  have := key bs 1 1 (by omega) (by omega) (by omega) (by omega)
  rw [show Cdf2.init = Cdf2.mk 1 1 (256 * 1 / (1 + 1)) from rfl, this]
  rw [Nat.add_comm 1 (bs.count false), Nat.add_comm 1 (bs.count true), hl,
    show bs.count false + 1 + (bs.count true + 1) = bs.count false + bs.count true + 2 by omega]

/-- The probability an adaptive bit gives to the next bit after a history. -/
def probAfter (bs : List Bool) : UInt8 := UInt8.ofNat ((Cdf2.init.after bs).elim 0 (·.prob))

/-- C80: bits coded one after another, each with the probability the adaptive bit has learnt from
those before it, come back from the bytes of the entropy coder, however the output is taken and the
input cut in pieces. -/
theorem adaptive_bits_round_trip (bits : List Bool) (ops : List EncOp)
    (hputs : putsOf ops = slotsFrom (fun h b => bitSlot b (probAfter h)) [] bits)
    (hclosed : ClosedOnce ops) (out : List UInt8) (e : Enc)
    (hrun : Enc.init.run ops = some (out, e)) (hdrained : e.q = [])
    (pieces : List (List UInt8)) (tail : List UInt8) (hpieces : pieces.flatten = out ++ tail) :
    ∃ d cur more, Dec.decode (fun h off => bitLookup (probAfter h) off) bits.length [] Dec.init []
      pieces = some (bits, d, cur, more) ∧ cur ++ more.flatten = tail :=
  ans_round_trip_split _ _ bits (fun pre s _ _ => bit_slot_owned s (probAfter pre)) ops hputs
    hclosed out e hrun hdrained pieces tail hpieces

/-- C80: while its probability is not zero, the table the adaptive bit itself gives a decoder is the
one the entropy coder codes bits with. -/
theorem bit_table_partial (bs : List Bool) (c : Cdf2) (h : Cdf2.init.after bs = some c)
    (hp : c.prob ≠ 0) (off : Nat) (hoff : off < 2 ^ 15) :
    ((c.lookup off).1, (c.lookup off).2.toSlot) = bitLookup (UInt8.ofNat c.prob) off := by
  obtain ⟨c', h', h1, h2, h3, h4, h5⟩ := bit_never_fails bs
  rw [h] at h'
  cases h'
  clear h
  obtain ⟨f, t, p⟩ := c
  simp only at hp h1 h2 h3 h4 h5 ⊢
  have hlt : p < 256 := by
    rcases h5 with h5 | h5
    · rw [h5]; exact share_lt _ _ h3
    · omega
  have hn : (UInt8.ofNat p).toNat = p := by
    simp [UInt8.toNat_ofNat', Nat.mod_eq_of_lt hlt]
  have hz : UInt8.ofNat p ≠ 0 := by
    intro hz; rw [hz] at hn; simp at hn; omega
  have hdiv : Cdf2.divByMax ((p : Int) <<< 15) = 128 * (p : Int) := by
    unfold Cdf2.divByMax
    rw [Int.shiftLeft_eq, Int.tdiv_eq_ediv_of_nonneg (by omega)]; omega
  have hbit : ((off : Int) * 256) >>> 15 ≥ (p : Int) ↔ off ≥ p * 128 := by
    rw [Int.shiftRight_eq_div_pow]; omega
  unfold Cdf2.lookup bitLookup
  simp only [hdiv, hbit, hz, hn, if_false, log2Scale, Nat.shiftLeft_eq, Cdf.Range.toSlot]
  have e1 : i16 (128 * (p : Int)) = 128 * p := by unfold i16; omega
  have e2 : i16 (2 ^ 15 - 128 * (p : Int)) = 2 ^ 15 - 128 * p := by unfold i16; omega
  rw [e1, e2]
  by_cases hb : off ≥ p * 128
  · simp only [hb, decide_true, if_true]
    unfold u16
    have g1 : (128 * (p : Int) % 2 ^ 16).toNat = p * 2 ^ (15 - 8) := by omega
    have g2 : ((2 ^ 15 - 128 * (p : Int)) % 2 ^ 16).toNat = (256 - p) * 2 ^ (15 - 8) := by omega
    rw [g1, g2]
  · simp only [hb, decide_false, Bool.false_eq_true, if_false]
    unfold u16
    have g1 : (128 * (p : Int) % 2 ^ 16).toNat = p * 2 ^ (15 - 8) := by omega
    rw [g1]
    simp

theorem trues_after (n : Nat) :
    Cdf2.init.after (List.replicate (255 + n) true) = some ⟨1, 255, 0⟩ := by
  have h0 := bit_counts (List.replicate 254 true) (by rw [List.count_replicate]; decide)
    (by rw [List.count_replicate]; decide)
  rw [List.count_replicate, List.count_replicate, List.length_replicate] at h0
  have hs : ∀ n p, (Cdf2.mk 1 255 p).after (List.replicate (n + 1) true) = some ⟨1, 255, 0⟩ := by
    intro n
    induction n with
    | zero => intro p; simp [Cdf2.after, Cdf2.blend]
    | succ n ih =>
      intro p
      rw [List.replicate_succ, Cdf2.after]
      simpa [Cdf2.blend] using ih 0
  rw [show 255 + n = 254 + (n + 1) by omega, ← List.replicate_append_replicate, after_append, h0]
  exact hs n _

/-- C80 does not hold for the table of the adaptive bit itself: after 255 times true (and any number
more) no offset at all means false, and the range of true does not fit its sixteen bits.  (The entropy
coder's own coding of bits takes 1 for 0 and is not affected: `adaptive_bits_round_trip`.) -/
theorem bit_table_loses_false (n : Nat) :
    ∃ c, Cdf2.init.after (List.replicate (255 + n) true) = some c ∧
      ∀ off : Nat, (c.lookup off).1 = true ∧ (c.lookup off).2.freq = -2 ^ 15 := by
  refine ⟨_, trues_after n, fun off => ?_⟩
  have hb : ((off : Int) * 256) >>> 15 ≥ ((0 : Nat) : Int) := by
    rw [Int.shiftRight_eq_div_pow]; omega
  unfold Cdf2.lookup
  simp only [hb, decide_true, if_true, true_and]
  decide

/-- C80: the range the adaptive bit gives an encoder is never the one it gives a decoder: the one of
false begins at 1, not at 0. -/
theorem bit_ranges_disagree (c : Cdf2) (off : Int) (h : (c.lookup off).1 = false) :
    (c.symRange false).start = 1 ∧ (c.lookup off).2.start = 0 := by
  constructor
  · unfold Cdf2.symRange; simp only [Bool.false_eq_true, if_false]; decide
  · unfold Cdf2.lookup at h ⊢
    simp only at h ⊢
    rw [h]; rfl

example : Cdf2.init.after [true, true, false, true] = some ⟨2, 4, 85⟩ := by decide +kernel

/-! ### C81: a nibble as four bits -/

/-- Asked with the probabilities of `calls` in turn, the source answers with the bits of `calls`. -/
def Serves {S : Type} (get : S → UInt8 → Option (Bool × S)) : S → List (Bool × UInt8) → S → Prop
  | s, [], s' => s' = s
  | s, (b, p) :: cs, s' => ∃ m, get s p = some (b, m) ∧ Serves get m cs s'

theorem serves_append {S : Type} (get : S → UInt8 → Option (Bool × S)) (x y : List (Bool × UInt8))
    (s s' : S) (h : Serves get s (x ++ y) s') : ∃ m, Serves get s x m ∧ Serves get m y s' := by
  induction x generalizing s with
  | nil => exact ⟨s, rfl, h⟩
  | cons c x ih =>
    obtain ⟨b, p⟩ := c
    obtain ⟨m, h1, h2⟩ := h
    obtain ⟨m', h3, h4⟩ := ih m h2
    exact ⟨m', ⟨m, h1, h3⟩, h4⟩

/-- C81: a reader that gets the bits a writer put for a nibble, when it asks with the same
probabilities, does ask with these and gets the nibble - with any coder of bits and any distribution
whatever. -/
theorem nibble_bits {S : Type} (get : S → UInt8 → Option (Bool × S)) (d : Dist) (n : Nat)
    (hn : n < 16) (calls : List (Bool × UInt8)) (h : putNibble d n = some calls) (s s' : S)
    (hs : Serves get s calls s') : getNibble get d s = some (n, s') := by
  unfold putNibble at h
  unfold getNibble
  simp only at h ⊢
  cases h0 : d.high with
  | none => rw [h0] at h; simp at h
  | some p0 =>
    rw [h0] at h
    simp only at h ⊢
    interval_cases n <;>
    · simp only [Nat.reduceAnd, Nat.reduceAdd, ne_eq, not_true_eq_false, not_false_eq_true, if_true,
        if_false, OfNat.ofNat_ne_zero, bne] at h
      revert h
      split
      · simp
      · rename_i p1 h1
        split
        · simp
        · rename_i p2 h2
          split
          · simp
          · rename_i p3 h3
            intro h
            simp only [Option.some.injEq] at h
            subst h
            obtain ⟨m0, g0, m1, g1, m2, g2, m3, g3, e⟩ := hs
            subst e
            simp at g0 g1 g2 g3
            simp [g0, g1, g2, g3, h1, h2, h3]

/-- How much of a distribution lies below symbol `i`. -/
def below (d : Dist) (i : Nat) : Int := if i = 0 then 0 else d.cdf (i - 1)

/-- The share of the first `half` of the `2 * half` symbols from `base` on, in 256ths, rounded
down. -/
def chance (d : Dist) (base half : Nat) : Int :=
  256 * (below d (base + half) - below d base) / (below d (base + 2 * half) - below d base)

/-- A distribution that gives something to each of the sixteen symbols, and all to them together. -/
def Dist.Proper (d : Dist) : Prop :=
  (∀ i < 16, below d i < below d (i + 1)) ∧ d.max = below d 16 ∧
    ∀ l, d.logMax = some l → d.max = 2 ^ l

theorem ofNat_share (a b : Int) (ha : 0 < a) (hb : a < b) :
    0 ≤ 256 * a / b ∧ 256 * a / b < 256 := by
  constructor
  · exact Int.ediv_nonneg (by omega) (by omega)
  · exact Int.ediv_lt_of_lt_mul (by omega) (by omega)

theorem toNat_ofNat_share (x : Int) (h : 0 ≤ x ∧ x < 256) :
    ((UInt8.ofNat (x % 256).toNat).toNat : Int) = x := by
  rw [Int.emod_eq_of_lt h.1 h.2, UInt8.toNat_ofNat']
  omega

/-- The probability `norm` computes. -/
def share (p lo hi : Int) : UInt8 := UInt8.ofNat ((((p - lo) * 256).tdiv (hi - lo)) % 256).toNat

theorem norm_some (p lo hi : Int) (h1 : lo < p) (h2 : p < hi) :
    norm p lo hi = some (share p lo hi) := if_neg (by omega)

theorem share_toNat (p lo hi : Int) (h1 : lo < p) (h2 : p < hi) :
    ((share p lo hi).toNat : Int) = 256 * (p - lo) / (hi - lo) := by
  unfold share
  rw [Int.tdiv_eq_ediv_of_nonneg (by omega), Int.mul_comm]
  exact toNat_ofNat_share _ (ofNat_share _ _ (by omega) (by omega))

theorem norm_eq (p lo hi : Int) (h1 : lo < p) (h2 : p < hi) :
    ∃ q, norm p lo hi = some q ∧ (q.toNat : Int) = 256 * (p - lo) / (hi - lo) := by
  exact ⟨_, norm_some p lo hi h1 h2, share_toNat p lo hi h1 h2⟩

theorem high_eq (d : Dist) (h : d.Proper) :
    ∃ q, d.high = some q ∧ (q.toNat : Int) = chance d 0 8 := by
  obtain ⟨h1, h2, h3⟩ := h
  have hm : ∀ k i, i + k ≤ 16 → 0 < k → below d i < below d (i + k) := by
    intro k
    induction k with
    | zero => intro i _ h; omega
    | succ k ih =>
      intro i hi _
      have a := h1 (i + k) (by omega)
      by_cases hk : k = 0
      · subst hk; exact a
      · have b := ih i (by omega) (by omega)
        rw [show i + (k + 1) = i + k + 1 by omega]; omega
  have g0 : below d 0 = 0 := rfl
  have g1 : below d 8 = d.cdf 7 := rfl
  have l1 := hm 8 0 (by omega) (by omega)
  have l2 := hm 8 8 (by omega) (by omega)
  simp only [Nat.zero_add, Nat.reduceAdd] at l1 l2
  unfold chance
  simp only [Nat.zero_add, Nat.reduceMul]
  rw [g0, g1] at *
  rw [Int.sub_zero, Int.sub_zero, ← h2] at *
  unfold Dist.high
  cases hl : d.logMax with
  | none =>
    obtain ⟨q, e1, e2⟩ := norm_eq (d.cdf 7) 0 d.max l1 l2
    rw [Int.sub_zero, Int.sub_zero] at e2
    exact ⟨q, e1, e2⟩
  | some l =>
    refine ⟨_, rfl, ?_⟩
    have hx := h3 l hl
    rw [Int.shiftRight_eq_div_pow, Int.mul_comm,
      show ((2 ^ l : Nat) : Int) = d.max by rw [hx]; simp]
    exact toNat_ofNat_share _ (ofNat_share _ _ l1 l2)

/-- C81: for a distribution that gives something to every symbol the four bits of the nibble are put,
highest first, each with the exact share of the symbols in which it is zero among those left by the
bits before it; no probability overflows its byte and nothing is divided by zero. -/
theorem nibble_chances (d : Dist) (h : d.Proper) (n : Nat) (hn : n < 16) :
    ∃ p3 p2 p1 p0, putNibble d n = some [(n.testBit 3, p3), (n.testBit 2, p2), (n.testBit 1, p1),
        (n.testBit 0, p0)] ∧
      (p3.toNat : Int) = chance d 0 8 ∧ (p2.toNat : Int) = chance d (n / 8 * 8) 4 ∧
      (p1.toNat : Int) = chance d (n / 4 * 4) 2 ∧ (p0.toNat : Int) = chance d (n / 2 * 2) 1 := by
  obtain ⟨q0, e0, f0⟩ := high_eq d h
  obtain ⟨h1, h2, h3⟩ := h
  have s0 := h1 0 (by omega)
  have s1 := h1 1 (by omega)
  have s2 := h1 2 (by omega)
  have s3 := h1 3 (by omega)
  have s4 := h1 4 (by omega)
  have s5 := h1 5 (by omega)
  have s6 := h1 6 (by omega)
  have s7 := h1 7 (by omega)
  have s8 := h1 8 (by omega)
  have s9 := h1 9 (by omega)
  have s10 := h1 10 (by omega)
  have s11 := h1 11 (by omega)
  have s12 := h1 12 (by omega)
  have s13 := h1 13 (by omega)
  have s14 := h1 14 (by omega)
  have s15 := h1 15 (by omega)
  simp only [below, Nat.reduceAdd, Nat.reduceSub, OfNat.ofNat_ne_zero, if_false, if_true,
    one_ne_zero] at s0 s1 s2 s3 s4 s5 s6 s7 s8 s9 s10 s11 s12 s13 s14 s15 h2
  unfold putNibble
  rw [e0]
  interval_cases n <;>
  · simp only [Nat.reduceAnd, Nat.reduceAdd, ne_eq, not_true_eq_false, not_false_eq_true, if_true,
      if_false, OfNat.ofNat_ne_zero, bne, h2]
    simp only [chance, below, Nat.reduceAdd, Nat.reduceMul, Nat.reduceDiv, Nat.reduceSub,
      OfNat.ofNat_ne_zero, if_false, if_true, one_ne_zero] at f0 ⊢
    rw [norm_some]
    simp only
    rw [norm_some]
    simp only
    rw [norm_some]
    · exact ⟨q0, _, _, _, rfl, f0, share_toNat _ _ _ (by omega) (by omega),
        share_toNat _ _ _ (by omega) (by omega), share_toNat _ _ _ (by omega) (by omega)⟩
    all_goals omega

theorem nibbles_bits {S : Type} (get : S → UInt8 → Option (Bool × S)) (next : List Nat → Dist)
    (ns : List Nat) (hn : ∀ n ∈ ns, n < 16) (hist : List Nat) (calls : List (Bool × UInt8))
    (h : putNibbles next hist ns = some calls) (s s' : S) (hs : Serves get s calls s') :
    getNibbles get next ns.length hist s = some (hist ++ ns, s') := by
  induction ns generalizing hist calls s with
  | nil =>
    simp only [putNibbles, Option.some.injEq] at h
    subst h
    rw [show s' = s from hs]
    simp [getNibbles]
  | cons n ns ih =>
    rw [putNibbles] at h
    cases hp : putNibble (next hist) n with
    | none => rw [hp] at h; simp at h
    | some c =>
      rw [hp] at h
      simp only [Option.map_eq_some_iff] at h
      obtain ⟨cs, h1, h2⟩ := h
      subst h2
      obtain ⟨m, g1, g2⟩ := serves_append get c cs s s' hs
      rw [List.length_cons, getNibbles, nibble_bits get _ n (hn n (by simp)) c hp s m g1]
      simp only
      rw [ih (fun x hx => hn x (by simp [hx])) _ _ h1 m g2]
      simp

/-- C81: nibbles coded as bits over proper distributions never fail to be coded. -/
theorem nibbles_coded (next : List Nat → Dist) (hnext : ∀ hist, (next hist).Proper) (ns : List Nat)
    (hn : ∀ n ∈ ns, n < 16) (hist : List Nat) :
    ∃ calls, putNibbles next hist ns = some calls ∧ calls.length = 4 * ns.length := by
  induction ns generalizing hist with
  | nil => exact ⟨[], rfl, rfl⟩
  | cons n ns ih =>
    obtain ⟨p3, p2, p1, p0, h, _⟩ := nibble_chances _ (hnext hist) n (hn n (by simp))
    obtain ⟨cs, h1, h2⟩ := ih (fun x hx => hn x (by simp [hx])) (hist ++ [n])
    refine ⟨_, by rw [putNibbles, h]; simp only; rw [h1]; rfl, ?_⟩
    simp [h2]; omega

/-- What the reader of the entropy coder is to find at each place. -/
def probAt (calls : List (Bool × UInt8)) (h : List Bool) : UInt8 := (calls[h.length]?).elim 0 (·.2)

theorem probAt_mid (pre post : List (Bool × UInt8)) (c : Bool × UInt8) (h : List Bool)
    (hl : h.length = pre.length) : probAt (pre ++ c :: post) h = c.2 := by
  unfold probAt
  rw [hl]; simp

theorem slots_calls (calls pre rest : List (Bool × UInt8)) (h : calls = pre ++ rest) :
    slotsFrom (fun h b => bitSlot b (probAt calls h)) (pre.map (·.1)) (rest.map (·.1)) =
      rest.map fun c => bitSlot c.1 c.2 := by
  induction rest generalizing pre with
  | nil => rfl
  | cons c rest ih =>
    simp only [List.map_cons, slotsFrom]
    rw [h, probAt_mid pre rest c _ (by simp), ← h]
    have := ih (pre ++ [c]) (by rw [h]; simp)
    rw [List.map_append] at this
    rw [← this]; rfl

theorem decode_prefix {σ : Type} (lookup : List σ → Nat → σ × Slot) (n : Nat) (hist : List σ)
    (d : Dec) (cur : List UInt8) (more : List (List UInt8)) (r)
    (h : Dec.decode lookup n hist d cur more = some r) : ∃ t, r.1 = hist ++ t := by
  induction n generalizing hist d cur more with
  | zero => simp only [Dec.decode, Option.some.injEq] at h; exact ⟨[], by rw [← h]; simp⟩
  | succ n ih =>
    rw [Dec.decode] at h
    cases hf : d.fill cur more with
    | none => rw [hf] at h; simp at h
    | some v =>
      rw [hf] at h
      obtain ⟨t, e⟩ := ih _ _ _ _ h
      exact ⟨_ :: t, by rw [e]; simp; rfl⟩

theorem serves_decode (calls pre rest : List (Bool × UInt8)) (h : calls = pre ++ rest) (d : Dec)
    (cur : List UInt8) (more : List (List UInt8)) (d' : Dec) (cur' : List UInt8)
    (more' : List (List UInt8))
    (hd : Dec.decode (fun h off => bitLookup (probAt calls h) off) rest.length (pre.map (·.1)) d cur
      more = some (calls.map (·.1), d', cur', more')) :
    Serves ansGet (d, cur, more) rest (d', cur', more') := by
  induction rest generalizing pre d cur more with
  | nil =>
    simp only [List.length_nil, Dec.decode, Option.some.injEq, Prod.mk.injEq] at hd
    obtain ⟨_, e1, e2, e3⟩ := hd
    subst e1 e2 e3; rfl
  | cons c rest ih =>
    obtain ⟨b, p⟩ := c
    rw [List.length_cons, Dec.decode] at hd
    cases hf : d.fill cur more with
    | none => rw [hf] at hd; simp at hd
    | some v =>
      obtain ⟨d1, c1, m1⟩ := v
      rw [hf] at hd
      simp only at hd
      have hp : probAt calls (pre.map (·.1)) = p := by
        rw [h]; exact probAt_mid pre rest (b, p) _ (by simp)
      rw [hp] at hd
      obtain ⟨t, ht⟩ := decode_prefix _ _ _ _ _ _ _ hd
      simp only [h, List.map_append, List.map_cons, List.append_assoc, List.singleton_append,
        List.append_cancel_left_eq, List.cons.injEq] at ht
      have hb : (bitLookup p d1.offset).1 = b := ht.1.symm
      rw [hb] at hd
      refine ⟨(d1.advance (bitLookup p d1.offset).2, c1, m1), ?_, ?_⟩
      · unfold ansGet
        simp only [hf]
        rw [hb]
      · refine ih (pre ++ [(b, p)]) (by rw [h]; simp) _ _ _ ?_
        rw [List.map_append]; exact hd

/-- C81: nibbles coded bit by bit - with any distributions, each depending on the nibbles before - are
read back bit by bit from the bytes of the entropy coder, however the output was taken and the input
is cut in pieces, and exactly these bytes are used. -/
theorem nibbles_by_bits_round_trip (next : List Nat → Dist) (ns : List Nat)
    (hn : ∀ n ∈ ns, n < 16) (calls : List (Bool × UInt8)) (hcalls : putNibbles next [] ns = some calls)
    (ops : List EncOp) (hputs : putsOf ops = calls.map fun c => bitSlot c.1 c.2)
    (hclosed : ClosedOnce ops) (out : List UInt8) (e : Enc)
    (hrun : Enc.init.run ops = some (out, e)) (hdrained : e.q = [])
    (pieces : List (List UInt8)) (tail : List UInt8) (hpieces : pieces.flatten = out ++ tail) :
    ∃ d cur more, getNibbles ansGet next ns.length [] (Dec.init, [], pieces) =
      some (ns, d, cur, more) ∧ cur ++ more.flatten = tail := by
  obtain ⟨d, cur, more, h1, h2⟩ := ans_round_trip_split
    (fun h b => bitSlot b (probAt calls h)) (fun h off => bitLookup (probAt calls h) off)
    (calls.map (·.1)) (fun pre s _ _ => bit_slot_owned s (probAt calls pre)) ops
    (by rw [hputs]; exact (slots_calls calls [] calls rfl).symm) hclosed out e hrun hdrained pieces
    tail hpieces
  rw [List.length_map] at h1
  refine ⟨d, cur, more, ?_, h2⟩
  have := nibbles_bits ansGet next ns hn [] calls hcalls _ _
    (serves_decode calls [] calls rfl Dec.init [] pieces d cur more h1)
  simpa using this

/-- C81 needs distributions that give something to every symbol: where the upper half of the symbols
has nothing, the share of the lower half is 256 of 256, which wraps to zero, so that what is certain
is coded as if it were the least likely thing (seven bits and more instead of none); and a nibble of
the upper half divides by zero. -/
theorem certain_bit_costs_most (d : Dist) (hm : 0 < d.max) (h : d.cdf 7 = d.max)
    (hl : d.logMax = none) :
    (∀ n < 8, ∀ calls, putNibble d n = some calls → calls.head? = some (false, 0)) ∧
      (bitSlot false 0).freq = 2 ^ 15 / 256 ∧ ∀ n, 8 ≤ n → n < 16 → putNibble d n = none := by
  have hh : d.high = some 0 := by
    unfold Dist.high norm
    rw [hl]
    simp only
    rw [if_neg (by omega), h, Int.sub_zero, Int.mul_comm,
      Int.mul_tdiv_cancel _ (by omega)]
    rfl
  refine ⟨?_, by decide, ?_⟩
  · intro n hn calls hc
    unfold putNibble at hc
    rw [hh] at hc
    simp only at hc
    have h8 : n &&& 8 = 0 := by interval_cases n <;> rfl
    rw [h8] at hc
    revert hc
    split
    · simp
    · split
      · simp
      · split
        · simp
        · intro hc
          simp only [Option.some.injEq] at hc
          subst hc
          rfl
  · intro n h8 h16
    unfold putNibble
    rw [hh]
    have h8 : n &&& 8 = 8 := by interval_cases n <;> rfl
    simp only [h8]
    rw [show norm (d.cdf (8 + 3)) (if (8 : Nat) ≠ 0 then d.cdf 7 else 0)
      (if (8 : Nat) ≠ 0 then d.max else d.cdf 7) = none from by
        simp [norm, h]]

/-- The distribution every coding starts with (`FrequentistCDF16::default`): proper. -/
def demoDist : Dist := ⟨fun i => 4 * (i + 1), 64, none⟩

theorem demo_proper : demoDist.Proper := by
  refine ⟨fun i hi => ?_, by decide, fun l h => by simp [demoDist] at h⟩
  interval_cases i <;> decide

example : putNibble demoDist 11 = some [(true, 128), (false, 128), (true, 128), (true, 128)] := by
  decide +kernel

example : ∃ calls, putNibbles (fun _ => demoDist) [] [11, 0, 7] = some calls ∧ calls.length = 12 :=
  nibbles_coded _ (fun _ => demo_proper) _ (by decide) _

/-! ### C82: the coder for debugging -/

theorem holds_push (r : Reg.Q) (l xs : List UInt8) (h : Reg.Holds r l) :
    (Reg.push r xs).2 = min (8 - l.length) xs.length ∧
      Reg.Holds (Reg.push r xs).1 (l ++ xs.take (8 - l.length)) := by
  obtain ⟨r', h1, h2⟩ := Reg.step_spec (debug := true) (op := .push xs) h (by simp)
  simp only [Reg.step, Reg.spec, Option.some.injEq, Prod.mk.injEq, Reg.Seen.took.injEq] at h1 h2
  exact ⟨h1.2, h1.1 ▸ h2⟩

theorem holds_pop (debug : Bool) (r : Reg.Q) (l : List UInt8) (k : Nat) (h : Reg.Holds r l)
    (hk : l.length < 8 ∨ k < 8) :
    ∃ r', Reg.pop debug r k = some (r', l.take k) ∧ Reg.Holds r' (l.drop k) := by
  obtain ⟨r', h1, h2⟩ := Reg.step_spec (debug := debug) (op := .pop k) h
    (by intro n hn; cases hn; exact hk)
  simp only [Reg.step, Reg.spec, Option.map_eq_some_iff, Prod.mk.injEq, Reg.Seen.got.injEq] at h1 h2
  obtain ⟨⟨r1, w⟩, g1, g2, g3⟩ := h1
  simp only at g2 g3
  subst g2 g3
  exact ⟨r1, g1, h2⟩

/-- The bytes the coder for debugging makes of bits. -/
def debugBytes (calls : List (Bool × UInt8)) : List UInt8 :=
  calls.map fun c => c.2 ^^^ (if c.1 then 1 else 0)

/-- The bits coded by a sequence of actions. -/
def Act.calls : List Act → List (Bool × UInt8)
  | [] => []
  | .put b p :: ops => (b, p) :: Act.calls ops
  | .pop _ :: ops => Act.calls ops

/-- C82: whatever is coded with the coder for debugging, and however its output is taken in between, the
bytes taken and those still held are one for each bit, in order - as long as no assertion and no
check of overflow stops it. -/
theorem debug_encoder (ops : List Act) (r : Reg.Q) (l : List UInt8) (h : Reg.Holds r l)
    (out : List UInt8) (r' : Reg.Q) (he : enc true r ops = some (out, r')) :
    ∃ l', Reg.Holds r' l' ∧ out ++ l' = l ++ debugBytes (Act.calls ops) := by
  induction ops generalizing r l out with
  | nil =>
    simp only [enc, Option.some.injEq, Prod.mk.injEq] at he
    obtain ⟨e1, e2⟩ := he
    subst e1 e2
    exact ⟨l, h, by simp [Act.calls, debugBytes]⟩
  | cons op ops ih =>
    cases op with
    | put b p =>
      simp only [enc, Option.bind_eq_some_iff] at he
      obtain ⟨r1, h1, h2⟩ := he
      unfold putBit at h1
      by_cases hr : 0 < Reg.room r
      · rw [if_pos hr] at h1
        obtain ⟨g1, g2⟩ := holds_push r l [p ^^^ (if b then 1 else 0)] h
        simp only at h1
        rw [g1] at h1
        have hm : min (8 - l.length) [p ^^^ (if b then 1 else 0)].length =
            min (8 - l.length) 1 := rfl
        rw [hm] at h1
        by_cases hone : min (8 - l.length) 1 = 1
        · rw [if_pos hone] at h1
          rw [List.take_of_length_le (by simp; omega)] at g2
          simp only [Option.some.injEq] at h1
          subst h1
          obtain ⟨l', h3, h4⟩ := ih _ _ g2 out h2
          exact ⟨l', h3, by rw [h4]; simp [Act.calls, debugBytes]⟩
        · rw [if_neg hone] at h1; simp at h1
      · rw [if_neg hr] at h1; simp at h1
    | pop k =>
      rw [enc] at he
      by_cases hk : l.length < 8 ∨ k < 8
      · obtain ⟨r1, h1, h2⟩ := holds_pop true r l k h hk
        rw [h1] at he
        simp only [Option.map_eq_some_iff, Prod.mk.injEq] at he
        obtain ⟨⟨w, r2⟩, h3, h4, h5⟩ := he
        simp only at h4 h5
        subst h4 h5
        obtain ⟨l', h6, h7⟩ := ih _ _ h2 w h3
        exact ⟨l', h6, by rw [List.append_assoc, h7, ← List.append_assoc, List.take_append_drop]; rfl⟩
      · exfalso
        have : Reg.pop true r k = none := by
          unfold Reg.pop
          have hc := h.2.1
          have hm : Nat.min r.count k = min r.count k := rfl
          have hs : (true && decide (Nat.min r.count k <<< 3 ≥ 64)) = true := by
            rw [Nat.shiftLeft_eq, hm]; simp; omega
          exact if_pos hs
        rw [this] at he
        simp at he

/-- C82: of the coder for debugging the bits come back in the order in which they were put. -/
theorem debug_serves (checked : Bool) (calls : List (Bool × UInt8)) (r : Reg.Q) (rest : List UInt8)
    (h : Reg.Holds r (debugBytes calls ++ rest)) :
    ∃ r', Serves (getBit checked) r calls r' ∧ Reg.Holds r' rest := by
  induction calls generalizing r with
  | nil => exact ⟨r, rfl, h⟩
  | cons c calls ih =>
    obtain ⟨b, p⟩ := c
    have hc : 0 < Reg.avail r := by unfold Reg.avail; rw [h.2.1]; simp [debugBytes]
    obtain ⟨r1, h1, h2⟩ := holds_pop checked r _ 1 h (by omega)
    simp only [debugBytes, List.map_cons, List.cons_append, List.take_succ_cons, List.take_zero,
      List.drop_succ_cons, List.drop_zero] at h1 h2
    obtain ⟨r2, h3, h4⟩ := ih r1 h2
    refine ⟨r2, ⟨r1, ?_, h3⟩, h4⟩
    unfold getBit
    rw [if_pos hc, h1]
    simp only
    cases b
    · simp
    · have : p ^^^ 1 ^^^ p = 1 := by rw [UInt8.xor_comm p 1, UInt8.xor_assoc, UInt8.xor_self]; rfl
      simp [this]

/-- C82: a nibble put with the coder for debugging is read back from a register that has its four
bytes, and what comes after them is left there. -/
theorem debug_nibble (checked : Bool) (d : Dist) (n : Nat) (hn : n < 16)
    (calls : List (Bool × UInt8)) (hc : putNibble d n = some calls) (r : Reg.Q) (rest : List UInt8)
    (h : Reg.Holds r (debugBytes calls ++ rest)) :
    ∃ r', getNibble (getBit checked) d r = some (n, r') ∧ Reg.Holds r' rest := by
  obtain ⟨r', h1, h2⟩ := debug_serves checked calls r rest h
  exact ⟨r', nibble_bits _ d n hn calls hc r r' h1, h2⟩

/-- C82 fails for the end of the input: the decoder for debugging asks for more as long as its
register is not full, although four bytes are enough for a nibble; with fewer than eight bytes left -
as there always are before the last nibble - it takes them and asks for more, and does so again
whenever it is called with nothing more. -/
theorem debug_decoder_waits (r : Reg.Q) (l inp : List UInt8) (h : Reg.Holds r l)
    (hl : l.length + inp.length < 8) :
    (fill r inp).1 = inp.length ∧ (fill r inp).2.2 = true ∧ Reg.Holds (fill r inp).2.1 (l ++ inp) ∧
      (fill (fill r inp).2.1 []).2.2 = true := by
  have key : ∀ (r : Reg.Q) (l inp : List UInt8), Reg.Holds r l → l.length + inp.length < 8 →
      (fill r inp).1 = inp.length ∧ (fill r inp).2.2 = true ∧ Reg.Holds (fill r inp).2.1 (l ++ inp) := by
    intro r l inp h hl
    obtain ⟨g1, g2⟩ := holds_push r l inp h
    have hm : min (8 - l.length) inp.length = inp.length := by omega
    rw [List.take_of_length_le (by omega)] at g2
    rw [hm] at g1
    refine ⟨g1, ?_, g2⟩
    unfold fill
    simp only [bne_iff_ne, Reg.room]
    have := g2.2.1
    rw [List.length_append] at this
    omega
  obtain ⟨h1, h2, h3⟩ := key r l inp h hl
  exact ⟨h1, h2, h3, (key _ _ [] h3 (by simpa using hl)).2.1⟩

example : enc true Reg.new [.put true 128, .put false 3, .pop 1, .put true 0, .pop 9] =
    some ([129, 3, 1], ⟨0, 0⟩) := by decide +kernel

end Divans.Bits
