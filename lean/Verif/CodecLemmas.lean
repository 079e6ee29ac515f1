import Verif.CodecCmd
import Mathlib.Tactic.SplitIfs
import Mathlib.Tactic.ByContra

/-!
# Lemmas about the command coder

Mantissas, model lookup, and the relation between steps of one command and steps of the whole coder.
-/

namespace Divans.Codec
open Divans.Num Divans.Cdf

/-! ## Mantissas -/

/-- What has been sent of `v` so far: `acc` holds exactly the bits of `v` from position `rem` on, and
below only bits that `v` has. -/
def MantInv (v acc rem : Nat) : Prop :=
  ∀ i, (acc.testBit i = true → v.testBit i = true) ∧ (rem ≤ i → acc.testBit i = v.testBit i)

theorem mant_end {v acc : Nat} (h : MantInv v acc 0) : acc = v :=
  Nat.eq_of_testBit_eq fun i => (h i).2 (Nat.zero_le _)

theorem mant_diff_lt {v acc rem : Nat} (h : MantInv v acc rem) : v ^^^ acc < 2 ^ rem := by
  apply Nat.lt_pow_two_of_testBit
  intro i hi
  rw [Nat.testBit_xor, (h i).2 hi]
  simp

theorem mant_offer_eq {v acc rem : Nat} (h : MantInv v acc rem) (hr : 4 ≤ rem) :
    mantissaOffer v acc rem = (v ^^^ acc) >>> (rem - 4) ∧ mantissaOffer v acc rem < 16 := by
  have hd := mant_diff_lt h
  have hlt : (v ^^^ acc) >>> (rem - 4) < 16 := by
    rw [Nat.shiftRight_eq_div_pow, Nat.div_lt_iff_lt_mul (Nat.two_pow_pos _)]
    have : (16 : Nat) * 2 ^ (rem - 4) = 2 ^ rem := by
      rw [show (16 : Nat) = 2 ^ 4 from rfl, ← Nat.pow_add]
      congr 1
      omega
    omega
  have he : mantissaOffer v acc rem = (v ^^^ acc) >>> (rem - 4) := by
    rw [mantissaOffer, Nat.mod_eq_of_lt (Nat.lt_trans hlt (by decide))]
  exact ⟨he, he ▸ hlt⟩

theorem mant_step {v acc rem : Nat} (h : MantInv v acc rem) (hr : 4 ≤ rem) :
    MantInv v (mantissaTake acc rem (mantissaOffer v acc rem)) (rem - 4) := by
  intro i
  have hi := h i
  rw [mantissaTake, (mant_offer_eq h hr).1, Nat.testBit_or, Nat.testBit_shiftLeft,
    Nat.testBit_shiftRight, Nat.testBit_xor]
  by_cases hge : rem - 4 ≤ i
  · rw [show rem - 4 + (i - (rem - 4)) = i by omega]
    have hdec : decide (i ≥ rem - 4) = true := by simp; omega
    rw [hdec]
    cases ha : acc.testBit i <;> cases hv : v.testBit i <;> simp_all
  · have hdec : decide (i ≥ rem - 4) = false := by simp; omega
    rw [hdec]
    refine ⟨fun e => hi.1 (by simpa using e), fun hle => absurd hle hge⟩

theorem bitLen_bounds {v : Nat} (h : v ≠ 0) : 2 ^ (bitLen v - 1) ≤ v ∧ v < 2 ^ bitLen v := by
  unfold bitLen
  rw [if_neg h]
  exact ⟨by simpa using Nat.log2_self_le h, Nat.lt_log2_self⟩

theorem bitLen_pos {v : Nat} (h : v ≠ 0) : 1 ≤ bitLen v := by
  unfold bitLen
  rw [if_neg h]
  omega

theorem bitLen_le {v k : Nat} (h : v < 2 ^ k) : bitLen v ≤ k := by
  by_cases hv : v = 0
  · subst hv
    simp [bitLen]
  · have hb := (bitLen_bounds hv).1
    by_contra hc
    have : 2 ^ k ≤ 2 ^ (bitLen v - 1) := Nat.pow_le_pow_right (by decide) (by omega)
    omega

theorem bitLen_ge {v k : Nat} (h : 2 ^ k ≤ v) : k + 1 ≤ bitLen v := by
  have hv : v ≠ 0 := by
    have := Nat.two_pow_pos k
    omega
  have hb := (bitLen_bounds hv).2
  by_contra hc
  have : 2 ^ bitLen v ≤ 2 ^ k := Nat.pow_le_pow_right (by decide) (by omega)
  omega

/-- The leading one bit is known, everything from `rem` on is known. -/
theorem mant_start {v l rem : Nat} (h1 : 2 ^ l ≤ v) (h2 : v < 2 ^ (l + 1)) (hr : l ≤ rem) :
    MantInv v (2 ^ l) rem := by
  have hbit : v.testBit l = true := by
    rw [Nat.testBit_eq_decide_div_mod_eq]
    have h3 : v / 2 ^ l = 1 := by
      apply Nat.div_eq_of_lt_le
      · simpa using h1
      · rw [Nat.pow_succ] at h2
        omega
    simp [h3]
  intro i
  rw [Nat.testBit_two_pow]
  constructor
  · intro he
    have : l = i := by simpa using he
    rw [← this]
    exact hbit
  · intro hi
    by_cases hli : l = i
    · subst hli
      simp [hbit]
    · have : v.testBit i = false :=
        Nat.testBit_lt_two_pow (Nat.lt_of_lt_of_le h2 (Nat.pow_le_pow_right (by decide) (by omega)))
      simp [hli, this]

/-- Nothing is known of a value below `2^rem`. -/
theorem mant_zero {v rem : Nat} (h : v < 2 ^ rem) : MantInv v 0 rem := by
  intro i
  refine ⟨fun e => by simp at e, fun hi => ?_⟩
  rw [Nat.zero_testBit, Nat.testBit_lt_two_pow (Nat.lt_of_lt_of_le h (Nat.pow_le_pow_right (by decide) hi))]

theorem roundUp4_spec : ∀ v, v < 64 → v ≠ 0 →
    ∃ r, roundUp4 v = some r ∧ v ≤ r ∧ r % 4 = 0 ∧ r ≤ v + 3 := by
  have h : ∀ v : Fin 64, v.val ≠ 0 →
      ((v.val - 1) ||| 3) + 1 ≥ v.val ∧ (((v.val - 1) ||| 3) + 1) % 4 = 0 ∧
        ((v.val - 1) ||| 3) + 1 ≤ v.val + 3 := by decide
  intro v hv h0
  exact ⟨_, if_neg h0, h ⟨v, hv⟩ h0⟩

theorem mantissaStart_spec (bits : Nat) (h0 : bits ≠ 0) (h : bits < 32) :
    ∃ r, mantissaStart bits = .ok (r, 2 ^ bits) ∧ bits ≤ r ∧ r % 4 = 0 ∧ r ≤ 32 ∧ 4 ≤ r := by
  obtain ⟨r, hr, h1, h2, h3⟩ := roundUp4_spec bits (by omega) h0
  refine ⟨r, ?_, h1, h2, by omega, by omega⟩
  rw [mantissaStart, if_neg (by omega), hr]

/-! ## Model lookup -/

theorem ask_copy_countSmall {i j : Nat} (hi : i < 256) (hj : j < 64) (sp : Speed) :
    ∃ a, ask? .copy .countSmall [i, j] sp = some a := by
  simp [ask?, key?, collapse, layout, linearize, tabSize, hi, hj]
  omega

theorem ask_copy_countBeg {i j : Nat} (hi : i < 256) (hj : j < 64) (sp : Speed) :
    ∃ a, ask? .copy .countBeg [i, j] sp = some a := by
  simp [ask?, key?, collapse, layout, linearize, tabSize, hi, hj]
  omega

theorem ask_copy_countLast {i j : Nat} (hi : i < 256) (hj : j < 64) (sp : Speed) :
    ∃ a, ask? .copy .countLast [i, j] sp = some a := by
  simp [ask?, key?, collapse, layout, linearize, tabSize, hi, hj]
  omega

theorem ask_copy_countMantissa {i j : Nat} (hi : i < 256) (hj : j < 64) (sp : Speed) :
    ∃ a, ask? .copy .countMantissa [i, j] sp = some a := by
  simp [ask?, key?, collapse, layout, linearize, tabSize, hi, hj]
  omega

theorem ask_copy_distMnemonic {i j : Nat} (hi : i < 256) (hj : j < 2) (sp : Speed) :
    ∃ a, ask? .copy .distMnemonic [i, j] sp = some a := by
  simp [ask?, key?, collapse, layout, linearize, tabSize, hi, hj]
  omega

theorem ask_copy_distBeg {i j : Nat} (hi : i < 256) (hj : j < 64) (sp : Speed) :
    ∃ a, ask? .copy .distBeg [i, j] sp = some a := by
  simp [ask?, key?, collapse, layout, linearize, tabSize, hi, hj]
  omega

theorem ask_copy_distLast {i j : Nat} (hi : i < 256) (hj : j < 1) (sp : Speed) :
    ∃ a, ask? .copy .distLast [i, j] sp = some a := by
  simp [ask?, key?, collapse, layout, linearize, tabSize, hi, hj]
  omega

theorem ask_copy_distMantissa {i j : Nat} (hi : i < 256) (hj : j < 5) (sp : Speed) :
    ∃ a, ask? .copy .distMantissa [i, j] sp = some a := by
  simp [ask?, key?, collapse, layout, linearize, tabSize, hi, hj]
  omega

theorem ask_dict_sizeBeg {i : Nat} (hi : i < 256) (sp : Speed) :
    ∃ a, ask? .dict .dictSizeBeg [i] sp = some a := by
  simp [ask?, key?, collapse, layout, linearize, tabSize, hi]
  omega

theorem ask_dict_sizeLast {i : Nat} (hi : i < 256) (sp : Speed) :
    ∃ a, ask? .dict .dictSizeLast [i] sp = some a := by
  simp [ask?, key?, collapse, layout, linearize, tabSize, hi]
  omega

theorem ask_dict_index {i j : Nat} (hi : i < 256) (hj : j < 5) (sp : Speed) :
    ∃ a, ask? .dict .dictIndex [i, j] sp = some a := by
  simp [ask?, key?, collapse, layout, linearize, tabSize, hi, hj]
  omega

theorem ask_dict_transform {i j : Nat} (hi : i < 2) (hj : j < 25) (sp : Speed) :
    ∃ a, ask? .dict .dictTransform [i, j] sp = some a := by
  simp [ask?, key?, collapse, layout, linearize, tabSize, hi, hj]
  omega

theorem ask_lit_countSmall {i j : Nat} (hi : i < 256) (hj : j < 16) (sp : Speed) :
    ∃ a, ask? .lit .litCountSmall [i, j] sp = some a := by
  simp [ask?, key?, collapse, layout, linearize, tabSize, hi, hj]
  omega

theorem ask_lit_sizeBeg {i : Nat} (hi : i < 256) (sp : Speed) :
    ∃ a, ask? .lit .litSizeBeg [i] sp = some a := by
  simp [ask?, key?, collapse, layout, linearize, tabSize, hi]
  omega

theorem ask_lit_sizeLast {i : Nat} (hi : i < 256) (sp : Speed) :
    ∃ a, ask? .lit .litSizeLast [i] sp = some a := by
  simp [ask?, key?, collapse, layout, linearize, tabSize, hi]
  omega

theorem ask_lit_sizeMantissa {i : Nat} (hi : i < 256) (sp : Speed) :
    ∃ a, ask? .lit .litSizeMantissa [i] sp = some a := by
  simp [ask?, key?, collapse, layout, linearize, tabSize, hi]
  omega

theorem ask_bt (k : Switch) : ∀ s, (∀ t st, s ≠ .done t st) → ∃ a, bsAsk k s = some a := by
  intro s hs
  cases k <;> cases s <;>
    first
      | exact absurd rfl (hs _ _)
      | simp [bsAsk, Switch.index, ask?, key?, collapse, layout, linearize, tabSize]

theorem ask_cc {i : Nat} (hi : i < 16) (sp : Speed) :
    ∃ a, ask? .cc .fullSelection [i, 0] sp = some a := by
  simp [ask?, key?, collapse, layout, linearize, tabSize, hi]
  omega

/-! ## Runs of one command and of the whole coder -/

/-- Any number of labelled steps. -/
inductive Run {σ : Type} (step : σ → Nat → σ → Prop) : σ → List Nat → σ → Prop where
  | nil (s : σ) : Run step s [] s
  | cons {s s1 s2 : σ} {n : Nat} {ns : List Nat} :
      step s n s1 → Run step s1 ns s2 → Run step s (n :: ns) s2

theorem Run.one {σ : Type} {step : σ → Nat → σ → Prop} {s s' : σ} {n : Nat} (h : step s n s') :
    Run step s [n] s' := .cons h (.nil _)

theorem Run.append {σ : Type} {step : σ → Nat → σ → Prop} {s s1 s2 : σ} {ns ms : List Nat}
    (h1 : Run step s ns s1) (h2 : Run step s1 ms s2) : Run step s (ns ++ ms) s2 := by
  induction h1 with
  | nil => exact h2
  | cons hs _ ih => exact .cons hs (ih h2)

/-- The encoder, coding command `h` from state `c`, codes the nibbles `ns`, at the end of which the
command is complete. -/
inductive Emits (o : Opts) (h : Head) : Core → List Nat → Core → Got → Prop where
  | last {c c' : Core} {n : Nat} {g : Got} (a : Ask) : coreAsk c = some a →
      coreOffer o h c = .ok n → n < 16 → coreTake c n = .ok (c', some g) → Emits o h c [n] c' g
  | more {c c1 c' : Core} {n : Nat} {ns : List Nat} {g : Got} (a : Ask) : coreAsk c = some a →
      coreOffer o h c = .ok n → n < 16 → coreTake c n = .ok (c1, none) →
      Emits o h c1 ns c' g → Emits o h c (n :: ns) c' g

theorem Emits.lt {o : Opts} {h : Head} {c c' : Core} {ns : List Nat} {g : Got}
    (e : Emits o h c ns c' g) : ∀ n ∈ ns, n < 16 := by
  induction e with
  | last _ _ _ hn _ => simpa using hn
  | more _ _ _ hn _ _ ih =>
    intro n hm
    rcases List.mem_cons.1 hm with rfl | hm
    · exact hn
    · exact ih n hm

theorem encStep_eq {o : Opts} {h : Head} {c c' : Core} {n : Nat} {g : Option Got} {a : Ask}
    (ha : coreAsk c = some a) (ho : coreOffer o h c = .ok n) (hn : n < 16)
    (ht : coreTake c n = .ok (c', g)) : encStep o h c = .ok (⟨a, n⟩, c', g) := by
  simp [encStep, ha, ho, ht, Res.bind, hn]

/-- The executable encoder does what `Emits` says, with any sufficient amount of fuel. -/
theorem encCmd_of_emits {o : Opts} {h : Head} {c c' : Core} {ns : List Nat} {g : Got}
    (e : Emits o h c ns c' g) :
    ∃ ys : List Sym, ys.map Sym.nib = ns ∧
      ∀ fuel, ns.length ≤ fuel → encCmd o h fuel c = some (.ok (ys, c', g)) := by
  induction e with
  | @last c c' n g a ha ho hn ht =>
    refine ⟨[⟨a, n⟩], rfl, ?_⟩
    intro fuel hf
    cases fuel with
    | zero => simp at hf
    | succ f => rw [encCmd, encStep_eq ha ho hn ht]
  | @more c c1 c' n ns g a ha ho hn ht _ ih =>
    obtain ⟨ys, hy, he⟩ := ih
    refine ⟨⟨a, n⟩ :: ys, by simp [hy], ?_⟩
    intro fuel hf
    cases fuel with
    | zero => simp at hf
    | succ f =>
      rw [encCmd, encStep_eq ha ho hn ht]
      simp only
      rw [he f (by simpa using hf)]
      rfl

theorem stop_ask {c : Core} {a : Ask} (h : coreAsk c = some a) : c.at_ ≠ .stop := by
  intro e
  simp [coreAsk, e] at h

/-- The decoder fed with these nibbles obtains the same command and state, and goes on with what
follows. -/
theorem decAll_of_emits {o : Opts} {h : Head} {c c' : Core} {ns : List Nat} {g : Got}
    (e : Emits o h c ns c' g) (rest : List Nat) :
    decAll c (ns ++ rest) =
      (decAll c' rest).bind fun q => .ok (q.1, g :: q.2.1, q.2.2) := by
  induction e with
  | last a ha _ _ ht =>
    rw [List.singleton_append, decAll, if_neg (stop_ask ha), ht]
    rfl
  | more a ha _ _ ht _ ih =>
    rw [List.cons_append, decAll, if_neg (stop_ask ha), ht]
    simp only [Res.bind]
    rw [ih]
    cases decAll _ rest <;> rfl

end Divans.Codec
