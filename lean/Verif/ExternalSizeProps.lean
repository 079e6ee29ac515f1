import Verif.ExternalProps
import Verif.AnsSizeProps

/-!
# C100, C102: a literal with probabilities from outside is never much larger than without
-/

namespace Divans.Ans

theorem odds_ge_of (k : Nat) (hk : k ≤ 15) (sls : List Slot) (hf : ∀ sl ∈ sls, 2 ^ k ≤ sl.freq) :
    1 ≤ (2 : ℚ) ^ ((15 - k) * sls.length) * odds sls := by
  induction sls with
  | nil => simp [odds]
  | cons sl r ih =>
    have h1 := ih fun s hs => hf s (List.mem_cons_of_mem _ hs)
    have h2 : (2 : ℚ) ^ k ≤ sl.freq := by exact_mod_cast hf sl List.mem_cons_self
    have h3 : (1 : ℚ) ≤ 2 ^ (15 - k) * (sl.freq / 2 ^ 15) := by
      calc (1 : ℚ) = 2 ^ (15 - k) * (2 ^ k / 2 ^ 15) := by
            rw [← mul_div_assoc, ← pow_add, show 15 - k + k = 15 by omega]; norm_num
        _ ≤ 2 ^ (15 - k) * (sl.freq / 2 ^ 15) := by gcongr
    rw [odds_cons, List.length_cons, Nat.mul_add, pow_add, Nat.mul_one]
    have e : (2 : ℚ) ^ ((15 - k) * r.length) * 2 ^ (15 - k) * (sl.freq / 2 ^ 15 * odds r) =
        (2 ^ (15 - k) * (sl.freq / 2 ^ 15)) * (2 ^ ((15 - k) * r.length) * odds r) := by ring
    rw [e]
    exact one_le_mul_of_one_le_of_one_le h3 h1

/-- **C102, for frequencies with a lower bound**: when no symbol has fewer than 2^k of 2^15, at most 15 - k bits for each. -/
theorem size_max_of (k : Nat) (hk : k ≤ 15) (ops : List EncOp) (hv : ∀ sl ∈ putsOf ops, sl.Valid)
    (hf : ∀ sl ∈ putsOf ops, 2 ^ k ≤ sl.freq) (hclosed : ClosedOnce ops) (out : List UInt8) (e : Enc)
    (hrun : Enc.init.run ops = some (out, e)) (hdrained : e.q = []) :
    8 * out.length ≤ (15 - k) * (putsOf ops).length + 130 * (((putsOf ops).length + 65535) / 65536) := by
  have h2 := (size_bounds ops hv hclosed out e hrun hdrained).2
  have h3 := odds_ge_of k hk _ hf
  generalize ((putsOf ops).length + 65535) / 65536 = c at *
  have h4 : (2 : ℚ) ^ (8 * out.length) ≤ 2 ^ ((15 - k) * (putsOf ops).length + 130 * c) := by
    calc (2 : ℚ) ^ (8 * out.length) ≤ 2 ^ (8 * out.length) * (2 ^ ((15 - k) * (putsOf ops).length) * odds (putsOf ops)) :=
          le_mul_of_one_le_right (by positivity) h3
      _ = 2 ^ ((15 - k) * (putsOf ops).length) * (2 ^ (8 * out.length) * odds (putsOf ops)) := by ring
      _ ≤ 2 ^ ((15 - k) * (putsOf ops).length) * 2 ^ (130 * c) := by gcongr
      _ = 2 ^ ((15 - k) * (putsOf ops).length + 130 * c) := by rw [pow_add]
  exact (pow_le_pow_iff_right₀ (by norm_num : (1 : ℚ) < 2)).1 h4

theorem slotsFrom_all {σ : Type} (P : Slot → Prop) (slot : List σ → σ → Slot) (l : List σ) (hs : List σ)
    (hh : ∀ pre s post, l = pre ++ s :: post → P (slot (hs ++ pre) s)) :
    (∀ x ∈ slotsFrom slot hs l, P x) ∧ (slotsFrom slot hs l).length = l.length := by
  induction l generalizing hs with
  | nil => simp [slotsFrom]
  | cons a l ihl =>
    obtain ⟨h1, h2⟩ := ihl (hs ++ [a]) fun pre b post e => by
      have := hh (a :: pre) b post (by simp [e])
      simpa using this
    refine ⟨fun x hx => ?_, by simp [slotsFrom, h2]⟩
    rcases List.mem_cons.1 hx with rfl | hx
    · simpa using hh [] a l rfl
    · exact h1 x hx

end Divans.Ans

namespace Divans.External
open Divans.Cdf

/-- **C100**: no nibble has fewer than 695 of 2^15, whatever the bytes are. -/
theorem freq_ge (q : Probs) (s : Nat) (hs : s < 16) : 695 ≤ (External.range (init q Cdf.default) s).toSlot.freq := by
  have h := (slot_eq (init_good q) s hs).2
  have h1 := raw_step q s hs
  have h0 := raw_zero q
  have hl := raw_last q
  have e : below (init q Cdf.default) s = raw q s := by
    unfold below
    split
    · rename_i h; subst h; exact h0.symm
    · rw [get_init q (s - 1) (by omega), if_neg (by omega), show s - 1 + 1 = s by omega]
  rw [e, get_init q s hs] at h
  split at h
  · rename_i h15
    subst h15
    have h3 : raw q (15 + 1) = 32767 := hl
    omega
  · omega

/-- **C100, the size.**  Bytes that are wrong about the literal cost at most 6 bits for each nibble, where 4 would do without any
model, and 130 bits for each 65536 nibbles begun. -/
theorem literal_size (probs : List UInt8) (nibbles : List Nat) (hn : ∀ x ∈ nibbles, x < 16)
    (hl : 2 * probs.length = 8 * nibbles.length) (heven : nibbles.length % 2 = 0) (ops : List Ans.EncOp)
    (hputs : Ans.putsOf ops =
      Ans.slotsFrom (fun pre s => (External.range (forNibble probs pre.length) s).toSlot) [] nibbles)
    (hclosed : Ans.ClosedOnce ops) (out : List UInt8) (e : Ans.Enc) (hrun : Ans.Enc.init.run ops = some (out, e))
    (hdrained : e.q = []) :
    8 * out.length ≤ 6 * nibbles.length + 130 * ((nibbles.length + 65535) / 65536) := by
  obtain ⟨h1, h2⟩ := Ans.slotsFrom_all (fun sl => sl.Valid ∧ 2 ^ 9 ≤ sl.freq)
    (fun pre s => (External.range (forNibble probs pre.length) s).toSlot) nibbles [] fun pre s post he => by
      have hs : s < 16 := hn s (by rw [he]; simp)
      have hlen : nibbles.length = pre.length + (post.length + 1) := by rw [he]; simp
      obtain ⟨v, -, -⟩ := literal_slots_exact probs (nibbles.length / 2) (by omega) pre.length (by omega)
      refine ⟨v s hs, ?_⟩
      show 2 ^ 9 ≤ (External.range (forNibble probs pre.length) s).toSlot.freq
      have hb : ∃ q, bytesFor probs pre.length = some q := by
        unfold bytesFor
        simp only
        rw [if_pos (by split <;> omega)]
        exact ⟨_, rfl⟩
      obtain ⟨q, hq⟩ := hb
      have := freq_ge q s hs
      simp only [forNibble, hq]
      omega
  rw [← hputs] at h1 h2
  have := Ans.size_max_of 9 (by decide) ops (fun sl h => (h1 sl h).1) (fun sl h => (h1 sl h).2) hclosed out e hrun hdrained
  rw [h2] at this
  exact this

/-! ## The theorems are not vacuous -/

/-- Close to the least there is: bytes that exclude all nibbles but the first. -/
example : (List.range 16).map (fun s => (External.range (init (fun _ => 0) Cdf.default) s).toSlot.freq) =
    [22308, 696, 696, 696, 697, 696, 696, 696, 696, 696, 697, 696, 696, 696, 696, 696] := by decide +kernel

end Divans.External
