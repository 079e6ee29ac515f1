import Verif.AdaptiveProps
import Verif.AnsSizeProps

/-!
# C102 for nibbles coded with models that adapt
-/

namespace Divans.Adaptive
open Divans Divans.Cdf

theorem encode_slots {κ ι : Type} [DecidableEq κ] [DecidableEq ι] (rule : List Nat → Choice κ ι) (hrule : ∀ h, (rule h).Safe)
    (syms : List Nat) : ∀ s : Session κ ι, s.Ok → (∀ n ∈ syms, n < 16) →
      (∀ sl ∈ (encodeNibbles rule s syms).1, sl.Valid) ∧ (encodeNibbles rule s syms).1.length = syms.length := by
  induction syms with
  | nil => intro s _ _; simp [encodeNibbles]
  | cons n t ih =>
    intro s hs hn
    have hn0 := hn n List.mem_cons_self
    obtain ⟨h1, h2⟩ := ih _ (after_ok s hs (rule s.hist) (hrule _) n hn0) fun m hm => hn m (List.mem_cons_of_mem _ hm)
    obtain ⟨c, hu, ec⟩ := coding_usable s hs (rule s.hist)
    obtain ⟨x1, -, -⟩ := slotsExact_of_usable (Opt.new c).divByMax c hu (exactDiv_opt c (max_pos c hu) hu.1)
    simp only [encodeNibbles, List.length_cons, h2, and_true]
    intro sl hsl
    rcases List.mem_cons.1 hsl with rfl | h
    · rw [ec]
      exact x1 n hn0
    · exact h1 sl h

/-- **C102, with models that adapt.**  Whatever rule picks the models, their speeds and their mixing, and whatever the nibbles are: the
bytes are as many as the probabilities at the time of coding say, up to 130 bits for each 65536 nibbles begun; and never more than 15
bits for each nibble besides. -/
theorem adaptive_size {κ ι : Type} [DecidableEq κ] [DecidableEq ι] (rule : List Nat → Choice κ ι) (hrule : ∀ h, (rule h).Safe)
    (s0 : Session κ ι) (hs0 : s0.Ok) (syms : List Nat) (hsyms : ∀ n ∈ syms, n < 16)
    (ops : List Ans.EncOp) (hputs : Ans.putsOf ops = (encodeNibbles rule s0 syms).1)
    (hclosed : Ans.ClosedOnce ops) (out : List UInt8) (e : Ans.Enc)
    (hrun : Ans.Enc.init.run ops = some (out, e)) (hdrained : e.q = []) :
    Tally.bits (Ans.odds (encodeNibbles rule s0 syms).1) ≤ 8 * out.length ∧
      (8 * out.length : ℝ) ≤ Tally.bits (Ans.odds (encodeNibbles rule s0 syms).1) + 130 * (((syms.length + 65535) / 65536 : Nat) : ℝ) ∧
      8 * out.length ≤ 15 * syms.length + 130 * ((syms.length + 65535) / 65536) := by
  obtain ⟨hv, hl⟩ := encode_slots rule hrule syms s0 hs0 hsyms
  rw [← hputs] at hv hl
  obtain ⟨h1, h2⟩ := Ans.size_in_bits ops hv hclosed out e hrun hdrained
  have h3 := Ans.size_max ops hv hclosed out e hrun hdrained
  rw [hl] at h2 h3
  rw [← hputs]
  exact ⟨h1, h2, h3⟩

/-! ## The theorem is not vacuous -/

/-- Every sequence of nibbles is coded by some run that meets the hypotheses. -/
example {κ ι : Type} [DecidableEq κ] [DecidableEq ι] (rule : List Nat → Choice κ ι) (hrule : ∀ h, (rule h).Safe)
    (s0 : Session κ ι) (hs0 : s0.Ok) (syms : List Nat) (hsyms : ∀ n ∈ syms, n < 16) :
    ∃ ops out e, Ans.putsOf ops = (encodeNibbles rule s0 syms).1 ∧ Ans.ClosedOnce ops ∧ Ans.Enc.init.run ops = some (out, e) ∧
      e.q = [] := by
  obtain ⟨out, e, h1, h2, h3, h4⟩ := Ans.ans_encode_total _ (encode_slots rule hrule syms s0 hs0 hsyms).1
  exact ⟨_, out, e, h3, h4, h1, h2⟩

end Divans.Adaptive
