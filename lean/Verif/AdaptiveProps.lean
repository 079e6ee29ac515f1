import Verif.Adaptive
import Verif.WeightsProps

/-!
Property theorem C34: adaptive symbol coding round trip, with the real distributions, mixing,
weights and entropy coder.
-/
namespace Divans.Adaptive
open Divans.Cdf Divans.Weights

/-- Only safe speeds are used. -/
def Choice.Safe {κ ι : Type} : Choice κ ι → Prop
  | .fixed => True
  | .plain _ sp => ∀ x ∈ sp, SafeSpeed x
  | .mixed _ _ _ a b => (∀ x ∈ a, SafeSpeed x) ∧ (∀ x ∈ b, SafeSpeed x)

/-- Reachable model states. -/
def Session.Ok {κ ι : Type} (s : Session κ ι) : Prop :=
  (∀ k, ∃ c, Healthy c ∧ s.models k = Opt.new c) ∧
  (∀ i, (1 ≤ (s.weights i).w0 ∧ (s.weights i).w0 < 2 ^ 31) ∧
    (1 ≤ (s.weights i).w1 ∧ (s.weights i).w1 < 2 ^ 31) ∧
    0 ≤ (s.weights i).mixRate ∧ (s.weights i).mixRate ≤ 2 ^ 15)

theorem ok_init {κ ι : Type} : (Session.init : Session κ ι).Ok :=
  ⟨fun _ => ⟨_, healthy_default, rfl⟩, fun _ => (by decide : (1 ≤ Weights.new.w0 ∧ Weights.new.w0 < 2 ^ 31) ∧
    (1 ≤ Weights.new.w1 ∧ Weights.new.w1 < 2 ^ 31) ∧
    0 ≤ Weights.new.mixRate ∧ Weights.new.mixRate ≤ 2 ^ 15)⟩

theorem coding_usable {κ ι : Type} (s : Session κ ι) (h : s.Ok) (ch : Choice κ ι) :
    ∃ c, Usable c ∧ s.coding ch = Opt.new c := by
  have hu : ∀ c, Healthy c → Usable c := fun c hc =>
    usable_of_increasing c hc.increasing.1 hc.increasing.2
  cases ch with
  | fixed => exact ⟨_, hu _ healthy_default, rfl⟩
  | plain k sp =>
    obtain ⟨c, hc, e⟩ := h.1 k
    exact ⟨c, hu c hc, e⟩
  | mixed cm nib w a b =>
    obtain ⟨c1, h1, e1⟩ := h.1 cm
    obtain ⟨c2, h2, e2⟩ := h.1 nib
    refine ⟨average c1 c2 (s.weights w).mixRate,
      (average_usable c1 c2 h1 h2 _ (h.2 w).2.2.1 (h.2 w).2.2.2).2, ?_⟩
    simp [Session.coding, e1, e2, Opt.average, Opt.new]

theorem blendIf_ok (o : Opt) (h : ∃ c, Healthy c ∧ o = Opt.new c) (sym : Nat) (sp : Option Speed)
    (hs : ∀ x ∈ sp, SafeSpeed x) : ∃ c, Healthy c ∧ blendIf o sym sp = Opt.new c := by
  obtain ⟨c, hc, rfl⟩ := h
  cases sp with
  | none => exact ⟨c, hc, rfl⟩
  | some x => exact ⟨_, healthy_blend c hc sym x (hs x rfl), rfl⟩

theorem update_ok {κ : Type} [DecidableEq κ] (m : κ → Opt) (h : ∀ k, ∃ c, Healthy c ∧ m k = Opt.new c)
    (k0 : κ) (o : Opt) (ho : ∃ c, Healthy c ∧ o = Opt.new c) :
    ∀ k, ∃ c, Healthy c ∧ Function.update m k0 o k = Opt.new c := by
  intro k
  by_cases hk : k = k0
  · subst hk; simpa using ho
  · simpa [Function.update_of_ne hk] using h k

theorem freq_bounds (c : Cdf) (hu : Usable c) (sym : Nat) (hs : sym < 16) :
    1 ≤ ((Opt.new c).symRange sym).freq ∧ ((Opt.new c).symRange sym).freq < 2 ^ 15 := by
  rw [Opt.symRange, symRange_eq (Opt.new c).divByMax (Opt.new c).cdf hu
    (exactDiv_opt c (max_pos c hu) hu.1) sym hs]
  have g1 := bound_gap c hu sym hs
  have g2 := lower_nonneg c hu sym hs
  have g3 := bound_le c hu sym hs
  dsimp only [Opt.new]
  omega

theorem after_ok {κ ι : Type} [DecidableEq κ] [DecidableEq ι] (s : Session κ ι) (h : s.Ok)
    (ch : Choice κ ι) (hsafe : ch.Safe) (sym : Nat) (hsym : sym < 16) : (s.after ch sym).Ok := by
  cases ch with
  | fixed => exact h
  | plain k sp => exact ⟨update_ok _ h.1 k _ (blendIf_ok _ (h.1 k) _ _ hsafe), h.2⟩
  | mixed cm nib w a b =>
    have m1 := update_ok _ h.1 cm _ (blendIf_ok _ (h.1 cm) sym a hsafe.1)
    refine ⟨update_ok _ m1 nib _ (blendIf_ok _ (m1 nib) sym b hsafe.2), fun i => ?_⟩
    by_cases hi : i = w
    · subst hi
      simp only [Session.after, Function.update_self]
      obtain ⟨c0, hu0, e0⟩ := coding_usable s h (.plain cm none)
      obtain ⟨c1, hu1, e1⟩ := coding_usable s h (.plain nib none)
      obtain ⟨c2, hu2, e2⟩ := coding_usable s h (.mixed cm nib i a b)
      simp only [Session.coding] at e0 e1
      have f0 := freq_bounds c0 hu0 sym hsym
      have f1 := freq_bounds c1 hu1 sym hsym
      have f2 := freq_bounds c2 hu2 sym hsym
      rw [← e0] at f0; rw [← e1] at f1; rw [← e2] at f2
      obtain ⟨wa, wb, -⟩ := h.2 i
      generalize s.weights i = W at *
      generalize ((s.models cm).symRange sym).freq = n0 at *
      generalize ((s.models nib).symRange sym).freq = n1 at *
      generalize ((s.coding (.mixed cm nib i a b)).symRange sym).freq = p at *
      obtain ⟨⟨m0, m0'⟩, ⟨m1, m1'⟩⟩ := normalize_bounds W.w0 W.w1 (by omega) (by omega) wa.2 wb.2
      obtain ⟨-, x1, x2⟩ := newWeight_eq n0 p _ (by omega) f0.2 f2.1 f2.2 m0 m0'
      obtain ⟨-, y1, y2⟩ := newWeight_eq n1 p _ (by omega) f1.2 f2.1 f2.2 m1 m1'
      obtain ⟨z1, z2, z3⟩ := normWeight_eq _ _ x1 y1 x2 y2
      refine ⟨⟨x1, x2⟩, ⟨y1, y2⟩, ?_⟩
      show 0 ≤ Num.u16 _ ∧ Num.u16 _ ≤ 2 ^ 15
      rw [Weights.update]
      dsimp only
      rw [z1]
      exact ⟨z2, z3⟩
    · simpa [Session.after, Function.update_of_ne hi] using h.2 i

/-- State after a list of nibbles. -/
def advance {κ ι : Type} [DecidableEq κ] [DecidableEq ι] (rule : List Nat → Choice κ ι)
    (s : Session κ ι) (l : List Nat) : Session κ ι :=
  l.foldl (fun s n => s.after (rule s.hist) n) s

theorem encodeNibbles_eq {κ ι : Type} [DecidableEq κ] [DecidableEq ι] (rule : List Nat → Choice κ ι)
    (s0 : Session κ ι) (syms pre : List Nat) :
    encodeNibbles rule (advance rule s0 pre) syms =
      (Ans.slotsFrom (fun h n =>
        (((advance rule s0 h).coding (rule (advance rule s0 h).hist)).symRange n).toSlot) pre syms,
       advance rule s0 (pre ++ syms)) := by
  induction syms generalizing pre with
  | nil => simp [encodeNibbles, Ans.slotsFrom]
  | cons n t ih =>
    have := ih (pre ++ [n])
    have e : advance rule s0 (pre ++ [n]) =
        (advance rule s0 pre).after (rule (advance rule s0 pre).hist) n := by simp [advance]
    rw [e] at this
    simp only [encodeNibbles, Ans.slotsFrom, this, List.append_assoc, List.cons_append,
      List.nil_append]

theorem decodeNibbles_eq {κ ι : Type} [DecidableEq κ] [DecidableEq ι] (rule : List Nat → Choice κ ι)
    (s0 : Session κ ι) (n : Nat) (pre : List Nat) (d : Ans.Dec) (cur : List UInt8)
    (more : List (List UInt8)) :
    decodeNibbles rule n (advance rule s0 pre) d cur more =
      (Ans.Dec.decode (fun h off =>
        let r := ((advance rule s0 h).coding (rule (advance rule s0 h).hist)).lookup off
        (r.1, r.2.toSlot)) n pre d cur more).map
        (fun x => (advance rule s0 x.1, x.2.1, x.2.2.1, x.2.2.2)) := by
  induction n generalizing pre d cur more with
  | zero => simp [decodeNibbles, Ans.Dec.decode]
  | succ n ih =>
    rw [decodeNibbles, Ans.Dec.decode]
    cases hf : d.fill cur more with
    | none => rfl
    | some v =>
      obtain ⟨d', c', m'⟩ := v
      dsimp only
      have e : ∀ x, (advance rule s0 pre).after (rule (advance rule s0 pre).hist) x =
          advance rule s0 (pre ++ [x]) := by intro x; simp [advance]
      rw [e, ih]

/-- C34: sender and receiver start from the same models and pick the model (or mixture), the speed
and the mixing weight of each nibble by the same rule from the nibbles coded so far.  Whatever the
rule, the nibbles, the order in which the encoder's output is taken out, and the pieces in which the
bytes arrive, the receiver gets the nibbles back, ends with exactly the sender's models and weights,
and has consumed exactly the encoder's bytes. -/
theorem adaptive_round_trip {κ ι : Type} [DecidableEq κ] [DecidableEq ι]
    (rule : List Nat → Choice κ ι) (hrule : ∀ h, (rule h).Safe)
    (s0 : Session κ ι) (hs0 : s0.Ok) (syms : List Nat) (hsyms : ∀ n ∈ syms, n < 16)
    (ops : List Ans.EncOp) (hputs : Ans.putsOf ops = (encodeNibbles rule s0 syms).1)
    (hclosed : Ans.ClosedOnce ops) (out : List UInt8) (e : Ans.Enc)
    (hrun : Ans.Enc.init.run ops = some (out, e)) (hdrained : e.q = [])
    (pieces : List (List UInt8)) (tail : List UInt8) (hpieces : pieces.flatten = out ++ tail) :
    ∃ s d cur more, decodeNibbles rule syms.length s0 Ans.Dec.init [] pieces =
        some (s, d, cur, more) ∧
      s = (encodeNibbles rule s0 syms).2 ∧ s.hist = s0.hist ++ syms ∧ cur ++ more.flatten = tail := by
  have hok : ∀ l : List Nat, (∀ n ∈ l, n < 16) → (advance rule s0 l).Ok := by
    intro l
    induction l using List.reverseRecOn with
    | nil => intro _; exact hs0
    | append_singleton l x ih =>
      intro h
      have := after_ok _ (ih (fun n hn => h n (by simp [hn]))) (rule (advance rule s0 l).hist)
        (hrule _) x (h x (by simp))
      simpa [advance] using this
  have henc := encodeNibbles_eq rule s0 syms []
  have h0 : advance rule s0 [] = s0 := rfl
  rw [h0, List.nil_append] at henc
  rw [henc] at hputs
  obtain ⟨d, cur, more, h1, h2⟩ := Ans.ans_round_trip_split _
    (fun h off =>
      let r := ((advance rule s0 h).coding (rule (advance rule s0 h).hist)).lookup off
      (r.1, r.2.toSlot)) syms (by
      intro pre n post hsplit
      have hpre : ∀ x ∈ pre, x < 16 := fun x hx => hsyms x (by rw [hsplit]; simp [hx])
      have hn : n < 16 := hsyms n (by rw [hsplit]; simp)
      obtain ⟨c, hu, ec⟩ := coding_usable _ (hok pre hpre) (rule (advance rule s0 pre).hist)
      obtain ⟨x1, -, x3⟩ := slotsExact_of_usable (Opt.new c).divByMax c hu
        (exactDiv_opt c (max_pos c hu) hu.1)
      dsimp only
      rw [ec]
      exact ⟨x1 n hn, fun off a1 a2 => x3 n hn off a1 a2⟩) ops hputs hclosed out e hrun hdrained pieces
      tail hpieces
  have hdec := decodeNibbles_eq rule s0 syms.length [] Ans.Dec.init [] pieces
  rw [h0, h1] at hdec
  refine ⟨advance rule s0 syms, d, cur, more, hdec, by rw [henc], ?_, h2⟩
  have : ∀ (l : List Nat) (s : Session κ ι), (advance rule s l).hist = s.hist ++ l := by
    intro l
    induction l with
    | nil => intro s; simp [advance]
    | cons a l ih =>
      intro s
      have e1 : advance rule s (a :: l) = advance rule (s.after (rule s.hist) a) l := rfl
      have e2 : (s.after (rule s.hist) a).hist = s.hist ++ [a] := by
        cases rule s.hist <;> rfl
      rw [e1, ih, e2, List.append_assoc, List.singleton_append]
  exact this syms s0

/-- Such an encoder run exists for all nibbles: the encoder never runs out of space. -/
theorem adaptive_encode_total {κ ι : Type} [DecidableEq κ] [DecidableEq ι]
    (rule : List Nat → Choice κ ι) (hrule : ∀ h, (rule h).Safe)
    (s0 : Session κ ι) (hs0 : s0.Ok) (syms : List Nat) (hsyms : ∀ n ∈ syms, n < 16) :
    ∃ ops out e, Ans.putsOf ops = (encodeNibbles rule s0 syms).1 ∧ Ans.ClosedOnce ops ∧
      Ans.Enc.init.run ops = some (out, e) ∧ e.q = [] := by
  have hvalid : ∀ (l : List Nat) (s : Session κ ι), s.Ok → (∀ n ∈ l, n < 16) →
      ∀ sl ∈ (encodeNibbles rule s l).1, sl.Valid := by
    intro l
    induction l with
    | nil => intro s _ _ sl h; simp [encodeNibbles] at h
    | cons a l ih =>
      intro s hs hl sl h
      have ha : a < 16 := hl a (by simp)
      rw [encodeNibbles] at h
      rcases List.mem_cons.1 h with h | h
      · obtain ⟨c, hu, ec⟩ := coding_usable s hs (rule s.hist)
        rw [h, ec]
        exact (slotsExact_of_usable (Opt.new c).divByMax c hu
          (exactDiv_opt c (max_pos c hu) hu.1)).1 a ha
      · exact ih _ (after_ok s hs _ (hrule _) a ha) (fun n hn => hl n (by simp [hn])) sl h
  obtain ⟨out, e, h1, h2, h3, h4⟩ := Ans.ans_encode_total _ (hvalid syms s0 hs0 hsyms)
  exact ⟨_, out, e, h3, h4, h1, h2⟩

/-- A concrete rule: alternates a mixed and a plain model and a fixed one, with different speeds. -/
def demoRule : List Nat → Choice (Fin 2) Unit := fun h =>
  match h.length % 3 with
  | 0 => .mixed 0 1 () (some ⟨1664, 16384⟩) (some ⟨16, 48⟩)
  | 1 => .plain 1 (some ⟨64, 16384⟩)
  | _ => .fixed

example : ∀ h, (demoRule h).Safe := by
  intro h
  unfold demoRule
  split <;> simp [Choice.Safe, SafeSpeed]

example : (encodeNibbles demoRule Session.init [3, 15, 0, 3]).1 =
    [⟨6145, 2047⟩, ⟨31403, 1365⟩, ⟨1, 2047⟩, ⟨1560, 17621⟩] := by decide +kernel

end Divans.Adaptive
