import Verif.CodecCopy

/-!
# Dictionary commands, literal lengths and block switches

The nibbles of these commands carry exactly what the command says.
-/

namespace Divans.Codec
open Divans.Num Divans.Cdf

/-! ## Dictionary -/

/-- One step of the encoder inside a dictionary command. -/
def DictStep (b : Bk) (z i t : Nat) (x : DictSt) (nib : Nat) (y : DictSt) : Prop :=
  (∃ a, dictAsk b x = some a) ∧ dictOffer z i t x = .ok nib ∧ nib < 16 ∧ dictTake x nib = .ok y

/-- Number of bits the index of a word of `size` bytes is sent with: the bits of the brotli dictionary
rounded up to whole nibbles. -/
def dictIndexBits (size : Nat) : Nat := (dictBits.getD size 0 + 3) / 4 * 4

theorem dictBits_spec : ∀ z, 4 ≤ z → z ≤ 24 →
    ∃ k, dictBits[z]? = some (dictBits.getD z 0) ∧
      roundUp4 (dictBits.getD z 0) = some (dictIndexBits z) ∧ dictIndexBits z = 4 * (k + 1) := by
  have h : ∀ z : Fin 25, 4 ≤ z.val → dictBits[z.val]? = some (dictBits.getD z.val 0) ∧
      roundUp4 (dictBits.getD z.val 0) = some (dictIndexBits z.val) ∧
      dictIndexBits z.val = 4 * (dictIndexBits z.val / 4 - 1 + 1) := by decide +kernel
  intro z h4 h24
  obtain ⟨a, b, c⟩ := h ⟨z, by omega⟩ h4
  exact ⟨_, a, b, c⟩

theorem dict_index {b : Bk} (hb : BkOk b) {z i t : Nat} (h4 : 4 ≤ z) (h24 : z ≤ 24) (i0 t0 : Nat) :
    ∀ k first acc, MantInv i acc (4 * (k + 1)) →
      ∃ ns, Run (DictStep b z i t) ⟨z, i0, t0, .index first (4 * (k + 1)) acc⟩ ns
        ⟨z, i, t0, .transHigh⟩ := by
  have hask : ∀ first rem acc, ∃ a, dictAsk b ⟨z, i0, t0, .index first rem acc⟩ = some a := by
    intro first rem acc
    obtain ⟨p, hp⟩ := distPrior_some hb z
    obtain ⟨_, hbits, _⟩ := dictBits_spec z h4 h24
    simp only [dictAsk, hp, hbits, Option.bind_some]
    exact ask_dict_index p.toNat_lt (by split <;> omega) _
  intro k
  induction k with
  | zero =>
    intro first acc h
    have ho := mant_offer_eq h (by omega)
    have hs := mant_step h (by omega)
    refine ⟨[mantissaOffer i acc 4], .one ⟨hask _ _ _, rfl, ho.2, ?_⟩⟩
    have he : mantissaTake acc 4 (mantissaOffer i acc 4) = i := mant_end hs
    simp only [dictTake, Nat.lt_irrefl, if_false, if_true, he]
  | succ k ih =>
    intro first acc h
    have ho := mant_offer_eq h (by omega)
    have hs := mant_step h (by omega)
    rw [show 4 * (k + 1 + 1) - 4 = 4 * (k + 1) by omega] at hs
    obtain ⟨ns, hr⟩ := ih false _ hs
    refine ⟨_ :: ns, .cons (n := mantissaOffer i acc (4 * (k + 1 + 1))) ⟨hask _ _ _, rfl, ho.2, ?_⟩ hr⟩
    simp only [dictTake]
    rw [if_neg (by omega), if_neg (by omega), show 4 * (k + 1 + 1) - 4 = 4 * (k + 1) by omega]

theorem shl4_or : ∀ h l : Fin 16, h.val * 16 ||| l.val = h.val * 16 + l.val := by decide +kernel

theorem join_nibbles {t : Nat} (ht : t < 256) : (t / 16 * 16) ||| (t % 16) = t := by
  have := shl4_or ⟨t / 16, by omega⟩ ⟨t % 16, by omega⟩
  simp only at this
  omega

theorem dict_run {b : Bk} (hb : BkOk b) {z i t : Nat} (h4 : 4 ≤ z) (h24 : z ≤ 24)
    (hi : i < 2 ^ dictIndexBits z) (ht : t ≤ 120) :
    ∃ ns, Run (DictStep b z i t) DictSt.begin ns ⟨z, i, t, .done⟩ := by
  obtain ⟨k, hbits, hround, hk⟩ := dictBits_spec z h4 h24
  have hstart : dictIndexStart ⟨z, 0, 0, .sizeFirst⟩ = .ok ⟨z, 0, 0, .index true (dictIndexBits z) 0⟩ := by
    simp only [dictIndexStart, hbits, hround]
  have hstart2 : dictIndexStart ⟨z, 0, 0, .sizeMore⟩ = .ok ⟨z, 0, 0, .index true (dictIndexBits z) 0⟩ := by
    simp only [dictIndexStart, hbits, hround]
  have htr : Run (DictStep b z i t) ⟨z, i, 0, .transHigh⟩ [t / 16, t % 16] ⟨z, i, t, .done⟩ := by
    refine .cons (s1 := ⟨z, i, t / 16 * 16, .transLow⟩) ⟨?_, rfl, by omega, rfl⟩
      (.one ⟨?_, rfl, by omega, ?_⟩)
    · exact ask_dict_transform (by omega) (by simp only; omega) _
    · exact ask_dict_transform (by omega) (by simp only; omega) _
    · simp only [dictTake]
      rw [join_nibbles (by omega), if_neg (by omega)]
  have hm := mant_zero hi
  rw [hk] at hm hstart hstart2
  obtain ⟨ns, hrun⟩ := dict_index hb (t := t) h4 h24 0 0 k true 0 hm
  by_cases h19 : z < 19
  · refine ⟨(z - 4) :: (ns ++ [t / 16, t % 16]), .cons ⟨?_, ?_, by omega, ?_⟩ (hrun.append htr)⟩
    · exact ask_dict_sizeBeg (ctype_lt b) _
    · simp only [dictOffer, DictSt.begin]
      rw [show (z + 256 - 4) % 256 = z - 4 by omega, Nat.min_eq_right (by omega)]
    · simp only [dictTake, DictSt.begin]
      rw [if_neg (by omega), show z - 4 + 4 = z by omega, hstart]
  · refine ⟨15 :: (z - 19) :: (ns ++ [t / 16, t % 16]),
      .cons (s1 := ⟨0, 0, 0, .sizeMore⟩) ⟨?_, ?_, by omega, rfl⟩
        (.cons ⟨?_, ?_, by omega, ?_⟩ (hrun.append htr))⟩
    · exact ask_dict_sizeBeg (ctype_lt b) _
    · simp only [dictOffer, DictSt.begin]
      rw [show (z + 256 - 4) % 256 = z - 4 by omega, Nat.min_eq_left (by omega)]
    · exact ask_dict_sizeLast (ctype_lt b) _
    · simp only [dictOffer]
      rw [show (z + 256 - 19) % 256 = z - 19 by omega]
    · simp only [dictTake]
      rw [show z - 19 + 19 = z by omega, if_neg (by omega), hstart2]

theorem emits_of_dictRun {o : Opts} {b : Bk} {z i t : Nat} {x y : DictSt} {ns : List Nat} (p : Pm)
    (h : Run (DictStep b z i t) x ns y) (hx : x.at_ ≠ .done) (hy : y.at_ = .done) :
    Emits o (.dict z i t) ⟨b, p, .dict x⟩ ns
      (finish b p (.dict y.size y.id y.transform)) (.dict y.size y.id y.transform) := by
  induction h with
  | nil s => exact absurd hy hx
  | @cons s s1 s2 nib ns hs hr ih =>
    obtain ⟨⟨a, ha⟩, ho, hn, ht⟩ := hs
    by_cases hd : s1.at_ = .done
    · cases hr with
      | nil =>
        refine .last a ha ho hn ?_
        simp only [coreTake, ht, Res.bind]
        rw [if_pos hd]
      | cons hs' _ =>
        obtain ⟨⟨a', ha'⟩, _⟩ := hs'
        simp [dictAsk, hd] at ha'
    · refine .more a ha ho hn ?_ (ih hd hy)
      simp only [coreTake, ht, Res.bind]
      rw [if_neg hd]

/-! ## Literal lengths -/

/-- One step of the encoder inside a literal length. -/
def LitStep (len : Nat) (e : Bool) (x : Bk × LitSt) (nib : Nat) (y : Bk × LitSt) : Prop :=
  (∃ a, litAsk x.1 x.2 = some a) ∧ litOffer len e x.2 = .ok nib ∧ nib < 16 ∧
    litTake x.1 x.2 nib = .ok y

/-- `last_llen` after a literal of `len` bytes: unchanged for 15 and 16 bytes. -/
def llenAfter (old len : Nat) : Nat := if len = 15 ∨ len = 16 then old else len

theorem lit_mant {b : Bk} {len : Nat} {e f : Bool} (h15 : 15 ≤ len) (hlen : len < 2 ^ 32) (l0 : Nat) :
    ∀ k acc, MantInv (len - 15) acc (4 * (k + 1)) →
      ∃ ns, Run (LitStep len e) (b, ⟨l0, f, .countMant (4 * (k + 1)) acc⟩) ns
        ({ b with lastLlen := len }, ⟨len, f, .done⟩) := by
  have hask : ∀ rem acc, ∃ a, litAsk b ⟨l0, f, .countMant rem acc⟩ = some a := fun _ _ =>
    ask_lit_sizeMantissa (ctype_lt b) _
  have hlarge : (len + 2 ^ 32 - 15) % 2 ^ 32 = len - 15 := by omega
  have hoff : ∀ rem acc, litOffer len e ⟨l0, f, .countMant rem acc⟩ =
      .ok (mantissaOffer (len - 15) acc rem) := by
    intro rem acc
    simp only [litOffer, hlarge]
  intro k
  induction k with
  | zero =>
    intro acc h
    have ho := mant_offer_eq h (by omega)
    have hs := mant_step h (by omega)
    refine ⟨[mantissaOffer (len - 15) acc 4], .one ⟨hask _ _, hoff _ _, ho.2, ?_⟩⟩
    have he : mantissaTake acc 4 (mantissaOffer (len - 15) acc 4) = len - 15 := mant_end hs
    simp only [litTake, Nat.lt_irrefl, if_false, if_true, he]
    rw [show len - 15 + 15 = len by omega, Nat.mod_eq_of_lt hlen]
  | succ k ih =>
    intro acc h
    have ho := mant_offer_eq h (by omega)
    have hs := mant_step h (by omega)
    rw [show 4 * (k + 1 + 1) - 4 = 4 * (k + 1) by omega] at hs
    obtain ⟨ns, hr⟩ := ih _ hs
    refine ⟨_ :: ns, .cons (n := mantissaOffer (len - 15) acc (4 * (k + 1 + 1)))
      ⟨hask _ _, hoff _ _, ho.2, ?_⟩ hr⟩
    simp only [litTake]
    rw [if_neg (by omega), if_neg (by omega), show 4 * (k + 1 + 1) - 4 = 4 * (k + 1) by omega]

theorem lit_count {b : Bk} {len : Nat} {e f : Bool} (h1 : 1 ≤ len) (hlen : len < 15 + 2 ^ 30)
    (hf : e = true → f = true) (l0 : Nat) :
    ∃ ns, Run (LitStep len e) (b, ⟨l0, f, .countSmall f⟩) ns
      ({ b with lastLlen := llenAfter b.lastLlen len }, ⟨len, f, .done⟩) := by
  have hask1 : ∃ a, litAsk b ⟨l0, f, .countSmall f⟩ = some a :=
    ask_lit_countSmall (ctype_lt b) (by omega) _
  have hoff1 : litOffer len e ⟨l0, f, .countSmall f⟩ = .ok (min 14 (len - 1)) := by
    simp only [litOffer]
    have hc : (e && !f) = false := by
      cases e with
      | false => rfl
      | true => simp [hf rfl]
    rw [hc, show (len + 2 ^ 32 - 1) % 2 ^ 32 = len - 1 by omega]
    rfl
  by_cases h15 : len < 15
  · refine ⟨[len - 1], .one ⟨hask1, ?_, by omega, ?_⟩⟩
    · rw [hoff1, Nat.min_eq_right (by omega)]
    · simp only [litTake, llenAfter]
      rw [if_neg (by omega), if_neg (by omega), if_neg (by omega), show len - 1 + 1 = len by omega]
  · have s1 : LitStep len e (b, ⟨l0, f, .countSmall f⟩) 14 (b, ⟨l0, f, .countFirst⟩) := by
      refine ⟨hask1, ?_, by omega, rfl⟩
      rw [hoff1, Nat.min_eq_left (by omega)]
    have hask2 : ∃ a, litAsk b ⟨l0, f, .countFirst⟩ = some a := ask_lit_sizeBeg (ctype_lt b) _
    have hlarge : (len + 2 ^ 32 - 15) % 2 ^ 32 = len - 15 := by omega
    have hoff2 : litOffer len e ⟨l0, f, .countFirst⟩ = .ok (min 15 (bitLen (len - 15))) := by
      simp only [litOffer, hlarge]
    have h30 : bitLen (len - 15) ≤ 30 := bitLen_le (by omega)
    by_cases hs : len ≤ 16
    · refine ⟨[14, len - 15], .cons s1 (.one ⟨hask2, ?_, by omega, ?_⟩)⟩
      · rw [hoff2]
        have hv : len - 15 = 0 ∨ len - 15 = 1 := by omega
        rcases hv with hv | hv <;> rw [hv] <;> rfl
      · simp only [litTake, llenAfter]
        rw [if_neg (by omega), if_pos (by omega), if_pos (by omega),
          show 15 + (len - 15) = len by omega]
    · have h2 : 2 ≤ bitLen (len - 15) := bitLen_ge (k := 1) (by omega)
      have hbnd := bitLen_bounds (v := len - 15) (by omega)
      have hmant : ∀ rem, bitLen (len - 15) - 1 ≤ rem →
          MantInv (len - 15) (2 ^ (bitLen (len - 15) - 1)) rem := fun rem hr =>
        mant_start hbnd.1
          (by rw [show bitLen (len - 15) - 1 + 1 = bitLen (len - 15) by omega]; exact hbnd.2) hr
      obtain ⟨r, hr, hr1, hr2, hr3, hr4⟩ :=
        mantissaStart_spec (bitLen (len - 15) - 1) (by omega) (by omega)
      obtain ⟨k, rfl⟩ := mult4 hr2 hr4
      obtain ⟨ns, hrun⟩ := lit_mant (b := b) (e := e) (f := f) (by omega) (by omega) l0 k _ (hmant _ hr1)
      have hafter : llenAfter b.lastLlen len = len := if_neg (by omega)
      rw [hafter]
      by_cases hb15 : bitLen (len - 15) < 15
      · refine ⟨14 :: bitLen (len - 15) :: ns, .cons s1 (.cons ⟨hask2, ?_, by omega, ?_⟩ hrun)⟩
        · rw [hoff2, Nat.min_eq_right (by omega)]
        · simp only [litTake]
          rw [if_neg (by omega), if_neg (by omega), hr]
          rfl
      · refine ⟨14 :: 15 :: (bitLen (len - 15) - 15) :: ns,
          .cons s1 (.cons (s1 := (b, ⟨l0, f, .countMore⟩)) ⟨hask2, ?_, by omega, rfl⟩
            (.cons ⟨?_, ?_, by omega, ?_⟩ hrun))⟩
        · rw [hoff2, Nat.min_eq_left (by omega)]
        · exact ask_lit_sizeLast (ctype_lt b) _
        · simp only [litOffer, hlarge]
          rw [show (bitLen (len - 15) + 256 - 15) % 256 = bitLen (len - 15) - 15 by omega]
        · simp only [litTake]
          rw [show bitLen (len - 15) - 15 + 14 = bitLen (len - 15) - 1 by omega, hr]
          rfl

theorem lit_run {b : Bk} {len : Nat} {e : Bool} (h1 : 1 ≤ len) (hlen : len < 15 + 2 ^ 30) :
    ∃ ns, Run (LitStep len e) (b, LitSt.begin) ns
      ({ b with lastLlen := llenAfter b.lastLlen len }, ⟨len, e, .done⟩) := by
  cases e with
  | false => exact lit_count h1 hlen (by simp) 0
  | true =>
    obtain ⟨ns, hr⟩ := lit_count (b := b) (e := true) (f := true) h1 hlen (by simp) 0
    exact ⟨15 :: ns, .cons ⟨ask_lit_countSmall (ctype_lt b) (by omega) _, rfl, by omega, rfl⟩ hr⟩

theorem emits_of_litRun {o : Opts} {len : Nat} {e : Bool} {x y : Bk × LitSt} {ns : List Nat} (p : Pm)
    (h : Run (LitStep len e) x ns y) (hx : x.2.at_ ≠ .done) (hy : y.2.at_ = .done) :
    Emits o (.lit len e) ⟨x.1, p, .lit x.2⟩ ns
      (finish y.1 p (.lit y.2.len y.2.highEntropy)) (.lit y.2.len y.2.highEntropy) := by
  induction h with
  | nil s => exact absurd hy hx
  | @cons s s1 s2 nib ns hs hr ih =>
    obtain ⟨⟨a, ha⟩, ho, hn, ht⟩ := hs
    by_cases hd : s1.2.at_ = .done
    · cases hr with
      | nil =>
        refine .last a ha ho hn ?_
        simp only [coreTake, ht, Res.bind]
        rw [if_pos hd]
      | cons hs' _ =>
        obtain ⟨⟨a', ha'⟩, _⟩ := hs'
        simp [litAsk, hd] at ha'
    · refine .more a ha ho hn ?_ (ih hd hy)
      simp only [coreTake, ht, Res.bind]
      rw [if_neg hd]

/-! ## Block switches -/

/-- One step of the encoder inside a block switch. -/
def BsStep (b : Bk) (o : Opts) (k : Switch) (t : UInt8) (stride : Nat) (x : BsAt) (nib : Nat)
    (y : BsAt) : Prop :=
  (∃ a, bsAsk k x = some a) ∧ bsOffer b o k t stride x = .ok nib ∧ nib < 16 ∧ bsTake b k x nib = .ok y

/-- The stride that arrives: command and distance switches carry none. -/
def strideGot (o : Opts) (k : Switch) (stride : Nat) : Nat :=
  match k with
  | .lit => strideOffer o stride
  | _ => 0

theorem u8_shl_or (t : UInt8) : UInt8.ofNat ((t.toNat / 16) <<< 4 ||| (t.toNat % 16)) = t := by
  have ht : t.toNat < 256 := t.toNat_lt
  have hs : (t.toNat / 16) <<< 4 = t.toNat / 16 * 16 := by
    rw [Nat.shiftLeft_eq]
  rw [hs, join_nibbles ht]
  simp

theorem bs_type {b : Bk} {o : Opts} {k : Switch} {t : UInt8} {stride : Nat} :
    ∃ ns, Run (BsStep b o k t stride) .begin ns (bsKnown k t) := by
  have hask : ∀ s, (∀ t st, s ≠ BsAt.done t st) → ∃ a, bsAsk k s = some a := ask_bt k
  have hb : ∃ a, bsAsk k .begin = some a := hask _ (by simp)
  have ht : t.toNat < 256 := t.toNat_lt
  by_cases h0 : t = (b.btype k).prev
  · refine ⟨[0], .one ⟨hb, ?_, by omega, ?_⟩⟩
    · simp only [bsOffer]
      rw [if_pos h0]
    · simp only [bsTake, ← h0, if_true]
  · by_cases h1 : t = (b.btype k).maxSeen + 1
    · refine ⟨[1], .one ⟨hb, ?_, by omega, ?_⟩⟩
      · simp only [bsOffer]
        rw [if_neg h0, if_pos h1]
      · simp only [bsTake, ← h1]
        rfl
    · by_cases h12 : t.toNat ≤ 12
      · refine ⟨[t.toNat + 2], .one ⟨hb, ?_, by omega, ?_⟩⟩
        · simp only [bsOffer]
          rw [if_neg h0, if_neg h1, if_pos h12]
        · simp only [bsTake]
          rw [if_neg (by omega), if_neg (by omega), if_neg (by omega), Nat.add_sub_cancel]
          simp
      · refine ⟨[15, t.toNat % 16, t.toNat / 16],
          .cons (s1 := .two) ⟨hb, ?_, by omega, rfl⟩
            (.cons (s1 := .final (t.toNat % 16)) ⟨hask _ (by simp), rfl, by omega, rfl⟩
              (.one ⟨hask _ (by simp), rfl, by omega, ?_⟩))⟩
        · simp only [bsOffer]
          rw [if_neg h0, if_neg h1, if_neg h12]
        · simp only [bsTake]
          rw [u8_shl_or]

theorem bs_run {b : Bk} {o : Opts} {k : Switch} {t : UInt8} {stride : Nat}
    (hst : k = .lit → strideOffer o stride < 16) :
    ∃ ns, Run (BsStep b o k t stride) .begin ns (.done t (strideGot o k stride)) := by
  obtain ⟨ns, hr⟩ := bs_type (b := b) (o := o) (k := k) (t := t) (stride := stride)
  cases k with
  | lit =>
    exact ⟨ns ++ [strideOffer o stride],
      hr.append (.one ⟨ask_bt _ _ (by simp [bsKnown]), rfl, hst rfl, rfl⟩)⟩
  | cmd => exact ⟨ns, hr⟩
  | dist => exact ⟨ns, hr⟩

theorem emits_of_bsRun {o : Opts} {b : Bk} {k : Switch} {t : UInt8} {stride : Nat} {x y : BsAt}
    {ns : List Nat} (p : Pm) (h : Run (BsStep b o k t stride) x ns y) {t' : UInt8} {st' : Nat}
    (hx : ∀ t st, x ≠ .done t st) (hy : y = .done t' st') :
    Emits o (.bswitch k t stride) ⟨b, p, .bswitch k x⟩ ns
      (finish b p (.bswitch k t' st')) (.bswitch k t' st') := by
  induction h with
  | nil s => exact absurd hy (hx _ _)
  | @cons s s1 s2 nib ns hs hr ih =>
    obtain ⟨⟨a, ha⟩, ho, hn, ht⟩ := hs
    by_cases hd : ∃ t st, s1 = .done t st
    · obtain ⟨t1, st1, rfl⟩ := hd
      cases hr with
      | nil =>
        obtain ⟨rfl, rfl⟩ : t1 = t' ∧ st1 = st' := by simpa using hy
        refine .last a ha ho hn ?_
        simp only [coreTake, ht, Res.bind]
      | cons hs' _ =>
        obtain ⟨⟨a', ha'⟩, _⟩ := hs'
        simp [bsAsk] at ha'
    · have hd' : ∀ t st, s1 ≠ .done t st := fun t st e => hd ⟨t, st, e⟩
      refine .more a ha ho hn ?_ (ih hd' hy)
      simp only [coreTake, ht, Res.bind]

end Divans.Codec
