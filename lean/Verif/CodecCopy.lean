import Verif.CodecLemmas

/-!
# Copy commands

The nibbles of a copy command carry its length and distance.
-/

namespace Divans.Codec
open Divans.Num Divans.Cdf

/-- What every reachable bookkeeping satisfies. -/
structure BkOk (b : Bk) : Prop where
  map : b.distMap.length = 1024
  cmap : b.cmap.length = 13
  llen : 1 ≤ b.lastLlen
  last4 : b.last4 < 256
  l0 : b.dist.d0 < 2 ^ 30
  l1 : b.dist.d1 < 2 ^ 30
  l2 : b.dist.d2 < 2 ^ 30
  l3 : b.dist.d3 < 2 ^ 30

theorem bkOk_init : BkOk Bk.init := by
  refine ⟨?_, ?_, ?_, ?_, ?_, ?_, ?_, ?_⟩
  · exact List.length_replicate
  all_goals decide

theorem distPrior_some {b : Bk} (h : BkOk b) (n : Nat) : ∃ p, distPrior b n = some p := by
  have hc : b.bdist.cur.toNat < 256 := b.bdist.cur.toNat_lt
  unfold distPrior
  have hlt : b.bdist.cur.toNat * 4 + min (max n 2 - 2) 3 < b.distMap.length := by
    rw [h.map]
    omega
  exact ⟨_, List.getElem?_eq_getElem hlt⟩

theorem ctype_lt (b : Bk) : b.ctype < 256 := b.bcmd.cur.toNat_lt

/-! ## Short codes -/

theorem lru_get_lt {b : Bk} (h : BkOk b) (i : Nat) : b.dist.get i < 2 ^ 30 := by
  unfold Lru4.get
  split
  · exact h.l0
  · exact h.l1
  · exact h.l2
  · exact h.l3

theorem i32_small {x : Int} (h1 : -2 ^ 31 ≤ x) (h2 : x < 2 ^ 31) : i32 x = x := by
  unfold i32
  omega

/-- Short codes never overflow while all cached distances are below `2^30`. -/
theorem fromMnemonic_some {b : Bk} (h : BkOk b) (code : Nat) (hc : code < 16) :
    ∃ r, fromMnemonic b.dist code = some r := by
  unfold fromMnemonic
  by_cases h4 : code < 4
  · rw [if_pos h4]
    exact ⟨_, rfl⟩
  · rw [if_neg h4]
    have hl := lru_get_lt h (code % 4 / 2)
    obtain ⟨x, hx⟩ : ∃ x, x = b.dist.get (code % 4 / 2) := ⟨_, rfl⟩
    obtain ⟨u, hu⟩ : ∃ u, u = code / 4 := ⟨_, rfl⟩
    have hu4 : u < 4 := by omega
    rw [← hx] at hl ⊢
    rw [← hu]
    simp only
    rw [i32_small (x := (x : Int)) (by omega) (by omega)]
    rw [if_pos]
    · exact ⟨_, rfl⟩
    · apply i32_small <;> split <;> omega

theorem findMnemonic_some {b : Bk} (h : BkOk b) (d : Nat) : ∀ is : List Nat, (∀ i ∈ is, i < 15) →
    ∃ k, findMnemonic b.dist d is = some k ∧
      ((k = 15 ∧ ∀ i ∈ is, fromMnemonic b.dist i ≠ some (d, true)) ∨
        (k < 15 ∧ fromMnemonic b.dist k = some (d, true))) := by
  intro is
  induction is with
  | nil =>
    intro _
    exact ⟨15, rfl, Or.inl ⟨rfl, by simp⟩⟩
  | cons i t ih =>
    intro hi
    obtain ⟨r, hr⟩ := fromMnemonic_some h i (Nat.lt_trans (hi i (by simp)) (by decide))
    obtain ⟨item, ok⟩ := r
    rw [findMnemonic, hr]
    simp only
    by_cases he : item = d ∧ ok = true
    · rw [if_pos he]
      exact ⟨i, rfl, Or.inr ⟨hi i (by simp), by rw [hr, he.1, he.2]⟩⟩
    · rw [if_neg he]
      obtain ⟨k, hk, hs⟩ := ih fun j hj => hi j (by simp [hj])
      refine ⟨k, hk, ?_⟩
      rcases hs with ⟨h1, h2⟩ | h2
      · left
        refine ⟨h1, ?_⟩
        intro j hj
        rcases List.mem_cons.1 hj with rfl | hj
        · rw [hr]
          intro e
          simp only [Option.some.injEq, Prod.mk.injEq] at e
          exact he e
        · exact h2 j hj
      · exact Or.inr h2

theorem mnemonicCode_spec {b : Bk} (h : BkOk b) (d : Nat) :
    ∃ k, mnemonicCode b.dist d = some k ∧
      ((k = 15 ∧ ∀ i, i < 15 → fromMnemonic b.dist i ≠ some (d, true)) ∨
        (k < 15 ∧ fromMnemonic b.dist k = some (d, true))) := by
  obtain ⟨k, hk, hs⟩ := findMnemonic_some h d (List.range 15) (by simp)
  refine ⟨k, hk, ?_⟩
  rcases hs with ⟨h1, h2⟩ | h2
  · exact Or.inl ⟨h1, fun i hi => h2 i (by simpa using hi)⟩
  · exact Or.inr h2

/-! ## Steps of a copy command -/

/-- One step of the encoder inside a copy of `n` bytes from distance `d`. -/
def CopyStep (d n : Nat) (x : Bk × CopySt) (nib : Nat) (y : Bk × CopySt) : Prop :=
  (∃ a, copyAsk x.1 x.2 = some a) ∧ copyOffer x.1 d n x.2 = .ok nib ∧ nib < 16 ∧
    copyTake x.1 x.2 nib = .ok y

theorem bitLen_ne {d : Nat} (hd : d ≠ 0) : ¬ bitLen d = 0 := by
  have := bitLen_pos hd
  omega

/-- The mantissa nibbles of the length. -/
theorem copy_count_mant {d n : Nat} (hd : d ≠ 0) {b : Bk} (d0 m0 : Nat) :
    ∀ k first acc, MantInv n acc (4 * (k + 1)) →
      ∃ ns, Run (CopyStep d n) (b, ⟨d0, m0, .countMant first (4 * (k + 1)) acc⟩) ns
        (b, ⟨d0, n, .distMnem⟩) := by
  intro k
  induction k with
  | zero =>
    intro first acc h
    have ho := mant_offer_eq h (by omega)
    have hs := mant_step h (by omega)
    refine ⟨[mantissaOffer n acc 4], .one ⟨?_, ?_, ho.2, ?_⟩⟩
    · exact ask_copy_countMantissa (ctype_lt b) (by split <;> omega) _
    · simp only [copyOffer]
      rw [if_neg (bitLen_ne hd)]
    · have he : mantissaTake acc 4 (mantissaOffer n acc 4) = n := mant_end hs
      simp only [copyTake, Nat.lt_irrefl, if_false, if_true, he]
  | succ k ih =>
    intro first acc h
    have ho := mant_offer_eq h (by omega)
    have hs := mant_step h (by omega)
    rw [show 4 * (k + 1 + 1) - 4 = 4 * (k + 1) by omega] at hs
    obtain ⟨ns, hr⟩ := ih false _ hs
    refine ⟨_ :: ns, .cons (n := mantissaOffer n acc (4 * (k + 1 + 1))) ⟨?_, ?_, ho.2, ?_⟩ hr⟩
    · exact ask_copy_countMantissa (ctype_lt b) (by split <;> omega) _
    · simp only [copyOffer]
      rw [if_neg (bitLen_ne hd)]
    · simp only [copyTake]
      rw [if_neg (by omega), if_neg (by omega), show 4 * (k + 1 + 1) - 4 = 4 * (k + 1) by omega]

theorem mult4 {r : Nat} (h : r % 4 = 0) (h4 : 4 ≤ r) : ∃ k, r = 4 * (k + 1) := ⟨r / 4 - 1, by omega⟩

/-- The nibbles of the length. -/
theorem copy_count {d n : Nat} (hd : d ≠ 0) (hn : n < 2 ^ 32) {b : Bk} (hb : BkOk b) (d0 m0 : Nat) :
    ∃ ns, Run (CopyStep d n) (b, ⟨d0, m0, .countSmall⟩) ns
      ({ b with lastClen := bitLen n }, ⟨d0, n, .distMnem⟩) := by
  have hl := hb.llen
  have hask1 : ∃ a, copyAsk b ⟨d0, m0, .countSmall⟩ = some a := by
    simp only [copyAsk]
    rw [if_neg (by omega)]
    exact ask_copy_countSmall (ctype_lt b) (by omega) _
  by_cases h15 : n < 15
  · refine ⟨[n], .one ⟨hask1, ?_, by omega, ?_⟩⟩
    · simp only [copyOffer]
      rw [if_neg (bitLen_ne hd), Nat.min_eq_right (by omega)]
    · simp only [copyTake]
      rw [if_neg (by omega)]
  · have s1 : CopyStep d n (b, ⟨d0, m0, .countSmall⟩) 15 (b, ⟨d0, m0, .countFirst⟩) := by
      refine ⟨hask1, ?_, by omega, ?_⟩
      · simp only [copyOffer]
        rw [if_neg (bitLen_ne hd), Nat.min_eq_left (by omega)]
      · simp [copyTake]
    have hc4 : 4 ≤ bitLen n := bitLen_ge (k := 3) (by omega)
    have hc32 : bitLen n ≤ 32 := bitLen_le hn
    have hbnd := bitLen_bounds (v := n) (by omega)
    have hmant : ∀ rem, bitLen n - 1 ≤ rem → MantInv n (2 ^ (bitLen n - 1)) rem := fun rem hr =>
      mant_start hbnd.1 (by rw [show bitLen n - 1 + 1 = bitLen n by omega]; exact hbnd.2) hr
    have hask2 : ∃ a, copyAsk b ⟨d0, m0, .countFirst⟩ = some a :=
      ask_copy_countBeg (ctype_lt b) (by omega) _
    by_cases h19 : bitLen n < 19
    · obtain ⟨r, hr, hr1, hr2, hr3, hr4⟩ := mantissaStart_spec (bitLen n - 1) (by omega) (by omega)
      obtain ⟨k, rfl⟩ := mult4 hr2 hr4
      obtain ⟨ns, hrun⟩ := copy_count_mant (b := { b with lastClen := bitLen n }) hd d0 m0 k true _ (hmant _ hr1)
      refine ⟨15 :: (bitLen n - 4) :: ns, .cons s1 (.cons ⟨hask2, ?_, by omega, ?_⟩ hrun)⟩
      · simp only [copyOffer]
        rw [if_neg (bitLen_ne hd), show (bitLen n + 256 - 4) % 256 = bitLen n - 4 by omega,
          Nat.min_eq_right (by omega)]
      · simp only [copyTake]
        rw [if_neg (by omega), show bitLen n - 4 + 3 = bitLen n - 1 by omega, hr,
          show bitLen n - 4 + 4 = bitLen n by omega]
        rfl
    · obtain ⟨r, hr, hr1, hr2, hr3, hr4⟩ := mantissaStart_spec (bitLen n - 1) (by omega) (by omega)
      obtain ⟨k, rfl⟩ := mult4 hr2 hr4
      obtain ⟨ns, hrun⟩ := copy_count_mant (b := { b with lastClen := bitLen n }) hd d0 m0 k true _ (hmant _ hr1)
      refine ⟨15 :: 15 :: (bitLen n - 19) :: ns,
        .cons s1 (.cons (s1 := (b, ⟨d0, m0, .countMore⟩)) ⟨hask2, ?_, by omega, ?_⟩
          (.cons ⟨?_, ?_, by omega, ?_⟩ hrun))⟩
      · simp only [copyOffer]
        rw [if_neg (bitLen_ne hd), show (bitLen n + 256 - 4) % 256 = bitLen n - 4 by omega,
          Nat.min_eq_left (by omega)]
      · simp [copyTake]
      · exact ask_copy_countLast (ctype_lt b) (by omega) _
      · simp only [copyOffer]
        rw [if_neg (bitLen_ne hd), show (bitLen n + 256 - 19) % 256 = bitLen n - 19 by omega]
      · simp only [copyTake]
        rw [show bitLen n - 19 + 18 = bitLen n - 1 by omega, hr,
          show bitLen n - 19 + 19 = bitLen n by omega]
        rfl

/-- The mantissa nibbles of the distance. -/
theorem copy_dist_mant {d n : Nat} (hd : d ≠ 0) {b : Bk} (hb : BkOk b) (d0 m0 : Nat) :
    ∀ k first acc, MantInv d acc (4 * (k + 1)) →
      ∃ ns, Run (CopyStep d n) (b, ⟨d0, m0, .distMant first (4 * (k + 1)) acc⟩) ns
        (b, ⟨d, m0, .done⟩) := by
  have hask : ∀ first rem acc, ∃ a, copyAsk b ⟨d0, m0, .distMant first rem acc⟩ = some a := by
    intro first rem acc
    obtain ⟨p, hp⟩ := distPrior_some hb m0
    simp only [copyAsk, hp, Option.bind_some]
    exact ask_copy_distMantissa p.toNat_lt (by split <;> omega) _
  intro k
  induction k with
  | zero =>
    intro first acc h
    have ho := mant_offer_eq h (by omega)
    have hs := mant_step h (by omega)
    refine ⟨[mantissaOffer d acc 4], .one ⟨hask _ _ _, ?_, ho.2, ?_⟩⟩
    · simp only [copyOffer]
      rw [if_neg (bitLen_ne hd)]
    · have he : mantissaTake acc 4 (mantissaOffer d acc 4) = d := mant_end hs
      simp only [copyTake, Nat.lt_irrefl, if_false, if_true, he]
  | succ k ih =>
    intro first acc h
    have ho := mant_offer_eq h (by omega)
    have hs := mant_step h (by omega)
    rw [show 4 * (k + 1 + 1) - 4 = 4 * (k + 1) by omega] at hs
    obtain ⟨ns, hr⟩ := ih false _ hs
    refine ⟨_ :: ns, .cons (n := mantissaOffer d acc (4 * (k + 1 + 1))) ⟨hask _ _ _, ?_, ho.2, ?_⟩ hr⟩
    · simp only [copyOffer]
      rw [if_neg (bitLen_ne hd)]
    · simp only [copyTake]
      rw [if_neg (by omega), if_neg (by omega), show 4 * (k + 1 + 1) - 4 = 4 * (k + 1) by omega]

/-- The nibbles of the distance. -/
theorem copy_dist {d n : Nat} (hd : d ≠ 0) (hd30 : d < 2 ^ 30) {b : Bk} (hb : BkOk b)
    (d0 m0 : Nat) (hm0 : m0 < 2 ^ 32) :
    ∃ ns, Run (CopyStep d n) (b, ⟨d0, m0, .distMnem⟩) ns
      ({ b with lastDlen := bitLen d }, ⟨d, m0, .done⟩) := by
  obtain ⟨p, hp⟩ := distPrior_some hb m0
  have hask1 : ∃ a, copyAsk b ⟨d0, m0, .distMnem⟩ = some a := by
    simp only [copyAsk, hp, Option.bind_some]
    exact ask_copy_distMnemonic p.toNat_lt (by split <;> omega) _
  obtain ⟨code, hcode, hspec⟩ := mnemonicCode_spec hb d
  have hoff1 : copyOffer b d n ⟨d0, m0, .distMnem⟩ = .ok code := by
    simp only [copyOffer]
    rw [if_neg (bitLen_ne hd), hcode]
    rfl
  rcases hspec with ⟨rfl, -⟩ | ⟨hlt, hfrom⟩
  · have s1 : CopyStep d n (b, ⟨d0, m0, .distMnem⟩) 15 (b, ⟨d0, m0, .distFirst⟩) :=
      ⟨hask1, hoff1, by omega, by simp [copyTake]⟩
    have hask2 : ∃ a, copyAsk b ⟨d0, m0, .distFirst⟩ = some a := by
      simp only [copyAsk, hp, Option.bind_some]
      exact ask_copy_distBeg p.toNat_lt (by have := bitLen_le hm0; omega) _
    by_cases hthree : (b.dist.d1 + 2 ^ 32 - 3) % 2 ^ 32 = d
    · refine ⟨[15, 15], .cons s1 (.one ⟨hask2, ?_, by omega, ?_⟩)⟩
      · simp only [copyOffer]
        rw [if_neg (bitLen_ne hd), if_pos hthree]
      · simp only [copyTake, hthree]
        rw [if_neg (by omega)]
        rfl
    · have hoff2 : copyOffer b d n ⟨d0, m0, .distFirst⟩ = .ok (min 14 (bitLen d - 1)) := by
        simp only [copyOffer]
        rw [if_neg (bitLen_ne hd), if_neg hthree]
      have hl1 := bitLen_pos hd
      have hl30 : bitLen d ≤ 30 := bitLen_le hd30
      have hbnd := bitLen_bounds hd
      have hbb : ∀ m, BkOk { b with lastDlen := m } := fun m =>
        ⟨hb.map, hb.cmap, hb.llen, hb.last4, hb.l0, hb.l1, hb.l2, hb.l3⟩
      have hmant : ∀ rem, bitLen d - 1 ≤ rem → MantInv d (2 ^ (bitLen d - 1)) rem := fun rem hr =>
        mant_start hbnd.1 (by rw [show bitLen d - 1 + 1 = bitLen d by omega]; exact hbnd.2) hr
      by_cases h1 : bitLen d = 1
      · have hd1 : d = 1 := by
          rw [h1] at hbnd
          omega
        refine ⟨[15, 0], .cons s1 (.one ⟨hask2, ?_, by omega, ?_⟩)⟩
        · rw [hoff2, h1]
          rfl
        · simp only [copyTake]
          rw [if_neg (by omega), if_neg (by omega), if_pos trivial, h1, hd1]
      · obtain ⟨r, hr, hr1, hr2, hr3, hr4⟩ := mantissaStart_spec (bitLen d - 1) (by omega) (by omega)
        obtain ⟨k, rfl⟩ := mult4 hr2 hr4
        obtain ⟨ns, hrun⟩ := copy_dist_mant (n := n) hd (hbb (bitLen d)) d0 m0 k true _ (hmant _ hr1)
        by_cases h15 : bitLen d < 15
        · refine ⟨15 :: (bitLen d - 1) :: ns, .cons s1 (.cons ⟨hask2, ?_, by omega, ?_⟩ hrun)⟩
          · rw [hoff2, Nat.min_eq_right (by omega)]
          · simp only [copyTake]
            rw [if_neg (by omega), if_neg (by omega), if_neg (by omega), hr,
              show bitLen d - 1 + 1 = bitLen d by omega]
            rfl
        · refine ⟨15 :: 14 :: (bitLen d - 15) :: ns,
            .cons s1 (.cons (s1 := (b, ⟨d0, m0, .distMore⟩)) ⟨hask2, ?_, by omega, ?_⟩
              (.cons ⟨?_, ?_, by omega, ?_⟩ hrun))⟩
          · rw [hoff2, Nat.min_eq_left (by omega)]
          · simp [copyTake]
          · simp only [copyAsk, hp, Option.bind_some]
            exact ask_copy_distLast p.toNat_lt (by omega) _
          · simp only [copyOffer]
            rw [if_neg (bitLen_ne hd), show (bitLen d + 256 - 15) % 256 = bitLen d - 15 by omega]
          · simp only [copyTake]
            rw [show bitLen d - 15 + 14 = bitLen d - 1 by omega, hr,
              show bitLen d - 15 + 15 = bitLen d by omega]
            rfl
  · refine ⟨[code], .one ⟨hask1, hoff1, by omega, ?_⟩⟩
    simp only [copyTake]
    rw [if_neg (by omega), hfrom]

/-- The whole copy command. -/
theorem copy_run {d n : Nat} (hd : d ≠ 0) (hd30 : d < 2 ^ 30) (hn : n < 2 ^ 32) {b : Bk}
    (hb : BkOk b) :
    ∃ ns, Run (CopyStep d n) (b, CopySt.begin) ns
      ({ b with lastClen := bitLen n, lastDlen := bitLen d }, ⟨d, n, .done⟩) := by
  obtain ⟨ns, h1⟩ := copy_count hd hn hb 0 0
  have hb2 : BkOk { b with lastClen := bitLen n } :=
    ⟨hb.map, hb.cmap, hb.llen, hb.last4, hb.l0, hb.l1, hb.l2, hb.l3⟩
  obtain ⟨ms, h2⟩ := copy_dist (n := n) hd hd30 hb2 0 n hn
  exact ⟨ns ++ ms, h1.append h2⟩

/-- Steps of a copy command are steps of the whole coder. -/
theorem emits_of_copyRun {o : Opts} {d n : Nat} {x y : Bk × CopySt} {ns : List Nat} (p : Pm)
    (h : Run (CopyStep d n) x ns y) (hx : x.2.at_ ≠ .done) (hy : y.2.at_ = .done) :
    Emits o (.copy d n) ⟨x.1, p, .copy x.2⟩ ns
      (finish y.1 p (.copy y.2.distance y.2.num)) (.copy y.2.distance y.2.num) := by
  induction h with
  | nil s => exact absurd hy hx
  | @cons s s1 s2 nib ns hs hr ih =>
    obtain ⟨⟨a, ha⟩, ho, hn, ht⟩ := hs
    by_cases hd : s1.2.at_ = .done
    · cases hr with
      | nil =>
        refine .last a ha ho hn ?_
        simp only [coreTake, ht, Res.bind]
        rw [if_pos hd]
      | cons hs' _ =>
        obtain ⟨⟨a', ha'⟩, _⟩ := hs'
        simp [copyAsk, hd] at ha'
    · refine .more a ha ho hn ?_ (ih hd hy)
      simp only [coreTake, ht, Res.bind]
      rw [if_neg hd]

end Divans.Codec
