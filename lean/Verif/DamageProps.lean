import Verif.FileProps

/-!
# Truncated, extended and damaged files (C52, C53)

* `accepted_end`: how much of its input a decompressor that reports success has accepted does not depend on
  schedule, output buffers or options; `truncated_never_accepted`, `rest_untouched`.
* `damage_detected`: of two different files of the same length whose differences lie within 32 consecutive bits,
  at most one is accepted in full.
-/

namespace Divans.Damage
open Divans.File Divans.Crc
open Divans.Frame (trailer GoodHeader)

/-! ### Where a file ends -/

/-- The reader stops at the end marker. -/
theorem runAll_done : ∀ (l : List UInt8) (s s' : Mux.Scan), s.eof = .done → Mux.runAll s l = some s' → l = [] := by
  intro l s s' hd h
  cases l with
  | nil => rfl
  | cons b l =>
    rw [Mux.runAll, Mux.step, if_pos hd] at h
    cases h

/-- Streams with their end marker are not a beginning of other such streams. -/
theorem streams_end : ∀ (a b x y : List UInt8) (s t u : Mux.Scan), Mux.runAll s a = some t → t.eof = .done →
    Mux.runAll s b = some u → u.eof = .done → a ++ x = b ++ y → a = b := by
  intro a
  induction a with
  | nil =>
    intro b x y s t u h1 h2 h3 h4 _
    simp only [Mux.runAll, Option.some.injEq] at h1
    subst h1
    exact (runAll_done b s u h2 h3).symm
  | cons c a ih =>
    intro b x y s t u h1 h2 h3 h4 h
    cases b with
    | nil =>
      simp only [Mux.runAll, Option.some.injEq] at h3
      subst h3
      exact runAll_done (c :: a) s t h4 h1
    | cons d b =>
      simp only [List.cons_append, List.cons.injEq] at h
      obtain ⟨rfl, h⟩ := h
      rw [Mux.runAll] at h1 h3
      cases hs : Mux.step s c with
      | none => rw [hs] at h1; cases h1
      | some s1 =>
        rw [hs] at h1 h3
        rw [ih b x y s1 t u h1 h2 h3 h4 h]

/-- **C52.**  Two decompressors are offered bytes that agree as far as both go, in any pieces, any schedule, with
any output buffers, with or without checking of checksums.  If both report success they have accepted the same
bytes; what was offered beyond them is left. -/
theorem accepted_end (dw dw' : Nat → Nat → Nat → List UInt8) (skip skip' : Bool) (acts acts' : List Act) (d d' : Dec)
    (out out' x y : List UInt8) (e : run dw (.new skip) acts = .ok (d, out)) (hv : d.verdict = .success)
    (e' : run dw' (.new skip') acts' = .ok (d', out')) (hv' : d'.verdict = .success)
    (hagree : fed acts ++ x = fed acts' ++ y) :
    ∃ file, fed acts = file ++ d.pending ∧ fed acts' = file ++ d'.pending := by
  obtain ⟨h, w, body, sum, s, hg, hr, hd, hf, hl, -⟩ := success_means_checked dw skip acts d out e hv
  obtain ⟨h', w', body', sum', s', hg', hr', hd', hf', hl', -⟩ := success_means_checked dw' skip' acts' d' out' e' hv'
  have hh : h = h' ∧ body ++ (sum ++ [0x61, 0x6e, 0x73, 0x7e]) ++ d.pending ++ x =
      body' ++ (sum' ++ [0x61, 0x6e, 0x73, 0x7e]) ++ d'.pending ++ y := by
    rw [hf, hf'] at hagree
    simp only [List.append_assoc] at hagree ⊢
    exact List.append_inj hagree (by rw [hg.1, hg'.1])
  obtain ⟨rfl, hb⟩ := hh
  have hbody : body = body' := by
    simp only [List.append_assoc] at hb
    exact streams_end _ _ _ _ _ _ _ hr hd hr' hd' hb
  subst hbody
  have hsum : sum = sum' := by
    simp only [List.append_assoc] at hb
    exact (List.append_inj (List.append_cancel_left hb) (by rw [hl, hl'])).1
  subst hsum
  exact ⟨_, hf, hf'⟩

/-- C52: if a file is accepted to its last byte, no proper beginning of it is accepted, whatever the schedule. -/
theorem truncated_never_accepted (dw dw' : Nat → Nat → Nat → List UInt8) (skip skip' : Bool) (acts acts' : List Act)
    (d d' : Dec) (out out' missing : List UInt8) (e : run dw (.new skip) acts = .ok (d, out))
    (hv : d.verdict = .success) (hall : d.pending = []) (hm : missing ≠ []) (hcut : fed acts = fed acts' ++ missing)
    (e' : run dw' (.new skip') acts' = .ok (d', out')) : d'.verdict ≠ .success := by
  intro hv'
  obtain ⟨file, h1, h2⟩ := accepted_end dw dw' skip skip' acts acts' d d' out out' [] missing e hv e' hv'
    (by rw [List.append_nil]; exact hcut)
  rw [hall, List.append_nil] at h1
  rw [h1, h2, List.append_assoc] at hcut
  have := congrArg List.length hcut
  simp only [List.length_append] at this
  have hz := List.length_pos_iff.mpr hm
  omega

/-- C52: if a file is accepted to its last byte and offered with more bytes behind it, then a decompressor that
reports success has left exactly those. -/
theorem rest_untouched (dw dw' : Nat → Nat → Nat → List UInt8) (skip skip' : Bool) (acts acts' : List Act)
    (d d' : Dec) (out out' more : List UInt8) (e : run dw (.new skip) acts = .ok (d, out))
    (hv : d.verdict = .success) (hall : d.pending = []) (hmore : fed acts' = fed acts ++ more)
    (e' : run dw' (.new skip') acts' = .ok (d', out')) (hv' : d'.verdict = .success) : d'.pending = more := by
  obtain ⟨file, h1, h2⟩ := accepted_end dw dw' skip skip' acts acts' d d' out out' more [] e hv e' hv'
    (by rw [List.append_nil]; exact hmore.symm)
  rw [hall, List.append_nil] at h1
  rw [h2, h1] at hmore
  exact List.append_cancel_left hmore

/-! ### Damage -/

/-- Bit `i` of a file; the bits of a byte are counted from the lowest. -/
def bitAt (m : List UInt8) (i : Nat) : Bool := (m.getD (i / 8) 0).toNat.testBit (i % 8)

/-- All differences lie within 32 consecutive bits. -/
def Burst (m m' : List UInt8) : Prop := ∃ s, ∀ i, bitAt m i ≠ bitAt m' i → s ≤ i ∧ i < s + 32

theorem bitAt_word : ∀ (m : List UInt8) (i : Nat), (wordOf m).testBit i = bitAt m i := by
  intro m
  induction m with
  | nil => intro i; simp [wordOf, bitAt]
  | cons b m ih =>
    intro i
    rw [wordOf, Nat.testBit_xor, Nat.testBit_shiftLeft]
    rcases Nat.lt_or_ge i 8 with hi | hi
    · have h1 : i / 8 = 0 := by omega
      have h2 : i % 8 = i := by omega
      have h3 : ¬ 8 ≤ i := by omega
      simp [bitAt, h1, h2, h3]
    · have hb : b.toNat.testBit i = false :=
        Nat.testBit_lt_two_pow (lt_of_lt_of_le b.toNat_lt (Nat.pow_le_pow_right (by omega) hi))
      have h1 : i / 8 = (i - 8) / 8 + 1 := by omega
      have h2 : i % 8 = (i - 8) % 8 := by omega
      rw [hb, ih]
      simp [bitAt, h1, h2, hi]

/-- `n` single bits of zeros. -/
def bits : Nat → Nat → Nat
  | 0, x => x
  | n + 1, x => bits n (bitStep x)

theorem bits_add (m n x : Nat) : bits (m + n) x = bits n (bits m x) := by
  induction m generalizing x with
  | zero => rw [Nat.zero_add]; rfl
  | succ m ih => rw [Nat.succ_add, bits, ih]; rfl

theorem steps_bits (n x : Nat) : steps n x = bits (8 * n) x := by
  induction n generalizing x with
  | zero => rfl
  | succ n ih =>
    rw [steps, ih, Nat.mul_succ, Nat.add_comm, bits_add]
    rfl

theorem bits_shl (s e : Nat) : bits s (e <<< s) = e := by
  induction s with
  | zero => rfl
  | succ s ih =>
    rw [bits]
    have : e <<< (s + 1) = (e <<< s) <<< 1 := by rw [Nat.shiftLeft_add]
    rw [this, bitStep_even, ih]

theorem bits_inj (n x y : Nat) (hx : x < 2 ^ 32) (hy : y < 2 ^ 32) (h : bits n x = bits n y) : x = y := by
  induction n generalizing x y with
  | zero => exact h
  | succ n ih => exact bitStep_inj x y hx hy (ih _ _ (bitStep_lt x hx) (bitStep_lt y hy) h)

theorem bits_zero (n : Nat) : bits n 0 = 0 := by
  induction n with
  | zero => rfl
  | succ n ih => rw [bits, show bitStep 0 = 0 by decide, ih]

/-- A register that goes through two messages of the same length whose differences are a short burst ends in
different states. -/
theorem fold_burst (m m' : List UInt8) (c s e : Nat) (hlen : m.length = m'.length) (he : e < 2 ^ 32)
    (hx : wordOf m ^^^ wordOf m' = e <<< s) (h : m.foldl absorb c = m'.foldl absorb c) : m = m' := by
  rw [fold_window, fold_window, ← hlen] at h
  have h0 : steps m.length (e <<< s) = 0 := by
    have h1 : steps m.length (c ^^^ wordOf m) ^^^ steps m.length (c ^^^ wordOf m') = 0 := by
      rw [h, Nat.xor_self]
    rw [← steps_xor] at h1
    have h2 : c ^^^ wordOf m ^^^ (c ^^^ wordOf m') = e <<< s := by
      rw [← hx, Nat.xor_comm c (wordOf m), Nat.xor_assoc, ← Nat.xor_assoc c, Nat.xor_self, Nat.zero_xor]
    rw [h2] at h1
    exact h1
  have hz : e = 0 := by
    by_contra hne
    have hlt : e <<< s < 2 ^ (8 * m.length) := by
      rw [← hx]
      exact Nat.xor_lt_two_pow (wordOf_lt m _ rfl) (wordOf_lt m' _ hlen.symm)
    have hs : s ≤ 8 * m.length := by
      by_contra hgt
      have : 2 ^ (8 * m.length) ≤ 2 ^ s := Nat.pow_le_pow_right (by omega) (by omega)
      rw [Nat.shiftLeft_eq] at hlt
      have := Nat.le_mul_of_pos_left (2 ^ s) (Nat.pos_of_ne_zero hne)
      omega
    rw [steps_bits, ← Nat.add_sub_cancel' hs, bits_add, bits_shl] at h0
    exact hne (bits_inj _ _ _ he (by norm_num) (h0.trans (bits_zero _).symm))
  rw [hz, Nat.zero_shiftLeft] at hx
  refine wordOf_inj m m' hlen ?_
  have := congrArg (· ^^^ wordOf m') hx
  simpa [Nat.xor_assoc] using this

/-- The differences as one number. -/
theorem burst_word {m m' : List UInt8} (h : Burst m m') :
    ∃ s e, e < 2 ^ 32 ∧ wordOf m ^^^ wordOf m' = e <<< s := by
  obtain ⟨s, h⟩ := h
  have hb : ∀ i, (wordOf m ^^^ wordOf m').testBit i = true → s ≤ i ∧ i < s + 32 := by
    intro i hi
    apply h
    rw [← bitAt_word, ← bitAt_word]
    rw [Nat.testBit_xor] at hi
    intro heq
    rw [heq, Bool.xor_self] at hi
    cases hi
  refine ⟨s, (wordOf m ^^^ wordOf m') >>> s, ?_, ?_⟩
  · apply Nat.lt_pow_two_of_testBit
    intro i hi
    rw [Nat.testBit_shiftRight]
    by_contra hne
    have := hb (s + i) (by simpa using hne)
    omega
  · apply Nat.eq_of_testBit_eq
    intro i
    rw [Nat.testBit_shiftLeft, Nat.testBit_shiftRight]
    by_cases hi : s ≤ i
    · simp [hi]
    · simp only [hi, decide_false, Bool.false_and]
      by_contra hne
      have := hb i (by simpa using hne)
      omega

theorem wordOf_append (a b : List UInt8) : wordOf (a ++ b) = wordOf a ^^^ (wordOf b <<< (8 * a.length)) := by
  induction a with
  | nil => simp [wordOf]
  | cons x a ih =>
    rw [List.cons_append, wordOf, wordOf, ih, Nat.shiftLeft_xor_distrib, Nat.xor_assoc, List.length_cons,
      ← Nat.shiftLeft_add, Nat.mul_succ]

/-- C22 for bursts: two messages of the same length whose differences lie within 32 consecutive bits have different
checksums. -/
theorem crc_detects_burst (m m' : List UInt8) (hlen : m.length = m'.length) (hb : Burst m m') (hne : m ≠ m') :
    update init m ≠ update init m' := by
  intro h
  rw [crc_correct, crc_correct] at h
  obtain ⟨s, e, he, hx⟩ := burst_word hb
  exact hne (fold_burst m m' _ s e hlen he hx (xor_cancel _ _ _ h))

/-- The checksum behind its message brings the register to a fixed state. -/
theorem residue (m : List UInt8) :
    (m ++ (trailer (crc32c m)).take 4).foldl absorb 0xffffffff = steps 4 0xffffffff := by
  rw [List.foldl_append, fold_window]
  have hlt : crc32c m < 2 ^ 32 := Nat.xor_lt_two_pow (foldl_absorb_lt _ _ (by norm_num)) (by norm_num)
  have hw : wordOf ((trailer (crc32c m)).take 4) = crc32c m := by
    generalize crc32c m = c at hlt
    apply Nat.eq_of_testBit_eq
    intro i
    rw [bitAt_word]
    have hb : ∀ k j, j < 8 → (UInt8.ofNat (c / 2 ^ k % 256)).toNat.testBit j = c.testBit (k + j) := by
      intro k j hj
      rw [UInt8.toNat_ofNat', show c / 2 ^ k % 256 % 2 ^ 8 = c / 2 ^ k % 2 ^ 8 by omega, Nat.testBit_mod_two_pow]
      simp only [hj, decide_true, Bool.true_and]
      rw [← Nat.shiftRight_eq_div_pow, Nat.testBit_shiftRight]
    have h0 := hb 0
    rw [Nat.pow_zero, Nat.div_one] at h0
    have hcase : i / 8 = 0 ∨ i / 8 = 1 ∨ i / 8 = 2 ∨ i / 8 = 3 ∨ 4 ≤ i / 8 := by omega
    unfold bitAt trailer
    simp only [List.take_succ_cons, List.take_zero]
    rcases hcase with h | h | h | h | h
    · rw [h]
      show (UInt8.ofNat (c % 256)).toNat.testBit (i % 8) = _
      rw [h0 _ (Nat.mod_lt _ (by omega))]; congr 1; omega
    · rw [h]
      show (UInt8.ofNat (c / 2 ^ 8 % 256)).toNat.testBit (i % 8) = _
      rw [hb _ _ (Nat.mod_lt _ (by omega))]; congr 1; omega
    · rw [h]
      show (UInt8.ofNat (c / 2 ^ 16 % 256)).toNat.testBit (i % 8) = _
      rw [hb _ _ (Nat.mod_lt _ (by omega))]; congr 1; omega
    · rw [h]
      show (UInt8.ofNat (c / 2 ^ 24 % 256)).toNat.testBit (i % 8) = _
      rw [hb _ _ (Nat.mod_lt _ (by omega))]; congr 1; omega
    · rw [List.getD_eq_default _ _ (by simpa using h)]
      rw [Nat.testBit_lt_two_pow (lt_of_lt_of_le hlt (Nat.pow_le_pow_right (by omega) (by omega)))]
      simp
  rw [hw]
  unfold crc32c
  rw [← Nat.xor_assoc, Nat.xor_self, Nat.zero_xor]
  rfl

/-- **C53.**  A decompressor that checks checksums has accepted a file to its last byte.  Then no other file of the
same length, whose differences from it lie within 32 consecutive bits, is accepted to its last byte, however it is
offered. -/
theorem damage_detected (dw dw' : Nat → Nat → Nat → List UInt8) (acts acts' : List Act) (d d' : Dec)
    (out out' : List UInt8) (e : run dw (.new false) acts = .ok (d, out)) (hv : d.verdict = .success)
    (hall : d.pending = []) (hlen : (fed acts').length = (fed acts).length) (hb : Burst (fed acts) (fed acts'))
    (hne : fed acts' ≠ fed acts) (e' : run dw' (.new false) acts' = .ok (d', out')) :
    ¬(d'.verdict = .success ∧ d'.pending = []) := by
  rintro ⟨hv', hall'⟩
  obtain ⟨h, w, body, sum, s, -, -, -, hf, hl, hc⟩ := success_means_checked dw false acts d out e hv
  obtain ⟨h', w', body', sum', s', -, -, -, hf', hl', hc'⟩ := success_means_checked dw' false acts' d' out' e' hv'
  rw [hall, List.append_nil] at hf
  rw [hall', List.append_nil] at hf'
  have hs : sum = (trailer (crc32c (h ++ body))).take 4 := by
    have := List.append_cancel_left (hc rfl)
    have := congrArg (List.take 4) this
    rw [← this, List.take_left' hl]
  have hs' : sum' = (trailer (crc32c (h' ++ body'))).take 4 := by
    have := List.append_cancel_left (hc' rfl)
    have := congrArg (List.take 4) this
    rw [← this, List.take_left' hl']
  have hn : (h ++ body ++ sum).length = (h' ++ body' ++ sum').length := by
    rw [hf, hf'] at hlen
    simp only [List.length_append] at hlen ⊢
    omega
  obtain ⟨p, q, hq, hx⟩ := burst_word hb
  have hx' : wordOf (h ++ body ++ sum) ^^^ wordOf (h' ++ body' ++ sum') = q <<< p := by
    rw [← hx, hf, hf', ← List.append_assoc, ← List.append_assoc (h' ++ body'), wordOf_append (h ++ body ++ sum),
      wordOf_append (h' ++ body' ++ sum'), hn]
    generalize wordOf [0x61, 0x6e, 0x73, 0x7e] <<< (8 * (h' ++ body' ++ sum').length) = t
    generalize wordOf (h ++ body ++ sum) = a
    generalize wordOf (h' ++ body' ++ sum') = b
    rw [Nat.xor_assoc, Nat.xor_comm b t, ← Nat.xor_assoc t, Nat.xor_self, Nat.zero_xor]
  have heq := fold_burst _ _ 0xffffffff p q hn hq hx' (by
    rw [hs, hs', residue, residue])
  apply hne
  rw [hf, hf', ← List.append_assoc, ← List.append_assoc, heq]

/-- A concrete case for all of these: a file with every kind of command is accepted to its last byte. -/
theorem demo_accepted : ∃ acts d, run Pipe.demoWords (.new false) acts = .ok (d, Pipe.original Pipe.demoWords Pipe.demoItems) ∧
    d.verdict = .success ∧ d.pending = [] ∧ (fed acts).length ≥ 24 := by
  have hw : 2 ^ (Frame.windowOf (some 3)).toNat = 1024 := by decide +kernel
  obtain ⟨f0, tc, tl, -, ⟨oc, hc⟩, ⟨ol, hl⟩, h⟩ := whole_file Codec.demoOpts Pipe.demoWords (some 3) 7 (by omega)
    Pipe.demoItems (by rw [hw]; exact Pipe.demoItems_valid)
    (by simp [Pipe.demoItems, Pipe.Item.ringCmd, Recode.InHistory, Recode.Cmd.size, Pipe.demoWords])
  obtain ⟨ops, c, file, h1, h2, h3, h4, h5⟩ := file_exists (Frame.windowOf (some 3)) oc ol
  obtain ⟨n, hn⟩ := (h oc ol hc hl ops c file h1 h2 h3 h4 h5 false [] [.more file]).2 (by simp [fed])
  obtain ⟨d, e, hv, hp⟩ := hn (List.replicate n 1) (by simp) (fun k hk => by rw [List.eq_of_mem_replicate hk]; omega)
  refine ⟨_, d, e, hv, hp, ?_⟩
  obtain ⟨hd, w, body, sum, s, hg, -, -, hf, hl, -⟩ := success_means_checked _ _ _ _ _ e hv
  rw [hf]
  simp only [List.length_append, hg.1, hl, List.length_cons, List.length_nil]
  omega

/-- Files that differ in one bit, in four bytes, and in 32 bits that begin inside a byte. -/
example : Burst [1, 2, 3] [1, 6, 3] ∧ Burst [9, 1, 2, 3, 4] [9, 255, 254, 253, 252] ∧
    ¬ Burst [1, 0, 0, 0, 0] [0, 0, 0, 0, 1] := by
  refine ⟨⟨8, fun i => ?_⟩, ⟨8, fun i => ?_⟩, fun ⟨s, h⟩ => ?_⟩
  · rcases Nat.lt_or_ge i 24 with hi | hi
    · revert i; decide
    · intro h
      simp [bitAt, List.getD, List.getElem?_eq_none (show [_, _, _].length ≤ i / 8 by simp; omega)] at h
  · rcases Nat.lt_or_ge i 40 with hi | hi
    · revert i; decide
    · intro h
      simp [bitAt, List.getD, List.getElem?_eq_none (show [_, _, _, _, _].length ≤ i / 8 by simp; omega)] at h
  · have a := h 0 (by decide)
    have b := h 32 (by decide)
    omega

end Divans.Damage
