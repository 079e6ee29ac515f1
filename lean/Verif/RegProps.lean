import Verif.Reg

/-
C31: the register queue is a FIFO of at most eight bytes, as long as it is not emptied of all eight at
once; that case is wrong in both builds.
-/
namespace Divans.Reg

/-- What a caller can do. -/
inductive Op where
  /-- offer these bytes -/
  | push (bs : List UInt8)
  /-- ask for so many bytes -/
  | pop (n : Nat)
deriving Repr, DecidableEq

/-- What a caller sees. -/
inductive Seen where
  /-- so many bytes were taken -/
  | took (n : Nat)
  /-- these bytes were returned -/
  | got (bs : List UInt8)
deriving Repr, DecidableEq

/-- Specification: a list of bytes; a push appends as much as fits into eight, a pop takes from the
front. -/
def spec (q : List UInt8) : Op → List UInt8 × Seen
  | .push bs => (q ++ bs.take (8 - q.length), .took (Nat.min (8 - q.length) bs.length))
  | .pop n => (q.drop n, .got (q.take n))

/-- The specification over a sequence of operations: what the caller sees. -/
def specRun (q : List UInt8) : List Op → List Seen
  | [] => []
  | op :: ops => (spec q op).2 :: specRun (spec q op).1 ops

/-- One operation of the queue; `none` is a panic. -/
def step (debug : Bool) (r : Q) : Op → Option (Q × Seen)
  | .push bs => some ((push r bs).1, .took (push r bs).2)
  | .pop n => (pop debug r n).map fun x => (x.1, .got x.2)

/-- The queue over a sequence of operations: what the caller sees. -/
def run (debug : Bool) (r : Q) : List Op → Option (List Seen)
  | [] => some []
  | op :: ops =>
    match step debug r op with
    | none => none
    | some (r', s) => (run debug r' ops).map (s :: ·)

/-- No pop of the sequence takes eight bytes at once. -/
def NeverEight (q : List UInt8) : List Op → Prop
  | [] => True
  | op :: ops => (∀ n, op = .pop n → q.length < 8 ∨ n < 8) ∧ NeverEight (spec q op).1 ops

/-- Little-endian value. -/
def val : List UInt8 → Nat
  | [] => 0
  | b :: bs => b.toNat + 256 * val bs

theorem val_lt (q : List UInt8) : val q < 2 ^ (8 * q.length) := by
  induction q with
  | nil => simp [val]
  | cons b bs ih =>
    have := b.toNat_lt
    simp only [val, List.length_cons]
    have h : 2 ^ (8 * (bs.length + 1)) = 256 * 2 ^ (8 * bs.length) := by
      rw [show 8 * (bs.length + 1) = 8 + 8 * bs.length by omega, Nat.pow_add]
    omega

theorem val_append (p q : List UInt8) : val (p ++ q) = val p + 2 ^ (8 * p.length) * val q := by
  induction p with
  | nil => simp [val]
  | cons b bs ih =>
    simp only [List.cons_append, val, ih, List.length_cons]
    have h : 2 ^ (8 * (bs.length + 1)) = 256 * 2 ^ (8 * bs.length) := by
      rw [show 8 * (bs.length + 1) = 8 + 8 * bs.length by omega, Nat.pow_add]
    rw [h, Nat.mul_add, Nat.mul_assoc, Nat.add_assoc]

theorem orBytes_val (q bs : List UInt8) (h : q.length + bs.length ≤ 8) :
    orBytes (val q) (8 * q.length) bs = val (q ++ bs) := by
  induction bs generalizing q with
  | nil => simp [orBytes]
  | cons b bs ih =>
    simp only [List.length_cons] at h
    have e : val q ||| (b.toNat <<< (8 * q.length)) = val (q ++ [b]) := by
      rw [Nat.or_comm, Nat.shiftLeft_eq, Nat.mul_comm, ← Nat.two_pow_add_eq_or_of_lt (val_lt q),
        val_append]
      simp only [val, Nat.mul_zero, Nat.add_zero]
      omega
    have hl : val (q ++ [b]) < 2 ^ 64 := by
      refine Nat.lt_of_lt_of_le (val_lt _) (Nat.pow_le_pow_right (by omega) ?_)
      simp; omega
    rw [orBytes, e, Nat.mod_eq_of_lt hl]
    have := ih (q ++ [b]) (by simp; omega)
    rw [List.length_append, List.length_singleton] at this
    rw [show 8 * q.length + 8 = 8 * (q.length + 1) by omega, this]
    simp

theorem bytes_val (q : List UInt8) (n : Nat) : bytes (val q) n
    = q.take n ++ List.replicate (n - q.length) 0 := by
  induction n generalizing q with
  | zero => simp [bytes]
  | succ n ih =>
    cases q with
    | nil =>
      have := ih []
      simp only [val] at this ⊢
      rw [bytes, show (0 >>> 8) = 0 by rfl, this]
      simp [List.replicate_succ]
    | cons b bs =>
      have hb := b.toNat_lt
      have e1 : val (b :: bs) &&& 0xff = b.toNat := by
        have : (0xff : Nat) = 2 ^ 8 - 1 := by decide
        rw [this, Nat.and_two_pow_sub_one_eq_mod, val]; omega
      have e2 : val (b :: bs) >>> 8 = val bs := by
        rw [Nat.shiftRight_eq_div_pow, val]; omega
      rw [bytes, e1, e2, ih bs, UInt8.ofNat_toNat]
      simp

theorem val_shift (q : List UInt8) (n : Nat) : val q >>> (8 * n) = val (q.drop n) := by
  induction n generalizing q with
  | zero => simp
  | succ n ih =>
    cases q with
    | nil => simp [val]
    | cons b bs =>
      have hb := b.toNat_lt
      have e2 : val (b :: bs) >>> 8 = val bs := by
        rw [Nat.shiftRight_eq_div_pow, val]; omega
      rw [show 8 * (n + 1) = 8 + 8 * n by omega, Nat.shiftRight_add, e2, ih]
      simp

/-- The register holds these bytes. -/
def Holds (r : Q) (q : List UInt8) : Prop := r.data = val q ∧ r.count = q.length ∧ q.length ≤ 8

theorem step_spec {debug : Bool} {r : Q} {q : List UInt8} (h : Holds r q) {op : Op}
    (hop : ∀ n, op = .pop n → q.length < 8 ∨ n < 8) :
    ∃ r', step debug r op = some (r', (spec q op).2) ∧ Holds r' (spec q op).1 := by
  obtain ⟨d, c⟩ := r
  obtain ⟨h1, h2, h3⟩ := h
  simp only at h1 h2
  subst h1 h2
  cases op with
  | push bs =>
    have hm : Nat.min (8 - q.length) bs.length = min (8 - q.length) bs.length := rfl
    have e : bs.take (min (8 - q.length) bs.length) = bs.take (8 - q.length) := by
      rw [Nat.min_comm, ← List.take_take, List.take_of_length_le (by simp; omega)]
    refine ⟨_, rfl, ?_, ?_, ?_⟩
    · simp only [push, spec]
      rw [Nat.shiftLeft_eq, Nat.mul_comm, hm, e, orBytes_val]
      simp; omega
    · simp only [push, spec, List.length_append, List.length_take, hm]
    · simp only [spec, List.length_append, List.length_take]
      omega
  | pop n =>
    have hn := hop n rfl
    have hm : Nat.min q.length n = min q.length n := rfl
    have hs : min q.length n <<< 3 = 8 * min q.length n := by
      rw [Nat.shiftLeft_eq, Nat.mul_comm]
    have hd : q.drop (min q.length n) = q.drop n := by
      rcases Nat.le_total q.length n with h | h
      · rw [Nat.min_eq_left h, List.drop_of_length_le h, List.drop_of_length_le (Nat.le_refl _)]
      · rw [Nat.min_eq_right h]
    have ht : (q.take 8 ++ List.replicate (8 - q.length) 0).take (min q.length n) = q.take n := by
      rw [List.take_of_length_le h3, List.take_append_of_le_length (Nat.min_le_left ..)]
      rcases Nat.le_total q.length n with h | h
      · rw [Nat.min_eq_left h, List.take_of_length_le h, List.take_of_length_le (Nat.le_refl _)]
      · rw [Nat.min_eq_right h]
    have hp : pop debug ⟨val q, q.length⟩ n
        = some (⟨val (q.drop n), q.length - min q.length n⟩, q.take n) := by
      unfold pop
      simp only [hm, hs]
      rw [if_neg (by simp only [Bool.and_eq_true, decide_eq_true_eq]; omega), bytes_val, ht,
        Nat.mod_eq_of_lt (by omega), val_shift, hd]
    refine ⟨⟨val (q.drop n), q.length - min q.length n⟩, ?_, rfl, ?_, ?_⟩
    · simp only [step, hp, spec, Option.map_some]
    · simp only [spec, List.length_drop]; omega
    · simp only [spec, List.length_drop]; omega

theorem run_spec {debug : Bool} {r : Q} {q : List UInt8} (h : Holds r q) {ops : List Op}
    (hops : NeverEight q ops) : run debug r ops = some (specRun q ops) := by
  induction ops generalizing r q with
  | nil => rfl
  | cons op ops ih =>
    obtain ⟨r', hs, hr⟩ := step_spec (debug := debug) h hops.1
    rw [run, hs]
    simp only [ih hr hops.2, Option.map_some, specRun]

/-- **C31, the part that holds.** For every sequence of pushes and pops of any sizes in which no single
pop empties the queue of eight bytes, in every build: no panic, and the caller sees exactly what it
would see from a list of at most eight bytes, appended to at the end and taken from the front.
Missing: pops of eight bytes, for which it is false, see `pop_eight_panics` and
`pop_eight_corrupts`. -/
theorem register_fifo_partial (debug : Bool) (ops : List Op) (h : NeverEight [] ops) :
    run debug new ops = some (specRun [] ops) :=
  run_spec ⟨rfl, rfl, by simp⟩ h

/-- The same as one statement about the bytes: with a FIFO of this kind the bytes returned are a prefix
of the bytes taken, so nothing is lost, duplicated or reordered. -/
theorem spec_is_fifo (q : List UInt8) (ops : List Op) :
    ∃ rest, (q ++ (ops.zip (specRun q ops)).flatMap fun
        | (.push bs, .took n) => bs.take n
        | _ => [])
      = ((specRun q ops).flatMap fun
        | .got bs => bs
        | _ => []) ++ rest := by
  induction ops generalizing q with
  | nil => exact ⟨q, by simp [specRun]⟩
  | cons op ops ih =>
    obtain ⟨rest, h⟩ := ih (spec q op).1
    refine ⟨rest, ?_⟩
    cases op with
    | push bs =>
      simp only [specRun, List.zip_cons_cons, List.flatMap_cons, spec] at h ⊢
      rw [List.nil_append, ← h, List.append_assoc]
      congr 2
      rw [show Nat.min (8 - q.length) bs.length = min (8 - q.length) bs.length from rfl,
        Nat.min_comm, ← List.take_take]
      rcases Nat.le_total bs.length (8 - q.length) with h' | h'
      · rw [List.take_of_length_le h', List.take_of_length_le (Nat.le_refl _)]
      · rw [List.take_take, Nat.min_eq_right h']
    | pop n =>
      simp only [specRun, List.zip_cons_cons, List.flatMap_cons, spec] at h ⊢
      rw [List.nil_append, List.append_assoc, ← h, ← List.append_assoc, List.take_append_drop]

/-- In a build with overflow checks, emptying a full queue in one call panics, whatever it holds. -/
theorem pop_eight_panics (bs : List UInt8) (h : bs.length = 8) (n : Nat) (hn : 8 ≤ n) :
    run true new [.push bs, .pop n] = none := by
  simp only [run, step, push, new]
  have h1 : Nat.min (8 - 0) bs.length = 8 := by rw [h]; rfl
  have h2 : Nat.min 8 n = 8 := Nat.min_eq_left hn
  rw [h1]
  simp only [pop]
  rw [show 0 + 8 = 8 from rfl, h2, if_pos (by decide)]
  rfl

/-- In a build without them, the register keeps its contents although the queue is empty, and the next
byte pushed comes out mixed with the first of the eight. -/
theorem pop_eight_corrupts (bs : List UInt8) (h : bs.length = 8) (c : UInt8) :
    run false new [.push bs, .pop 8, .push [c], .pop 1]
      = some [.took 8, .got bs, .took 1, .got [bs[0]'(by omega) ||| c]] := by
  have hb : orBytes 0 0 bs = val bs := by simpa [val] using orBytes_val [] bs (by simp [h])
  have hp : push new bs = (⟨val bs, 8⟩, 8) := by
    simp only [push, new]
    rw [show Nat.min (8 - 0) bs.length = 8 by rw [h]; rfl, List.take_of_length_le (by omega)]
    rw [show (0 <<< 3) = 0 from rfl, hb]
  have hq : pop false ⟨val bs, 8⟩ 8 = some (⟨val bs, 0⟩, bs) := by
    simp only [pop, Bool.false_and]
    rw [if_neg (by simp), show Nat.min 8 8 = 8 from rfl, show (8 <<< 3) % 64 = 0 from rfl,
      bytes_val, h, List.take_of_length_le (l := bs) (by omega), Nat.shiftRight_zero]
    simp only [Nat.sub_self, List.replicate_zero, List.append_nil]
    rw [List.take_of_length_le (by omega)]
  obtain ⟨b, bs', rfl⟩ : ∃ b bs', bs = b :: bs' := by
    cases bs with
    | nil => simp at h
    | cons b bs' => exact ⟨b, bs', rfl⟩
  have hlt : (val (b :: bs') ||| c.toNat <<< 0) < 2 ^ 64 := by
    refine Nat.or_lt_two_pow ?_ ?_
    · have := val_lt (b :: bs')
      rw [h] at this
      exact this
    · have := c.toNat_lt
      rw [Nat.shiftLeft_zero]
      omega
  simp only [run, step, hp, hq, Option.map_some]
  simp only [push]
  rw [show Nat.min (8 - 0) [c].length = 1 from rfl]
  simp only [List.take_succ_cons, List.take_zero, orBytes]
  rw [show (0 <<< 3) = 0 from rfl, Nat.mod_eq_of_lt hlt]
  simp only [pop, Bool.false_and]
  rw [if_neg (by simp), show Nat.min (0 + 1) 1 = 1 from rfl, Nat.shiftLeft_zero]
  simp only [bytes, List.take_succ_cons, List.take_zero, Option.map_some, List.getElem_cons_zero]
  congr 7
  apply UInt8.toNat_inj.mp
  have hb := b.toNat_lt
  have hc := c.toNat_lt
  have e : (0xff : Nat) = 2 ^ 8 - 1 := by decide
  rw [e, Nat.and_two_pow_sub_one_eq_mod, UInt8.toNat_ofNat', UInt8.toNat_or, Nat.mod_mod,
    Nat.or_mod_two_pow, val, Nat.add_mul_mod_self_left, Nat.mod_eq_of_lt hb, Nat.mod_eq_of_lt hc]

/-- The full claim is false in both builds. -/
theorem register_not_fifo (debug : Bool) :
    ∃ ops, run debug new ops ≠ some (specRun [] ops) := by
  cases debug
  · exact ⟨[.push [1, 2, 3, 4, 5, 6, 7, 8], .pop 8, .push [16], .pop 1], by decide +kernel⟩
  · exact ⟨[.push [1, 2, 3, 4, 5, 6, 7, 8], .pop 8], by decide +kernel⟩

/-- A sequence the partial theorem covers: wrap-around, a refused byte, and an empty pop. -/
example : NeverEight [] [.push [1, 2, 3, 4, 5], .pop 3, .push [6, 7, 8, 9, 10, 11, 12, 13], .pop 7,
    .pop 4, .pop 4] := by
  simp [NeverEight, spec]

end Divans.Reg
