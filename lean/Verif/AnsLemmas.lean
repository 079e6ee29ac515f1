import Verif.Ans
import Mathlib.Tactic.Ring
import Mathlib.Tactic.Linarith
/-! Lemmas about the ANS model: byte packing, input splitting, step inversion. -/
namespace Divans.Ans

/-- Little-endian value of a byte list. -/
def leVal : List UInt8 → Nat
  | [] => 0
  | d :: ds => d.toNat + 256 * leVal ds

theorem leVal_lt (ds : List UInt8) : leVal ds < 2 ^ (8 * ds.length) := by
  induction ds with
  | nil => simp [leVal]
  | cons d ds ih =>
    simp only [leVal, List.length_cons]
    have := d.toNat_lt
    rw [show 8 * (ds.length + 1) = 8 * ds.length + 8 by ring, pow_add]
    omega

theorem leVal_append (x y : List UInt8) : leVal (x ++ y) = leVal x + 2 ^ (8 * x.length) * leVal y := by
  induction x with
  | nil => simp [leVal]
  | cons d ds ih =>
    simp only [List.cons_append, leVal, ih, List.length_cons]
    rw [show 8 * (ds.length + 1) = 8 * ds.length + 8 by ring, pow_add]
    ring

theorem leBytes_length (n s : Nat) : (leBytes n s).length = n := by
  induction n generalizing s with
  | zero => rfl
  | succ n ih => simp [leBytes, ih]

theorem leVal_leBytes (n s : Nat) : leVal (leBytes n s) = s % 2 ^ (8 * n) := by
  induction n generalizing s with
  | zero => simp [leBytes, leVal, Nat.mod_one]
  | succ n ih =>
    simp only [leBytes, leVal, ih]
    have h1 : s &&& 0xff = s % 2 ^ 8 := Nat.and_two_pow_sub_one_eq_mod s 8
    rw [h1, UInt8.toNat_ofNat', Nat.mod_mod, Nat.shiftRight_eq_div_pow,
      show 8 * (n + 1) = 8 + 8 * n by ring, pow_add, Nat.mod_mul]
    norm_num

theorem orBytes_append (acc sh : Nat) (x y : List UInt8) :
    orBytes acc sh (x ++ y) = orBytes (orBytes acc sh x) (sh + 8 * x.length) y := by
  induction x generalizing acc sh with
  | nil => simp [orBytes]
  | cons d ds ih =>
    simp only [List.cons_append, orBytes, ih, List.length_cons]
    congr 1
    ring

theorem orBytes_or (acc acc' sh : Nat) (x : List UInt8) :
    orBytes (acc ||| acc') sh x = acc ||| orBytes acc' sh x := by
  induction x generalizing acc' sh with
  | nil => rfl
  | cons d ds ih => simp only [orBytes, Nat.or_assoc, ih]

theorem or_shift_eq_add (x y n : Nat) (h : x < 2 ^ n) : x ||| (y <<< n) = x + y * 2 ^ n := by
  rw [Nat.or_comm, ← Nat.shiftLeft_add_eq_or_of_lt h, Nat.shiftLeft_eq, Nat.add_comm]

theorem orBytes_zero (sh : Nat) (x : List UInt8) : orBytes 0 sh x = leVal x * 2 ^ sh := by
  induction x generalizing sh with
  | nil => simp [orBytes, leVal]
  | cons d ds ih =>
    rw [orBytes, Nat.zero_or]
    conv_lhs => rw [show d.toNat <<< sh = (d.toNat <<< sh) ||| 0 by simp]
    rw [orBytes_or, ih, leVal]
    rw [Nat.pow_add, ← Nat.mul_assoc, ← Nat.shiftLeft_eq (leVal ds * 2^sh),
      show (leVal ds * 2^sh) <<< 8 = (leVal ds * 2 ^ 8) <<< sh by
        simp only [Nat.shiftLeft_eq]; ring]
    rw [← Nat.shiftLeft_or_distrib, ← Nat.shiftLeft_eq, or_shift_eq_add _ _ 8 d.toNat_lt,
      Nat.shiftLeft_eq]
    ring

/-- Or-ing bytes above `acc`. -/
theorem orBytes_high (acc sh : Nat) (x : List UInt8) (h : acc < 2 ^ sh) :
    orBytes acc sh x = acc + leVal x * 2 ^ sh := by
  have := orBytes_or acc 0 sh x
  rw [Nat.or_zero] at this
  rw [this, orBytes_zero, ← Nat.shiftLeft_eq, or_shift_eq_add _ _ _ h, ← Nat.shiftLeft_eq]

/-- Or-ing four bytes below a value shifted by 32. -/
theorem orBytes_low (a : Nat) (x : List UInt8) (hx : x.length = 4) (h : a < 2 ^ 32) :
    orBytes ((a <<< 32) % 2 ^ 64) 0 x = a * 2 ^ 32 + leVal x := by
  have h1 : (a <<< 32) % 2 ^ 64 = a <<< 32 := by
    apply Nat.mod_eq_of_lt; rw [Nat.shiftLeft_eq]; omega
  have := orBytes_or (a <<< 32) 0 0 x
  rw [Nat.or_zero] at this
  have hl := leVal_lt x
  rw [hx] at hl
  rw [h1, this, orBytes_zero, Nat.pow_zero, Nat.mul_one, Nat.or_comm,
    or_shift_eq_add _ _ _ (by simpa using hl)]
  omega

/-! ### Input splitting -/

/-- The values `buffer_a_bytes_required` takes. -/
def Dec.Good (d : Dec) : Prop :=
  d.reqA ≤ 4 ∨ d.reqA = 8 ∨ d.reqA = 9 ∨ (16 ≤ d.reqA ∧ d.reqA < 32)

theorem pushData_count (d : Dec) (data : List UInt8) (h : d.Good) :
    (d.pushData data).2 = min data.length d.numPushAvail := by
  unfold Dec.Good at h
  unfold Dec.pushData Dec.pushRare Dec.pushReallyRare Dec.numPushAvail
  repeat' split
  all_goals simp_all
  all_goals omega

theorem pushData_reqA (d : Dec) (data : List UInt8) (h : d.Good) :
    (d.pushData data).1.reqA =
      if d.numPushAvail ≤ data.length then 0
      else (if d.reqA = 8 ∨ d.reqA = 9 then 16 else d.reqA) + data.length := by
  unfold Dec.Good at h
  unfold Dec.pushData Dec.pushRare Dec.pushReallyRare Dec.numPushAvail
  dsimp only
  split_ifs <;> dsimp only at * <;> omega

theorem pushData_good (d : Dec) (data : List UInt8) (h : d.Good) : (d.pushData data).1.Good := by
  have := pushData_reqA d data h
  unfold Dec.Good at *
  unfold Dec.numPushAvail at this
  split_ifs at this <;> omega

theorem pushData_avail (d : Dec) (data : List UInt8) (h : d.Good) :
    (d.pushData data).1.numPushAvail = d.numPushAvail - data.length := by
  have h1 := pushData_reqA d data h
  unfold Dec.Good at h
  generalize (d.pushData data).1 = e at *
  unfold Dec.numPushAvail at *
  split_ifs at h1 <;> split_ifs <;> omega

/-- The reset that a full reload performs first. -/
def Dec.reset (d : Dec) : Dec :=
  if d.reqA < 16 ∧ 4 < d.reqA then { d with symCount := 0, a := 0, b := 0, reqA := 16 } else d

/-- The fast paths of `push_data` agree with the byte-wise path. -/
theorem pushData_slow (d : Dec) (data : List UInt8) (h0 : d.reqA ≠ 0) :
    d.pushData data = d.reset.pushReallyRare data := by
  unfold Dec.pushData
  rw [if_neg h0]
  split_ifs with h1
  · obtain ⟨h1, h4⟩ := h1
    have hne : data ≠ [] := by rintro rfl; simp at h4
    simp [Dec.reset, Dec.pushReallyRare, h1, hne, Nat.min_eq_right h4]
  · unfold Dec.pushRare Dec.reset
    split_ifs with h2 h3 <;> try rfl
    simp [Dec.pushReallyRare, Nat.min_eq_right h3, List.take_take, List.drop_take]

theorem pushReallyRare_split4 (d : Dec) (x y : List UInt8) (h : 1 ≤ d.reqA) (h4 : d.reqA ≤ 4)
    (hx : x.length < 5 - d.reqA) :
    ((d.pushReallyRare x).1.pushReallyRare y).1 = (d.pushReallyRare (x ++ y)).1 := by
  by_cases hxe : x = []
  · subst hxe
    have : (d.pushReallyRare []).1 = d := by
      simp only [Dec.pushReallyRare, if_pos h4]
      simp [orBytes]
      rw [if_neg (by omega)]
    rw [this]; simp
  have hl : x.length ≠ 0 := by simpa using hxe
  have e1 : (d.pushReallyRare x).1 =
      { d with a := orBytes (if d.reqA = 1 then (d.a <<< 32) % 2 ^ 64 else d.a)
                      ((d.reqA - 1) <<< 3) x, reqA := d.reqA + x.length } := by
    simp only [Dec.pushReallyRare, if_pos h4]
    rw [Nat.min_eq_left (by omega)]
    simp [hxe]
    omega
  rw [e1]
  simp only [Dec.pushReallyRare, if_pos h4]
  rw [if_pos (by omega)]
  have hmin : min (x ++ y).length (5 - d.reqA) = x.length + min y.length (5 - (d.reqA + x.length)) := by
    simp only [List.length_append]; omega
  rw [hmin, List.take_length_add_append, orBytes_append]
  rw [if_neg (by omega)]
  have e2 : ((d.reqA + x.length - 1) <<< 3) = (d.reqA - 1) <<< 3 + 8 * x.length := by
    simp only [Nat.shiftLeft_eq]; omega
  rw [e2, show d.reqA + x.length + min y.length (5 - (d.reqA + x.length)) =
    d.reqA + (x.length + min y.length (5 - (d.reqA + x.length))) by omega]
  simp [hxe]

theorem pushReallyRare_16 (d : Dec) (data : List UInt8) (h : 16 ≤ d.reqA) :
    (d.pushReallyRare data).1 =
      { d with
        a := orBytes d.a ((d.reqA - 16) <<< 3)
          ((data.take (min data.length (32 - d.reqA))).take (8 - (d.reqA - 16)))
        b := orBytes d.b ((max (d.reqA - 16) 8 - 8) <<< 3)
          ((data.take (min data.length (32 - d.reqA))).drop (8 - (d.reqA - 16)))
        reqA := if d.reqA + min data.length (32 - d.reqA) = 32 then 0
          else d.reqA + min data.length (32 - d.reqA) } := by
  simp only [Dec.pushReallyRare]
  rw [if_neg (by omega)]

theorem pushReallyRare_split16 (d : Dec) (x y : List UInt8) (h : 16 ≤ d.reqA)
    (hx : x.length < 32 - d.reqA) :
    ((d.pushReallyRare x).1.pushReallyRare y).1 = (d.pushReallyRare (x ++ y)).1 := by
  have e1 : (d.pushReallyRare x).1 =
      { d with a := orBytes d.a ((d.reqA - 16) <<< 3) (x.take (8 - (d.reqA - 16))),
               b := orBytes d.b ((max (d.reqA - 16) 8 - 8) <<< 3) (x.drop (8 - (d.reqA - 16))),
               reqA := d.reqA + x.length } := by
    rw [pushReallyRare_16 d x h, Nat.min_eq_left (by omega), List.take_length, if_neg (by omega)]
  rw [e1, pushReallyRare_16 _ _ (by dsimp only; omega), pushReallyRare_16 d (x ++ y) h]
  dsimp only
  have hmin : min (x ++ y).length (32 - d.reqA) = x.length + min y.length (32 - (d.reqA + x.length)) := by
    simp only [List.length_append]; omega
  rw [hmin, List.take_length_add_append]
  generalize List.take (min y.length (32 - (d.reqA + x.length))) y = z
  generalize hm : min y.length (32 - (d.reqA + x.length)) = m
  rw [List.take_append, List.drop_append, orBytes_append, orBytes_append]
  rw [show 8 - (d.reqA - 16) - x.length = 8 - (d.reqA + x.length - 16) by omega]
  congr 1
  · by_cases hc : x.length ≤ 8 - (d.reqA - 16)
    · congr 1
      simp only [Nat.shiftLeft_eq, List.length_take]; omega
    · rw [show 8 - (d.reqA + x.length - 16) = 0 by omega]
      simp [orBytes]
  · by_cases hc : x.length ≤ 8 - (d.reqA - 16)
    · congr 1
      simp only [Nat.shiftLeft_eq, List.length_drop]; omega
    · congr 1
      simp only [Nat.shiftLeft_eq, List.length_drop]; omega
  · split_ifs <;> omega

/-- Offering `x` and then `y` is the same as offering `x ++ y`. -/
theorem pushData_split (d : Dec) (x y : List UInt8) (h : d.Good) :
    ((d.pushData x).1.pushData y).1 = (d.pushData (x ++ y)).1 := by
  by_cases h0 : d.reqA = 0
  · simp [Dec.pushData, h0]
  have hg := pushData_good d x h
  have hr := pushData_reqA d x h
  have hrs : d.reset.reqA = if d.reqA = 8 ∨ d.reqA = 9 then 16 else d.reqA := by
    unfold Dec.Good at h; unfold Dec.reset; split_ifs with h1 h2 h2 <;> first | rfl | omega
  by_cases hfull : d.numPushAvail ≤ x.length
  · -- the first piece was enough
    rw [if_pos hfull] at hr
    have : ((d.pushData x).1.pushData y) = ((d.pushData x).1, 0) := by
      generalize (d.pushData x).1 = e at *
      simp [Dec.pushData, hr]
    rw [this]
    rw [pushData_slow d x h0, pushData_slow d (x ++ y) h0]
    unfold Dec.numPushAvail at hfull
    unfold Dec.Good at h
    by_cases h4 : d.reqA ≤ 4
    · have hd : d.reset = d := by unfold Dec.reset; rw [if_neg (by omega)]
      have hf : 5 - d.reqA ≤ x.length := by split_ifs at hfull <;> omega
      rw [hd]
      simp only [Dec.pushReallyRare, if_pos h4, List.length_append]
      rw [Nat.min_eq_right hf, Nat.min_eq_right (by omega), List.take_append_of_le_length hf]
      have hxe : x ≠ [] := by rintro rfl; simp at hf; omega
      simp [hxe]
    · have hf : 32 - d.reset.reqA ≤ x.length := by rw [hrs]; split_ifs at * <;> omega
      have hn4 : ¬ d.reset.reqA ≤ 4 := by rw [hrs]; split_ifs <;> omega
      generalize d.reset = e at *
      simp only [Dec.pushReallyRare, if_neg hn4, List.length_append]
      rw [Nat.min_eq_right hf, Nat.min_eq_right (by omega), List.take_append_of_le_length hf]
  · rw [if_neg hfull] at hr
    rw [pushData_slow _ y (by unfold Dec.Good at h; split_ifs at hr <;> omega)]
    rw [pushData_slow d x h0, pushData_slow d (x ++ y) h0]
    have hrr : (d.reset.pushReallyRare x).1.reset = (d.reset.pushReallyRare x).1 := by
      rw [← pushData_slow d x h0]
      generalize (d.pushData x).1 = e at *
      unfold Dec.reset
      rw [if_neg]
      unfold Dec.numPushAvail at hfull
      unfold Dec.Good at h
      split_ifs at * <;> omega
    rw [hrr]
    unfold Dec.numPushAvail at hfull
    unfold Dec.Good at h
    by_cases h4 : d.reqA ≤ 4
    · apply pushReallyRare_split4 <;> rw [hrs] <;> split_ifs at * <;> omega
    · apply pushReallyRare_split16 <;> rw [hrs] <;> split_ifs at * <;> omega


theorem pushData_full (d : Dec) (x y : List UInt8) (h : d.Good) (hx : d.numPushAvail ≤ x.length) :
    (d.pushData (x ++ y)).1 = (d.pushData x).1 := by
  rw [← pushData_split d x y h]
  have hr := pushData_reqA d x h
  rw [if_pos hx] at hr
  generalize (d.pushData x).1 = e at *
  simp [Dec.pushData, hr]

/-- Filling from pieces only depends on the concatenation of the pieces. -/
theorem fill_spec (d : Dec) (cur : List UInt8) (more : List (List UInt8)) (h : d.Good) :
    (d.numPushAvail ≤ (cur ++ more.flatten).length →
      ∃ cur' more', d.fill cur more = some ((d.pushData (cur ++ more.flatten)).1, cur', more') ∧
        cur' ++ more'.flatten = (cur ++ more.flatten).drop d.numPushAvail) ∧
    ((cur ++ more.flatten).length < d.numPushAvail → d.fill cur more = none) := by
  induction more generalizing d cur with
  | nil =>
    rw [Dec.fill]
    have hc := pushData_count d cur h
    have ha := pushData_avail d cur h
    simp only [List.flatten_nil, List.append_nil]
    generalize hp : d.pushData cur = r at *
    obtain ⟨d', n⟩ := r
    dsimp only at *
    constructor
    · intro hle
      rw [if_pos (by omega)]
      refine ⟨_, _, rfl, ?_⟩
      simp [hc, Nat.min_eq_right hle]
    · intro hlt
      rw [if_neg (by omega)]
  | cons p ps ih =>
    rw [Dec.fill]
    have hc := pushData_count d cur h
    have ha := pushData_avail d cur h
    have hg := pushData_good d cur h
    have hsp := pushData_split d cur (p ++ ps.flatten) h
    simp only [List.flatten_cons]
    by_cases hle : d.numPushAvail ≤ cur.length
    · have hfull := pushData_full d cur (p ++ ps.flatten) h hle
      generalize hp : d.pushData cur = r at *
      obtain ⟨d', n⟩ := r
      dsimp only at *
      constructor
      · intro _
        rw [if_pos (by omega)]
        refine ⟨_, _, by rw [hfull], ?_⟩
        rw [List.drop_append_of_le_length hle]
        simp [hc, Nat.min_eq_right hle]
      · intro hlt
        simp at hlt; omega
    · generalize hp : d.pushData cur = r at *
      obtain ⟨d', n⟩ := r
      dsimp only at *
      rw [if_neg (by omega)]
      have hn : cur.drop n = [] := by
        apply List.drop_eq_nil_of_le; omega
      rw [hn, List.nil_append]
      obtain ⟨h1, h2⟩ := ih d' p hg
      rw [← hsp]
      constructor
      · intro hl
        obtain ⟨c', m', e1, e2⟩ := h1 (by simp only [List.length_append] at *; omega)
        refine ⟨c', m', e1, ?_⟩
        rw [e2, ha, List.drop_append (l₁ := cur),
          List.drop_eq_nil_of_le (by omega : cur.length ≤ d.numPushAvail), List.nil_append]
      · intro hl
        exact h2 (by simp only [List.length_append] at *; omega)

/-! ### Step inversion -/

/-- A slot the coder accepts: non-empty and inside `[0, 2^15)`, with `freq` a positive `i16`. -/
def Slot.Valid (sl : Slot) : Prop := 1 ≤ sl.freq ∧ sl.freq < 2 ^ 15 ∧ sl.start + sl.freq ≤ 2 ^ 15

/-- Bytes emitted and remaining state when the state is too large for the slot. -/
def renorm (a : Nat) (sl : Slot) : List UInt8 × Nat :=
  if a ≥ 2 ^ 48 * sl.freq then (leBytes 4 a, a / 2 ^ 32) else ([], a)

/-- The state after coding `sl` on top of `s`. -/
def push (s : Nat) (sl : Slot) : Nat := (s / sl.freq) * 2 ^ 15 + s % sl.freq + sl.start

/-- The pure encoder (no stack limit) on symbols given oldest first: `(state_a, state_b, bytes)`. -/
def encF : List Slot → Nat × Nat × List UInt8
  | [] => (normInterval, normInterval, [])
  | sl :: r =>
    ((encF r).2.1, push (renorm (encF r).1 sl).2 sl, (renorm (encF r).1 sl).1 ++ (encF r).2.2)

theorem rescaleLim_eq (f : Nat) (h : f < 2 ^ 15) :
    (((normInterval >>> log2Scale) <<< 32) * f) % 2 ^ 64 = 2 ^ 48 * f := by
  have : ((normInterval >>> log2Scale) <<< 32) * f = 2 ^ 48 * f := by
    simp [normInterval, log2Scale, Nat.shiftRight_eq_div_pow, Nat.shiftLeft_eq]
  rw [this]; omega

def StateOk (s : Nat) : Prop := 2 ^ 31 ≤ s ∧ s < 2 ^ 63

theorem renorm_bounds (a : Nat) (sl : Slot) (ha : StateOk a) (hv : sl.Valid) :
    2 ^ 16 * sl.freq ≤ (renorm a sl).2 ∧ (renorm a sl).2 < 2 ^ 48 * sl.freq ∧
    ((renorm a sl).2 < 2 ^ 31 ↔ a ≥ 2 ^ 48 * sl.freq) := by
  obtain ⟨h1, h2⟩ := ha
  obtain ⟨h3, h4, h5⟩ := hv
  unfold renorm
  split_ifs with h <;> dsimp only <;> refine ⟨?_, ?_, ?_⟩ <;> omega

theorem push_ok (s : Nat) (sl : Slot) (hv : sl.Valid) (h1 : 2 ^ 16 * sl.freq ≤ s)
    (h2 : s < 2 ^ 48 * sl.freq) : StateOk (push s sl) := by
  obtain ⟨h3, h4, h5⟩ := hv
  have hm := Nat.mod_lt s (show 0 < sl.freq by omega)
  have hd1 : 2 ^ 16 ≤ s / sl.freq := (Nat.le_div_iff_mul_le (by omega)).2 h1
  have hd2 : s / sl.freq < 2 ^ 48 := Nat.div_lt_of_lt_mul (by rwa [Nat.mul_comm] at h2)
  unfold StateOk push
  omega

theorem encF_ok (sls : List Slot) (hv : ∀ sl ∈ sls, sl.Valid) :
    StateOk (encF sls).1 ∧ StateOk (encF sls).2.1 := by
  induction sls with
  | nil => simp [encF, StateOk, normInterval]
  | cons sl r ih =>
    obtain ⟨ha, hb⟩ := ih (fun s hs => hv s (List.mem_cons_of_mem _ hs))
    have hsl := hv sl List.mem_cons_self
    obtain ⟨h1, h2, -⟩ := renorm_bounds _ sl ha hsl
    exact ⟨hb, push_ok _ _ hsl h1 h2⟩

/-- Decoding a pushed state: offset and remaining state. -/
theorem push_offset (s : Nat) (sl : Slot) (hv : sl.Valid) (hs : s < 2 ^ 48 * sl.freq) :
    push s sl &&& (2 ^ log2Scale - 1) = sl.start + s % sl.freq ∧
    (sl.freq * (push s sl >>> log2Scale) + (push s sl &&& (2 ^ log2Scale - 1)) +
      (2 ^ 64 - sl.start)) % 2 ^ 64 = s := by
  obtain ⟨h3, h4, h5⟩ := hv
  have hm := Nat.mod_lt s (show 0 < sl.freq by omega)
  have e1 : push s sl = 2 ^ 15 * (s / sl.freq) + (sl.start + s % sl.freq) := by unfold push; ring
  have e2 : push s sl % 2 ^ 15 = sl.start + s % sl.freq := by
    rw [e1, Nat.mul_add_mod, Nat.mod_eq_of_lt (by omega)]
  have e3 : push s sl / 2 ^ 15 = s / sl.freq := by
    rw [e1, Nat.mul_add_div (by norm_num), Nat.div_eq_of_lt (by omega : sl.start + s % sl.freq < 2^15)]
    omega
  rw [log2Scale, Nat.and_two_pow_sub_one_eq_mod, Nat.shiftRight_eq_div_pow, e2, e3]
  refine ⟨rfl, ?_⟩
  have := Nat.div_add_mod s sl.freq
  omega

end Divans.Ans
