import Verif.AnsLemmas
import Mathlib.Tactic.NormNum

/-!
Proof of the ANS round trip: the decoder, fed the bytes of the pure encoder, recovers the symbols.
-/
namespace Divans.Ans

/-! ### Encoder: the code's loop equals the pure encoder, and its byte count -/

theorem reversePutAll_append (st : Nat × Nat × List UInt8) (x y : List Slot) :
    reversePutAll st (x ++ y) = (reversePutAll st x).bind fun st' => reversePutAll st' y := by
  induction x generalizing st with
  | nil => simp [reversePutAll]
  | cons s x ih =>
    simp only [List.cons_append, reversePutAll]
    cases reversePutSym st s with
    | none => rfl
    | some st' => simpa using ih st'

theorem reversePutSym_eq (a b : Nat) (q : List UInt8) (sl : Slot) (ha : StateOk a)
    (hv : sl.Valid) (hq : ((renorm a sl).1 ++ q).length ≤ maxBufferSize) :
    reversePutSym (a, b, q) sl = some (b, push (renorm a sl).2 sl, (renorm a sl).1 ++ q) := by
  obtain ⟨h1, h2, -⟩ := renorm_bounds a sl ha hv
  have hok := (push_ok _ sl hv h1 h2).2
  unfold reversePutSym renorm at *
  simp only [rescaleLim_eq _ hv.2.1]
  rw [if_neg (show ¬ sl.freq = 0 by have := hv.1; omega)]
  split_ifs with h
  · simp only [if_pos h] at hq
    simp only [stackData]
    rw [if_pos (by rw [List.length_append] at hq; omega)]
    rw [if_pos h] at hok
    simp only [push] at hok
    simp only [push, Nat.shiftLeft_eq, Nat.shiftRight_eq_div_pow, log2Scale, Option.map_some]
    rw [Nat.mod_eq_of_lt (by omega)]
  · rw [if_neg h] at hok
    simp only [push] at hok
    simp only [push, Nat.shiftLeft_eq, log2Scale, List.nil_append]
    rw [Nat.mod_eq_of_lt (by omega)]

theorem reversePutAll_eq (sls : List Slot) (hv : ∀ sl ∈ sls, sl.Valid)
    (hq : (encF sls).2.2.length ≤ maxBufferSize) :
    reversePutAll (normInterval, normInterval, []) sls.reverse = some (encF sls) := by
  induction sls with
  | nil => rfl
  | cons sl r ih =>
    have hq' : (encF r).2.2.length ≤ maxBufferSize := by
      simp only [encF, List.length_append] at hq; omega
    have hr : ∀ s ∈ r, s.Valid := fun s hs => hv s (List.mem_cons_of_mem _ hs)
    rw [List.reverse_cons, reversePutAll_append, ih hr hq']
    simp only [Option.bind_some, reversePutAll]
    have := reversePutSym_eq (encF r).1 (encF r).2.1 (encF r).2.2 sl (encF_ok r hr).1
      (hv sl List.mem_cons_self) (by simpa [encF] using hq)
    rw [show encF r = ((encF r).1, (encF r).2.1, (encF r).2.2) from rfl, this]
    rfl

theorem push_le (s : Nat) (sl : Slot) (hv : sl.Valid) (h1 : 2 ^ 16 * sl.freq ≤ s) :
    push s sl ≤ 2 ^ 16 * s := by
  obtain ⟨h3, h4, h5⟩ := hv
  have hm := Nat.mod_lt s (show 0 < sl.freq by omega)
  have hd : s / sl.freq ≤ s := Nat.div_le_self _ _
  unfold push
  omega

theorem renorm_len (a : Nat) (sl : Slot) :
    (renorm a sl).2 * 2 ^ (8 * (renorm a sl).1.length) ≤ a := by
  unfold renorm
  split_ifs
  · simp only [leBytes_length]
    exact Nat.div_mul_le_self a (2 ^ 32)
  · simp

theorem encF_potential (sls : List Slot) (hv : ∀ sl ∈ sls, sl.Valid) :
    (encF sls).1 * (encF sls).2.1 * 2 ^ (8 * (encF sls).2.2.length) ≤ 2 ^ (62 + 16 * sls.length) := by
  induction sls with
  | nil => simp [encF, normInterval]
  | cons sl r ih =>
    have hr : ∀ s ∈ r, s.Valid := fun s hs => hv s (List.mem_cons_of_mem _ hs)
    have hsl := hv sl List.mem_cons_self
    have ih := ih hr
    obtain ⟨ha, hb⟩ := encF_ok r hr
    obtain ⟨h1, h2, -⟩ := renorm_bounds _ sl ha hsl
    have hp := push_le _ sl hsl h1
    have hl := renorm_len (encF r).1 sl
    simp only [encF, List.length_append, List.length_cons]
    generalize encF r = st at *
    obtain ⟨a, b, q⟩ := st
    dsimp only at *
    generalize renorm a sl = rn at *
    obtain ⟨bs, s⟩ := rn
    dsimp only at *
    calc b * push s sl * 2 ^ (8 * (bs.length + q.length))
        ≤ b * (2 ^ 16 * s) * 2 ^ (8 * (bs.length + q.length)) := by gcongr
      _ = 2 ^ 16 * ((s * 2 ^ (8 * bs.length)) * b * 2 ^ (8 * q.length)) := by ring
      _ ≤ 2 ^ 16 * (a * b * 2 ^ (8 * q.length)) := by gcongr
      _ ≤ 2 ^ 16 * 2 ^ (62 + 16 * r.length) := by gcongr
      _ = 2 ^ (62 + 16 * (r.length + 1)) := by ring

/-- At most two bytes per symbol. -/
theorem encF_bytes (sls : List Slot) (hv : ∀ sl ∈ sls, sl.Valid) :
    (encF sls).2.2.length ≤ 2 * sls.length := by
  have h := encF_potential sls hv
  obtain ⟨⟨ha, -⟩, ⟨hb, -⟩⟩ := encF_ok sls hv
  generalize encF sls = st at *
  obtain ⟨a, b, q⟩ := st
  dsimp only at *
  have h2 : 2 ^ (62 + 8 * q.length) ≤ 2 ^ (62 + 16 * sls.length) := by
    refine le_trans ?_ h
    calc 2 ^ (62 + 8 * q.length) = 2 ^ 31 * 2 ^ 31 * 2 ^ (8 * q.length) := by ring
      _ ≤ a * b * 2 ^ (8 * q.length) := by gcongr
  have := (Nat.pow_le_pow_iff_right (by norm_num : 1 < 2)).1 h2
  omega

/-- The bytes of one chunk. -/
def chunkBytes (sls : List Slot) : List UInt8 :=
  leBytes 8 (encF sls).2.1 ++ leBytes 8 (encF sls).1 ++ (encF sls).2.2

theorem chunkBytes_length (sls : List Slot) :
    (chunkBytes sls).length = 16 + (encF sls).2.2.length := by
  simp [chunkBytes, leBytes_length]; omega

/-- The bytes of a whole stream, chunk after chunk. -/
def streamBytes (sls : List Slot) : List UInt8 :=
  if _h : sls = [] then []
  else chunkBytes (sls.take symbolsPerChunk) ++ streamBytes (sls.drop symbolsPerChunk)
termination_by sls.length
decreasing_by
  have := List.length_pos_iff.2 _h
  simp [symbolsPerChunk, maxBufferSize]; omega

theorem flushChunk_eq (sls : List Slot) (hv : ∀ sl ∈ sls, sl.Valid)
    (hl : sls.length ≤ symbolsPerChunk) :
    (⟨[], sls.reverse⟩ : Enc).flushChunk = some ⟨if sls = [] then [] else chunkBytes sls, []⟩ := by
  unfold Enc.flushChunk
  have hb := encF_bytes sls hv
  have hc : symbolsPerChunk = 65536 := rfl
  have hm : maxBufferSize = 262144 := rfl
  by_cases h : sls = []
  · simp [h]
  · rw [if_neg (by simpa using h), reversePutAll_eq sls hv (by omega)]
    rw [if_neg h, chunkBytes]
    generalize encF sls = st at *
    obtain ⟨a, b, q⟩ := st
    simp only [Option.bind_some, stackData, List.length_append, leBytes_length]
    rw [if_pos (by dsimp only at hb; omega)]
    simp

/-! ### Decoder -/

/-- The state word `v` stands for the coder state `x`, of which `bytes` still have to arrive. -/
def Pend (req v x : Nat) (bytes : List UInt8) : Prop :=
  (req = 0 ∧ v = x ∧ bytes = []) ∨ (req = 1 ∧ v = x / 2 ^ 32 ∧ bytes = leBytes 4 x ∧ 2 ^ 48 ≤ x)

/-- Decoder about to decode `rest` of a chunk, next word already complete. -/
def FInv (d : Dec) (rest : List Slot) (inp tail : List UInt8) : Prop :=
  d.reqA = 0 ∧ d.a = (encF rest).2.1 ∧
  ∃ pb, Pend d.reqB d.b (encF rest).1 pb ∧ inp = pb ++ (encF rest).2.2 ++ tail

/-- Decoder inside a chunk, with `rest` still to decode. -/
def CInv (d : Dec) (rest : List Slot) (inp tail : List UInt8) : Prop :=
  ∃ pa pb, Pend d.reqA d.a (encF rest).2.1 pa ∧ Pend d.reqB d.b (encF rest).1 pb ∧
    inp = pa ++ pb ++ (encF rest).2.2 ++ tail

/-- Decoder at a chunk boundary. -/
def Dec.AtStart (d : Dec) : Prop := d.reqA = 8 ∧ d.reqB = 0

theorem fill_mid (d : Dec) (rest : List Slot) (cur : List UInt8) (more : List (List UInt8))
    (tail : List UInt8) (hv : ∀ sl ∈ rest, sl.Valid)
    (h : CInv d rest (cur ++ more.flatten) tail) :
    ∃ d' cur' more', d.fill cur more = some (d', cur', more') ∧ d'.symCount = d.symCount ∧
      FInv d' rest (cur' ++ more'.flatten) tail := by
  obtain ⟨pa, pb, hA, hB, hin⟩ := h
  obtain ⟨-, hok⟩ := encF_ok rest hv
  have hb63 := hok.2
  rcases hA with ⟨h0, ha, rfl⟩ | ⟨h1, ha, rfl, hx⟩
  · have hg : d.Good := by simp [Dec.Good, h0]
    have hav : d.numPushAvail = 0 := by simp [Dec.numPushAvail, h0]
    obtain ⟨cur', more', he, hr⟩ := (fill_spec d cur more hg).1 (by omega)
    refine ⟨_, _, _, he, ?_, ?_⟩
    · simp [Dec.pushData, h0]
    · rw [hr, hav, hin]
      simp only [Dec.pushData, h0]
      exact ⟨h0, ha, pb, hB, by simp⟩
  · have hg : d.Good := by simp [Dec.Good, h1]
    have hav : d.numPushAvail = 4 := by simp [Dec.numPushAvail, h1]
    have hlen : 4 ≤ (cur ++ more.flatten).length := by
      rw [hin]; simp [leBytes_length]
    obtain ⟨cur', more', he, hr⟩ := (fill_spec d cur more hg).1 (by omega)
    have hpush : (d.pushData (cur ++ more.flatten)).1 =
        { d with a := (encF rest).2.1, reqA := 0 } := by
      unfold Dec.pushData
      rw [if_neg (by omega), if_pos ⟨h1, hlen⟩]
      have ht : (cur ++ more.flatten).take 4 = leBytes 4 (encF rest).2.1 := by
        rw [hin]
        simp only [List.append_assoc]
        rw [List.take_append_of_le_length (by simp [leBytes_length]),
          List.take_of_length_le (by simp [leBytes_length])]
      rw [ht, ha]
      have : (encF rest).2.1 / 2 ^ 32 < 2 ^ 32 := by omega
      rw [orBytes_low _ _ (leBytes_length _ _) this, leVal_leBytes]
      rw [show (encF rest).2.1 / 2 ^ 32 * 2 ^ 32 + (encF rest).2.1 % 2 ^ (8 * 4) = (encF rest).2.1 by
        omega]
    refine ⟨_, _, _, he, ?_, ?_⟩
    · rw [hpush]
    · rw [hpush, hr, hav, hin]
      refine ⟨rfl, rfl, pb, hB, ?_⟩
      simp only [List.append_assoc]
      rw [List.drop_append_of_le_length (by simp [leBytes_length]),
        List.drop_of_length_le (by simp [leBytes_length]), List.nil_append]

theorem leVal_leBytes8 (x : Nat) (h : StateOk x) : leVal (leBytes 8 x) = x := by
  rw [leVal_leBytes]; exact Nat.mod_eq_of_lt (by have := h.2; omega)

theorem fill_start (d : Dec) (rest : List Slot) (cur : List UInt8) (more : List (List UInt8))
    (tail : List UInt8) (hv : ∀ sl ∈ rest, sl.Valid) (hd : d.AtStart)
    (h : cur ++ more.flatten = chunkBytes rest ++ tail) :
    ∃ d' cur' more', d.fill cur more = some (d', cur', more') ∧ d'.symCount = 0 ∧
      FInv d' rest (cur' ++ more'.flatten) tail := by
  obtain ⟨h8, h0⟩ := hd
  obtain ⟨hoa, hob⟩ := encF_ok rest hv
  have hg : d.Good := by simp [Dec.Good, h8]
  have hav : d.numPushAvail = 16 := by simp [Dec.numPushAvail, h8]
  have hlen : 16 ≤ (cur ++ more.flatten).length := by
    rw [h, List.length_append, chunkBytes_length]; omega
  obtain ⟨cur', more', he, hr⟩ := (fill_spec d cur more hg).1 (by omega)
  have hpush : (d.pushData (cur ++ more.flatten)).1 =
      ⟨(encF rest).2.1, (encF rest).1, 0, 0, 0⟩ := by
    unfold Dec.pushData Dec.pushRare
    rw [if_neg (by omega), if_neg (by omega), if_pos (by omega), if_pos hlen]
    have h1 : (cur ++ more.flatten).take 8 = leBytes 8 (encF rest).2.1 := by
      rw [h, chunkBytes]
      simp only [List.append_assoc]
      rw [List.take_append_of_le_length (by simp [leBytes_length]),
        List.take_of_length_le (by simp [leBytes_length])]
    have h2 : ((cur ++ more.flatten).drop 8).take 8 = leBytes 8 (encF rest).1 := by
      rw [h, chunkBytes]
      simp only [List.append_assoc]
      rw [List.drop_append_of_le_length (by simp [leBytes_length]),
        List.drop_of_length_le (by simp [leBytes_length]), List.nil_append,
        List.take_append_of_le_length (by simp [leBytes_length]),
        List.take_of_length_le (by simp [leBytes_length])]
    rw [h1, h2, orBytes_zero, orBytes_zero, leVal_leBytes8 _ hoa, leVal_leBytes8 _ hob]
    simp [h0]
  refine ⟨_, _, _, he, ?_, ?_⟩
  · rw [hpush]
  · rw [hpush, hr, hav, h]
    refine ⟨rfl, rfl, [], Or.inl ⟨rfl, rfl, rfl⟩, ?_⟩
    have hl16 : (leBytes 8 (encF rest).2.1 ++ leBytes 8 (encF rest).1).length = 16 := by
      simp [leBytes_length]
    rw [chunkBytes, List.append_assoc _ (encF rest).2.2, List.drop_append_of_le_length (by omega),
      List.drop_of_length_le (by omega)]
    rfl

/-- One symbol is decoded. -/
theorem advance_spec (d : Dec) (sl : Slot) (r : List Slot) (inp tail : List UInt8)
    (hv : ∀ s ∈ sl :: r, s.Valid) (h : FInv d (sl :: r) inp tail) :
    (sl.start ≤ d.offset ∧ d.offset < sl.start + sl.freq) ∧
    (d.symCount ≠ symbolsPerChunk - 1 → CInv (d.advance sl) r inp tail) ∧
    (d.symCount = symbolsPerChunk - 1 → r = [] → (d.advance sl).AtStart ∧ inp = tail) := by
  obtain ⟨h0, ha, pb, hB, hin⟩ := h
  have hr : ∀ s ∈ r, s.Valid := fun s hs => hv s (List.mem_cons_of_mem _ hs)
  have hsl := hv sl List.mem_cons_self
  obtain ⟨hoa, hob⟩ := encF_ok r hr
  obtain ⟨hb1, hb2, hb3⟩ := renorm_bounds _ sl hoa hsl
  obtain ⟨ho, hs⟩ := push_offset (renorm (encF r).1 sl).2 sl hsl hb2
  have hm := Nat.mod_lt (renorm (encF r).1 sl).2 (show 0 < sl.freq from hsl.1)
  have ha' : d.a = push (renorm (encF r).1 sl).2 sl := ha
  have hx : (sl.freq * (d.a >>> log2Scale) + (d.a &&& (2 ^ log2Scale - 1)) +
      (2 ^ 64 - sl.start)) % 2 ^ 64 = (renorm (encF r).1 sl).2 := by rw [ha', hs]
  have hPB : Pend (if (renorm (encF r).1 sl).2 < normInterval then 1 else 0)
      (renorm (encF r).1 sl).2 (encF r).1 (renorm (encF r).1 sl).1 := by
    have hN : normInterval = 2 ^ 31 := rfl
    rw [hN]
    by_cases hc : (encF r).1 ≥ 2 ^ 48 * sl.freq
    · rw [if_pos (hb3.2 hc)]
      refine Or.inr ⟨rfl, ?_, ?_, ?_⟩
      · rw [renorm, if_pos hc]
      · rw [renorm, if_pos hc]
      · have := hsl.1; omega
    · rw [if_neg (fun hlt => hc (hb3.1 hlt))]
      refine Or.inl ⟨rfl, ?_, ?_⟩ <;> rw [renorm, if_neg hc]
  refine ⟨?_, ?_, ?_⟩
  · rw [Dec.offset, ha', ho]; omega
  · intro hne
    refine ⟨pb, (renorm (encF r).1 sl).1, ?_, ?_, ?_⟩
    · simpa [Dec.advance, hne, encF] using hB
    · simpa only [Dec.advance, hx] using hPB
    · rw [hin]; simp [encF]
  · intro heq hnil
    subst hnil
    have hN : (encF []).1 = 2 ^ 31 := rfl
    have hB0 : d.reqB = 0 ∧ pb = [] := by
      rcases hB with ⟨h, -, h'⟩ | ⟨-, -, -, h⟩
      · exact ⟨h, h'⟩
      · simp [encF, normInterval] at h
    have hR : renorm (encF []).1 sl = ([], 2 ^ 31) := by
      have := hsl.1
      rw [renorm, if_neg (by omega), hN]
    refine ⟨⟨?_, ?_⟩, ?_⟩
    · simp [Dec.advance, heq, hB0.1]
    · simp only [Dec.advance, hx, hR, normInterval]; simp
    · rw [hin, hB0.2]
      simp only [encF] at hR ⊢
      rw [hR]; simp

/-- The slots of the symbols `syms` coded after the symbols `hist`. -/
def slotsFrom {σ : Type} (slot : List σ → σ → Slot) : List σ → List σ → List Slot
  | _, [] => []
  | hist, s :: t => slot hist s :: slotsFrom slot (hist ++ [s]) t

theorem slotsFrom_valid {σ : Type} (slot : List σ → σ → Slot) (l : List σ) (hs : List σ)
    (hh : ∀ pre s post, l = pre ++ s :: post → (slot (hs ++ pre) s).Valid) :
    ∀ x ∈ slotsFrom slot hs l, x.Valid := by
  induction l generalizing hs with
  | nil => intro x hx; simp [slotsFrom] at hx
  | cons a l ihl =>
    intro x hx
    rcases List.mem_cons.1 hx with rfl | hx
    · simpa using hh [] a l rfl
    · refine ihl (hs ++ [a]) (fun pre b post e => ?_) x hx
      have := hh (a :: pre) b post (by simp [e])
      simpa using this

/-- Decoder between two symbols, in any position of the stream. -/
def SInv (d : Dec) (sls : List Slot) (inp tail : List UInt8) : Prop :=
  (d.AtStart ∧ inp = streamBytes sls ++ tail) ∨
  (d.symCount < symbolsPerChunk ∧
    CInv d (sls.take (symbolsPerChunk - d.symCount)) inp
      (streamBytes (sls.drop (symbolsPerChunk - d.symCount)) ++ tail))

theorem SInv_end (d : Dec) (inp tail : List UInt8) (h : SInv d [] inp tail) : inp = tail := by
  rcases h with ⟨-, h⟩ | ⟨-, pa, pb, hA, hB, h⟩
  · simpa [streamBytes] using h
  · have e1 : pa = [] := by
      rcases hA with ⟨-, -, h⟩ | ⟨-, -, -, h⟩
      · exact h
      · simp [encF, normInterval] at h
    have e2 : pb = [] := by
      rcases hB with ⟨-, -, h⟩ | ⟨-, -, -, h⟩
      · exact h
      · simp [encF, normInterval] at h
    rw [h, e1, e2]; simp [encF, streamBytes]

theorem SInv_step (d : Dec) (sl : Slot) (r : List Slot) (cur : List UInt8)
    (more : List (List UInt8)) (tail : List UInt8) (hv : ∀ s ∈ sl :: r, s.Valid)
    (h : SInv d (sl :: r) (cur ++ more.flatten) tail) :
    ∃ d' cur' more', d.fill cur more = some (d', cur', more') ∧
      (sl.start ≤ d'.offset ∧ d'.offset < sl.start + sl.freq) ∧
      SInv (d'.advance sl) r (cur' ++ more'.flatten) tail := by
  have hC : symbolsPerChunk = 65536 := rfl
  -- a filled state inside a chunk
  have key : ∃ d' cur' more', d.fill cur more = some (d', cur', more') ∧
      d'.symCount < symbolsPerChunk ∧
      FInv d' ((sl :: r).take (symbolsPerChunk - d'.symCount)) (cur' ++ more'.flatten)
        (streamBytes ((sl :: r).drop (symbolsPerChunk - d'.symCount)) ++ tail) := by
    rcases h with ⟨hs, hin⟩ | ⟨hk, hc⟩
    · rw [streamBytes, dif_neg (by simp), List.append_assoc] at hin
      obtain ⟨d', c', m', e1, e2, e3⟩ := fill_start d _ cur more _
        (fun s hs => hv s (List.mem_of_mem_take hs)) hs hin
      refine ⟨d', c', m', e1, by omega, ?_⟩
      rw [e2]; exact e3
    · obtain ⟨d', c', m', e1, e2, e3⟩ := fill_mid d _ cur more _
        (fun s hs => hv s (List.mem_of_mem_take hs)) hc
      refine ⟨d', c', m', e1, by omega, ?_⟩
      rw [e2]; exact e3
  obtain ⟨d', c', m', e1, hk, hF⟩ := key
  refine ⟨d', c', m', e1, ?_⟩
  obtain ⟨j, hj⟩ : ∃ j, symbolsPerChunk - d'.symCount = j + 1 := ⟨symbolsPerChunk - d'.symCount - 1, by omega⟩
  rw [hj, List.take_succ_cons, List.drop_succ_cons] at hF
  have hv' : ∀ s ∈ sl :: r.take j, s.Valid := by
    intro s hs
    apply hv
    rcases List.mem_cons.1 hs with rfl | h
    · exact List.mem_cons_self
    · exact List.mem_cons_of_mem _ (List.mem_of_mem_take h)
  obtain ⟨ho, h1, h2⟩ := advance_spec d' sl _ _ _ hv' hF
  refine ⟨ho, ?_⟩
  by_cases hlast : d'.symCount = symbolsPerChunk - 1
  · have : j = 0 := by omega
    subst this
    obtain ⟨hs, hin⟩ := h2 hlast (by simp)
    exact Or.inl ⟨hs, by simpa using hin⟩
  · have hcnt : (d'.advance sl).symCount = d'.symCount + 1 := by
      simp only [Dec.advance]; omega
    refine Or.inr ⟨by omega, ?_⟩
    rw [hcnt, show symbolsPerChunk - (d'.symCount + 1) = j by omega]
    exact h1 hlast

/-- Decoding all symbols. -/
theorem decode_spec {σ : Type} (slot : List σ → σ → Slot) (lookup : List σ → Nat → σ × Slot)
    (syms : List σ) (hist : List σ) (d : Dec) (cur : List UInt8) (more : List (List UInt8))
    (tail : List UInt8)
    (hv : ∀ pre s post, syms = pre ++ s :: post → (slot (hist ++ pre) s).Valid)
    (hl : ∀ pre s post, syms = pre ++ s :: post → ∀ off, (slot (hist ++ pre) s).start ≤ off →
      off < (slot (hist ++ pre) s).start + (slot (hist ++ pre) s).freq →
      lookup (hist ++ pre) off = (s, slot (hist ++ pre) s))
    (h : SInv d (slotsFrom slot hist syms) (cur ++ more.flatten) tail) :
    ∃ d' cur' more', Dec.decode lookup syms.length hist d cur more =
      some (hist ++ syms, d', cur', more') ∧ cur' ++ more'.flatten = tail := by
  induction syms generalizing hist d cur more with
  | nil => exact ⟨d, cur, more, by simp [Dec.decode], SInv_end _ _ _ h⟩
  | cons s t ih =>
    have hall : ∀ x ∈ slot hist s :: slotsFrom slot (hist ++ [s]) t, x.Valid :=
      slotsFrom_valid slot (s :: t) hist hv
    obtain ⟨d', c', m', e1, ⟨o1, o2⟩, e3⟩ := SInv_step d (slot hist s) _ cur more tail hall h
    have hlk := hl [] s t rfl d'.offset (by simpa using o1) (by simpa using o2)
    rw [List.append_nil] at hlk
    obtain ⟨d'', c'', m'', f1, f2⟩ := ih (hist ++ [s]) (d'.advance (slot hist s)) c' m'
      (fun pre b post e => by
        have := hv (s :: pre) b post (by simp [e]); simpa using this)
      (fun pre b post e off => by
        have := hl (s :: pre) b post (by simp [e]) off; simpa using this) e3
    refine ⟨d'', c'', m'', ?_, f2⟩
    rw [List.length_cons, Dec.decode, e1]
    simp only [hlk]
    rw [f1]; simp

/-! ### The encoder driven by any sequence of operations -/

/-- The symbols put by a sequence of operations. -/
def putsOf : List EncOp → List Slot
  | [] => []
  | .put sl :: ops => sl :: putsOf ops
  | _ :: ops => putsOf ops

/-- `close` occurs exactly once, after every symbol. -/
def ClosedOnce : List EncOp → Prop
  | [] => False
  | .put _ :: ops => ClosedOnce ops
  | .pop _ :: ops => ClosedOnce ops
  | .close :: ops => ∀ op ∈ ops, ∃ n, op = .pop n

theorem run_pops (ops : List EncOp) (e : Enc) (out : List UInt8) (e' : Enc)
    (hp : ∀ op ∈ ops, ∃ n, op = .pop n) (h : e.run ops = some (out, e')) :
    out ++ e'.q = e.q := by
  induction ops generalizing e out with
  | nil => simp [Enc.run] at h; obtain ⟨rfl, rfl⟩ := h; rfl
  | cons op ops ih =>
    obtain ⟨n, rfl⟩ := hp op List.mem_cons_self
    simp only [Enc.run, Option.map_eq_some_iff] at h
    obtain ⟨⟨o, e2⟩, h1, h2⟩ := h
    simp only [Prod.mk.injEq] at h2
    obtain ⟨rfl, rfl⟩ := h2
    have := ih _ o (fun op h => hp op (List.mem_cons_of_mem _ h)) h1
    rw [List.append_assoc, this]; simp [Enc.pop]

theorem streamBytes_chunk (c rest : List Slot) (hc : c.length = symbolsPerChunk) :
    streamBytes (c ++ rest) = chunkBytes c ++ streamBytes rest := by
  have hC : symbolsPerChunk = 65536 := rfl
  rw [streamBytes, dif_neg (by intro h; simp at h; obtain ⟨rfl, -⟩ := h; simp at hc; omega)]
  rw [← hc]; simp

theorem streamBytes_last (c : List Slot) (hc : c.length < symbolsPerChunk) :
    streamBytes c = if c = [] then [] else chunkBytes c := by
  rw [streamBytes]
  by_cases h : c = []
  · simp [h]
  · rw [dif_neg h, if_neg h, List.take_of_length_le (by omega), List.drop_of_length_le (by omega),
      streamBytes]
    simp

theorem run_spec (ops : List EncOp) (e : Enc) (out : List UInt8) (e' : Enc)
    (hlen : e.startFreq.length < symbolsPerChunk)
    (hve : ∀ sl ∈ e.startFreq, sl.Valid)
    (hv : ∀ sl ∈ putsOf ops, sl.Valid) (hc : ClosedOnce ops) (h : e.run ops = some (out, e')) :
    out ++ e'.q = e.q ++ streamBytes (e.startFreq.reverse ++ putsOf ops) := by
  induction ops generalizing e out with
  | nil => exact hc.elim
  | cons op ops ih =>
    cases op with
    | pop n =>
      simp only [Enc.run, Option.map_eq_some_iff] at h
      obtain ⟨⟨o, e2⟩, h1, h2⟩ := h
      simp only [Prod.mk.injEq] at h2
      obtain ⟨rfl, rfl⟩ := h2
      have := ih (e.pop n).2 o hlen hve hv hc h1
      rw [List.append_assoc, this]
      simp only [Enc.pop, putsOf, ← List.append_assoc, List.take_append_drop]
    | close =>
      simp only [Enc.run] at h
      split_ifs at h with hq
      obtain ⟨q, sf⟩ := e
      subst hq
      have hf := flushChunk_eq sf.reverse (fun s hs => hve s (by simpa using hs))
        (by simp at hlen ⊢; omega)
      rw [List.reverse_reverse] at hf
      rw [hf, Option.bind_some] at h
      have := run_pops ops _ out e' hc h
      have hp : putsOf ops = [] := by
        have : ∀ l : List EncOp, (∀ op ∈ l, ∃ n, op = .pop n) → putsOf l = [] := by
          intro l
          induction l with
          | nil => intro _; rfl
          | cons a l ihl =>
            intro hl
            obtain ⟨n, rfl⟩ := hl a List.mem_cons_self
            exact ihl (fun op h => hl op (List.mem_cons_of_mem _ h))
        exact this ops hc
      rw [this]
      simp only [putsOf, hp, List.append_nil, List.nil_append]
      rw [streamBytes_last _ (by simpa using hlen)]
    | put sl =>
      simp only [Enc.run] at h
      split_ifs at h with hq
      obtain ⟨q, sf⟩ := e
      subst hq
      have hsl := hv sl (by simp [putsOf])
      have hall : ∀ s ∈ sl :: sf, s.Valid := by
        intro s hs
        rcases List.mem_cons.1 hs with rfl | h
        · exact hsl
        · exact hve s h
      have hv' : ∀ s ∈ putsOf ops, s.Valid := fun s hs => hv s (by simp [putsOf, hs])
      simp only [Enc.put] at h
      by_cases hfull : (sl :: sf).length = symbolsPerChunk
      · rw [if_pos hfull] at h
        have hf := flushChunk_eq (sl :: sf).reverse (fun s hs => hall s (List.mem_reverse.1 hs))
          (by simp at hfull ⊢; omega)
        rw [List.reverse_reverse] at hf
        rw [hf, Option.bind_some] at h
        have := ih _ out (by simp [symbolsPerChunk, maxBufferSize]) (by simp) hv' hc h
        rw [this]
        simp only [List.reverse_nil, List.nil_append, putsOf]
        rw [if_neg (by simp)]
        rw [← streamBytes_chunk _ _ (by simpa using hfull)]
        simp
      · rw [if_neg hfull, Option.bind_some] at h
        have := ih _ out (by simp at hfull hlen ⊢; omega) hall hv' hc h
        rw [this]
        simp [putsOf]

/-- Encoder bookkeeping that the never-overruns property needs. -/
theorem run_never_fails (e : Enc) (hlen : e.startFreq.length < symbolsPerChunk)
    (hve : ∀ sl ∈ e.startFreq, sl.Valid) (hq : e.q = []) (sl : Slot) (hv : sl.Valid) :
    (∃ e', e.put sl = some e' ∧ e'.q.length ≤ 2 * symbolsPerChunk + 16 ∧
      e'.startFreq.length < symbolsPerChunk ∧ (∀ s ∈ e'.startFreq, s.Valid)) ∧
    (∃ e', e.flushChunk = some e' ∧ e'.q.length ≤ 2 * symbolsPerChunk + 16 ∧ e'.startFreq = []) := by
  obtain ⟨q, sf⟩ := e
  dsimp only at *
  subst hq
  have hC : symbolsPerChunk = 65536 := rfl
  have hall : ∀ s ∈ sl :: sf, s.Valid := by
    intro s hs
    rcases List.mem_cons.1 hs with rfl | h
    · exact hv
    · exact hve s h
  have flush : ∀ l : List Slot, (∀ s ∈ l, s.Valid) → l.length ≤ symbolsPerChunk →
      ∃ e', (⟨[], l⟩ : Enc).flushChunk = some e' ∧ e'.q.length ≤ 2 * symbolsPerChunk + 16 ∧
        e'.startFreq = [] := by
    intro l hl hll
    have hf := flushChunk_eq l.reverse (fun s hs => hl s (by simpa using hs)) (by simpa using hll)
    rw [List.reverse_reverse] at hf
    refine ⟨_, hf, ?_, rfl⟩
    have hb := encF_bytes l.reverse (fun s hs => hl s (by simpa using hs))
    rw [List.length_reverse] at hb
    dsimp only
    split_ifs
    · simp
    · rw [chunkBytes_length]; omega
  refine ⟨?_, flush sf hve (by omega)⟩
  unfold Enc.put
  dsimp only
  split_ifs with hfull
  · obtain ⟨e', h1, h2, h3⟩ := flush (sl :: sf) hall (by omega)
    exact ⟨e', h1, h2, by rw [h3]; simp [hC], by rw [h3]; simp⟩
  · refine ⟨_, rfl, by simp, ?_, hall⟩
    simp at hfull ⊢; omega

end Divans.Ans
