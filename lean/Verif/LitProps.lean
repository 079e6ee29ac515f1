import Verif.Lit
import Verif.RxProps
import Mathlib.Tactic.SplitIfs

/-!
# Literal contents: totality and round trip

* `nibChoice_total`: in every state both sides can be in, every table access of the literal coder is
  in bounds, whatever bytes came before.
* `contents_received`: a receiver that follows the sender half byte by half byte gets the bytes.
-/

namespace Divans.Lit
open Divans.Cdf Divans.Adaptive

/-- The states both sides can be in. -/
structure Lbk.Ok (l : Lbk) : Prop where
  map : l.ctxMap.length = 16384
  mix : l.mixing.length = 8192
  mode : l.mode ≤ 3
  adaptLen : l.adapt.length = 4
  speeds : ∀ s ∈ l.adapt, SafeSpeed s

theorem init_ok : Lbk.init.Ok where
  map := List.length_replicate
  mix := List.length_replicate
  mode := Nat.zero_le 3
  adaptLen := List.length_replicate
  speeds := by
    intro s hs
    have : s = Codec.mud := List.eq_of_mem_replicate hs
    subst this
    unfold SafeSpeed
    decide

theorem pushByte_ok {l : Lbk} (h : l.Ok) (b : UInt8) : (l.pushByte b).Ok :=
  ⟨h.map, h.mix, h.mode, h.adaptLen, h.speeds⟩

theorem obsBtype_ok {l : Lbk} (h : l.Ok) (t : UInt8) : (l.obsBtype t).Ok :=
  ⟨h.map, h.mix, h.mode, h.adaptLen, h.speeds⟩

theorem last8_ok {l : Lbk} (h : l.Ok) (n : Nat) : ({ l with last8 := n } : Lbk).Ok :=
  ⟨h.map, h.mix, h.mode, h.adaptLen, h.speeds⟩

/-- What a prediction mode command must bring for the literal coder to be safe afterwards. -/
def PmSafe (p : Codec.Pm) : Prop :=
  ∀ f ∈ p.speeds, ∃ s, speedOf f = some s ∧ SafeSpeed s

theorem mapM_speeds : ∀ fs : List (Nat × Nat), (∀ f ∈ fs, ∃ s, speedOf f = some s ∧ SafeSpeed s) →
    ∃ a, fs.mapM speedOf = some a ∧ a.length = fs.length ∧ ∀ s ∈ a, SafeSpeed s := by
  intro fs
  induction fs with
  | nil => intro _; exact ⟨[], rfl, rfl, by simp⟩
  | cons f t ih =>
    intro h
    obtain ⟨s, hs, hss⟩ := h f (by simp)
    obtain ⟨a, ha, hl, hsafe⟩ := ih fun x hx => h x (by simp [hx])
    refine ⟨s :: a, by simp [List.mapM_cons, hs, ha], by simp [hl], ?_⟩
    intro x hx
    rcases List.mem_cons.1 hx with rfl | hx
    · exact hss
    · exact hsafe x hx

theorem obsPm_ok {l : Lbk} {p : Codec.Pm} (hmode : p.mode ≤ 3) (hlit : p.litMap.length = 16384)
    (hmix : p.mixing.length = 8192) (hlen : p.speeds.length = 4) (hs : PmSafe p) :
    ∃ l', l.obsPm p = .ok l' ∧ l'.Ok ∧ l'.last8 = l.last8 := by
  obtain ⟨a, ha, hl, hsafe⟩ := mapM_speeds p.speeds hs
  refine ⟨{ l with ctxMap := p.litMap, mode := p.mode, adapt := a, mixing := p.mixing,
                   mixParam := p.mixMath }, ?_, ?_, ?_⟩
  · unfold Lbk.obsPm
    rw [if_neg (by omega), ha]
    simp only
    rw [if_pos ⟨hlit, hmix⟩]
  · exact ⟨hlit, hmix, hmode, by rw [hl, hlen], hsafe⟩
  · rfl

theorem utf8_length : utf8Lookup.length = 512 := by decide +kernel
theorem signed_length : signedLookup.length = 256 := by decide +kernel
theorem utf8_lt : ∀ v ∈ utf8Lookup, v < 64 := by decide +kernel
theorem signed_lt : ∀ v ∈ signedLookup, v < 8 := by decide +kernel

theorem lut0_total {mode b : Nat} (hm : mode ≤ 3) (hb : b < 256) : ∃ v, lut0 mode b = some v ∧ v < 64 := by
  unfold lut0
  split_ifs with h3 h2 h1 h0
  · have hl : b < signedLookup.length := by rw [signed_length]; exact hb
    refine ⟨signedLookup[b] <<< 3, by rw [List.getElem?_eq_getElem hl]; rfl, ?_⟩
    have := signed_lt _ (List.getElem_mem hl)
    rw [Nat.shiftLeft_eq]; omega
  · have hl : b < utf8Lookup.length := by rw [utf8_length]; omega
    exact ⟨utf8Lookup[b], List.getElem?_eq_getElem hl, utf8_lt _ (List.getElem_mem hl)⟩
  · refine ⟨_, rfl, ?_⟩
    rw [Nat.shiftRight_eq_div_pow]; omega
  · refine ⟨_, rfl, ?_⟩
    have : b &&& 63 ≤ 63 := Nat.and_le_right
    omega
  · omega

theorem lut1_total {mode b : Nat} (hm : mode ≤ 3) (hb : b < 256) : ∃ v, lut1 mode b = some v ∧ v < 64 := by
  unfold lut1
  split_ifs with h3 h2 h1 h0
  · have hl : b < signedLookup.length := by rw [signed_length]; exact hb
    refine ⟨signedLookup[b], List.getElem?_eq_getElem hl, ?_⟩
    have := signed_lt _ (List.getElem_mem hl)
    omega
  · have hl : 256 + b < utf8Lookup.length := by rw [utf8_length]; omega
    exact ⟨utf8Lookup[256 + b], List.getElem?_eq_getElem hl, utf8_lt _ (List.getElem_mem hl)⟩
  · exact ⟨0, rfl, by omega⟩
  · exact ⟨0, rfl, by omega⟩
  · omega

theorem or_lt64 {a b : Nat} (ha : a < 64) (hb : b < 64) : a ||| b < 64 :=
  Nat.or_lt_two_pow (n := 6) ha hb

theorem context_total {l : Lbk} (h : l.Ok) : ∃ c, l.context = some c ∧ c < 256 := by
  obtain ⟨a, ha, ha'⟩ := lut0_total (b := (l.last8 >>> 0x38) &&& 0xff) h.mode
    (by have : (l.last8 >>> 0x38) &&& 0xff ≤ 0xff := Nat.and_le_right; omega)
  obtain ⟨b, hb, hb'⟩ := lut1_total (b := (l.last8 >>> 0x30) &&& 0xff) h.mode
    (by have : (l.last8 >>> 0x30) &&& 0xff ≤ 0xff := Nat.and_le_right; omega)
  have ho := or_lt64 ha' hb'
  have ht := l.btype.toNat_lt
  have hi : (a ||| b) + (l.btype.toNat <<< 6) < l.ctxMap.length := by
    rw [h.map, Nat.shiftLeft_eq]; omega
  refine ⟨(l.ctxMap[(a ||| b) + (l.btype.toNat <<< 6)]).toNat, ?_, UInt8.toNat_lt _⟩
  unfold Lbk.context
  rw [ha, hb]
  simp only [Option.bind_some]
  rw [List.getElem?_eq_getElem hi]
  rfl

theorem lin3 {a b c x y z : Nat} (h1 : x < a) (h2 : y < b) (h3 : z < c) :
    Codec.linearize [a, b, c] [x, y, z] = some (x + a * (y + b * z)) := by
  simp [Codec.linearize, h1, h2, h3]

theorem lin2 {a b x y : Nat} (h1 : x < a) (h2 : y < b) :
    Codec.linearize [a, b] [x, y] = some (x + a * y) := by
  simp [Codec.linearize, h1, h2]

theorem strideByte_lt (l mm : Nat) : strideByte l mm < 256 := by
  have : strideByte l mm ≤ 0xff := Nat.and_le_right
  omega

theorem mixIndex_lt {high : Bool} {ctx prev prior : Nat} (hc : ctx < 256) (hv : prev < 256) :
    mixIndex high ctx prev prior < 8192 := by
  cases high
  · have h1 : prior &&& 0xf ≤ 0xf := Nat.and_le_right
    show ctx ||| ((prior &&& 0xf) <<< 8) ||| 4096 < 2 ^ 13
    refine Nat.or_lt_two_pow (Nat.or_lt_two_pow ?_ ?_) ?_
    · omega
    · rw [Nat.shiftLeft_eq]; omega
    · omega
  · show ctx ||| ((prev >>> 4) <<< 8) < 2 ^ 13
    refine Nat.or_lt_two_pow ?_ ?_
    · omega
    · rw [Nat.shiftLeft_eq, Nat.shiftRight_eq_div_pow]; omega

theorem nibIndex_lt {high : Bool} {mm ctx stride prior : Nat} (hc : ctx < 256) (hs : stride < 256)
    (hp : prior < 16) :
    (nibIndex high mm ctx stride prior).1 < 3 ∧ (nibIndex high mm ctx stride prior).2.1 < 256 ∧
      (nibIndex high mm ctx stride prior).2.2 < 256 := by
  have ha : ((if mm ≠ 0 ∧ mm ≠ 3 then 255 else 0) >>> 7) ^^^ ((if mm = 1 then 0xf else 0) >>> 2) < 3 := by
    split_ifs with h1 h2 h2 <;> first | decide | (exfalso; omega)
  have hf : ∀ f : Nat, f = (if mm = 1 then 0xf else 0) → (ctx &&& f) <<< 4 < 2 ^ 8 := by
    intro f hf
    have h1 : ctx &&& f ≤ f := Nat.and_le_right
    have h2 : f ≤ 15 := by rw [hf]; split_ifs <;> omega
    rw [Nat.shiftLeft_eq]; omega
  cases high
  · refine ⟨ha, ?_, ?_⟩
    · show (_ &&& stride) ||| (_ &&& ctx) < 2 ^ 8
      refine Nat.or_lt_two_pow ?_ ?_
      · exact Nat.lt_of_le_of_lt Nat.and_le_right hs
      · exact Nat.lt_of_le_of_lt Nat.and_le_right hc
    · show (prior &&& _) ||| ((ctx &&& _) <<< 4) < 2 ^ 8
      refine Nat.or_lt_two_pow ?_ (hf _ rfl)
      exact Nat.lt_of_le_of_lt Nat.and_le_left (by omega)
  · refine ⟨ha, ?_, hc⟩
    show stride &&& _ &&& _ < 256
    exact Nat.lt_of_le_of_lt (Nat.le_trans Nat.and_le_left Nat.and_le_left) hs

/-- Every table access of the literal coder is in bounds and every speed it uses is safe. -/
theorem nibChoice_total {l : Lbk} (h : l.Ok) (high : Bool) {prior : Nat} (hp : prior < 16) :
    ∃ ch, nibChoice l high prior = some ch ∧ ch.Safe := by
  obtain ⟨ctx, hc, hc'⟩ := context_total h
  have hprev : (l.last8 >>> 0x38) &&& 0xff < 256 := by
    have : (l.last8 >>> 0x38) &&& 0xff ≤ 0xff := Nat.and_le_right
    omega
  have hmi : mixIndex high ctx ((l.last8 >>> 0x38) &&& 0xff) prior < l.mixing.length := by
    rw [h.mix]; exact mixIndex_lt hc' hprev
  obtain ⟨mm, hmm⟩ : ∃ mm, l.mixing[mixIndex high ctx ((l.last8 >>> 0x38) &&& 0xff) prior]? = some mm :=
    ⟨_, List.getElem?_eq_getElem hmi⟩
  obtain ⟨i1, i2, i3⟩ := nibIndex_lt (high := high) (mm := mm) hc' (strideByte_lt l.last8 mm) hp
  have get : ∀ i, i < 4 → ∃ s, l.adapt[i]? = some s ∧ SafeSpeed s := by
    intro i hi
    have : i < l.adapt.length := by rw [h.adaptLen]; exact hi
    exact ⟨_, List.getElem?_eq_getElem this, h.speeds _ (List.getElem_mem this)⟩
  obtain ⟨sp, hsp, hsps⟩ := get 0 (by omega)
  obtain ⟨sc, hsc, hscs⟩ := get (if high then 3 else 2) (by split_ifs <;> omega)
  obtain ⟨cm, hcm⟩ : ∃ cm, cmKey high prior ctx = some cm := by
    unfold cmKey
    split_ifs
    · exact ⟨_, by rw [lin2 (by omega) hc']; rfl⟩
    · exact ⟨_, by rw [lin3 (by omega) hp hc']; rfl⟩
  unfold nibChoice nibKey
  rw [hc]; simp only [Option.bind_some]
  rw [hmm]; simp only [Option.bind_some]
  rw [lin3 i1 i2 i3]; simp only [Option.bind_some, Option.map_some]
  rw [hsp]; simp only [Option.bind_some]
  rw [hcm, hsc]; simp only [Option.bind_some]
  by_cases h1 : 1 < l.mixParam
  · rw [if_pos h1]
    refine ⟨_, rfl, ?_, ?_⟩
    · simpa using hscs
    · intro x hx
      by_cases h2 : mm = 2
      · rw [if_pos h2] at hx; simp at hx
      · rw [if_neg h2] at hx
        simp only [Option.mem_def, Option.some.injEq] at hx
        rw [← hx]; exact hsps
  · rw [if_neg h1]
    by_cases h2 : mm = 2
    · rw [if_pos h2]; exact ⟨_, rfl, trivial⟩
    · rw [if_neg h2]; exact ⟨_, rfl, by simpa [Choice.Safe] using hsps⟩

theorem pushAll_ok : ∀ (bs : List UInt8) (l : Lbk), l.Ok → (bs.foldl Lbk.pushByte l).Ok := by
  intro bs
  induction bs with
  | nil => intro l h; exact h
  | cons b t ih => intro l h; exact ih _ (pushByte_ok h b)

/-- The sender can send any bytes. -/
theorem sendBytes_total : ∀ (bs : List UInt8) (l : Lbk), l.Ok →
    ∃ tr, sendBytes l bs = some (tr, bs.foldl Lbk.pushByte l) ∧ Trace.Ok tr ∧
      tr.length = 2 * bs.length := by
  intro bs
  induction bs with
  | nil => intro l _; exact ⟨[], rfl, by simp [Trace.Ok], rfl⟩
  | cons b t ih =>
    intro l h
    obtain ⟨c1, e1, s1⟩ := nibChoice_total h true (prior := 0) (by omega)
    have hhi : b.toNat >>> 4 < 16 := by
      have := b.toNat_lt
      rw [Nat.shiftRight_eq_div_pow]; omega
    have hlo : b.toNat &&& 0xf < 16 := by
      have : b.toNat &&& 0xf ≤ 0xf := Nat.and_le_right
      omega
    obtain ⟨c2, e2, s2⟩ := nibChoice_total h false hhi
    obtain ⟨tr, e3, s3, s4⟩ := ih (l.pushByte b) (pushByte_ok h b)
    refine ⟨(c1, b.toNat >>> 4) :: (c2, b.toNat &&& 0xf) :: tr, ?_, ?_, by simp [s4]; omega⟩
    · rw [sendBytes, e1]; simp only [Option.bind_some]
      rw [e2]; simp only [Option.bind_some]
      rw [e3]; rfl
    · intro x hx
      rcases List.mem_cons.1 hx with rfl | hx
      · exact ⟨s1, hhi⟩
      · rcases List.mem_cons.1 hx with rfl | hx
        · exact ⟨s2, hlo⟩
        · exact s3 x hx

theorem halves (b : UInt8) : UInt8.ofNat ((b.toNat &&& 0xf) ||| ((b.toNat >>> 4) <<< 4)) = b := by
  have h : ∀ n, n < 256 → (n &&& 0xf) ||| ((n >>> 4) <<< 4) = n := by decide +kernel
  rw [h _ b.toNat_lt, UInt8.ofNat_toNat]

/-- Following the sender: what is left to come of a literal, as the receiver sees it. -/
def Content.Follows (l : Lbk) (c : Content) (rest : List UInt8) (tr : Trace Key Bool) (lEnd : Lbk) : Prop :=
  match c.high with
  | none => c.left = rest.length ∧ sendBytes l rest = some (tr, lEnd)
  | some h => ∃ b t c2 tr', rest = b :: t ∧ c.left = rest.length ∧ h = b.toNat >>> 4 ∧
      nibChoice l false h = some c2 ∧ sendBytes (l.pushByte b) t = some (tr', lEnd) ∧
      tr = (c2, b.toNat &&& 0xf) :: tr'

/-- One half byte: the receiver asks for it the way it was sent, and then still follows. -/
theorem follows_step {l : Lbk} {c : Content} {rest : List UInt8} {tr : Trace Key Bool} {lEnd : Lbk}
    (h : c.Follows l rest tr lEnd) (hl : c.left ≠ 0) :
    ∃ ch n tr' rest', tr = (ch, n) :: tr' ∧ c.ask l = some ch ∧
      (c.take l n).2.Follows (c.take l n).1 rest' tr' lEnd ∧
      (c.take l n).2.done.reverse ++ rest' = c.done.reverse ++ rest := by
  unfold Content.Follows at h
  cases hh : c.high with
  | none =>
    rw [hh] at h
    obtain ⟨h1, h2⟩ := h
    cases rest with
    | nil => simp at h1; exact absurd h1 hl
    | cons b t =>
      rw [sendBytes] at h2
      obtain ⟨c1, e1, h2⟩ := Option.bind_eq_some_iff.1 h2
      obtain ⟨c2, e2, h2⟩ := Option.bind_eq_some_iff.1 h2
      obtain ⟨r, e3, h2⟩ := Option.map_eq_some_iff.1 h2
      simp only [Prod.mk.injEq] at h2
      refine ⟨c1, b.toNat >>> 4, (c2, b.toNat &&& 0xf) :: r.1, b :: t, h2.1.symm, ?_, ?_, ?_⟩
      · simp only [Content.ask, hh]; exact e1
      · simp only [Content.take, hh, Content.Follows]
        exact ⟨b, t, c2, r.1, rfl, h1, rfl, e2, by rw [e3, ← h2.2], rfl⟩
      · simp only [Content.take, hh]
  | some hi =>
    rw [hh] at h
    obtain ⟨b, t, c2, tr', rfl, h1, rfl, h2, h3, rfl⟩ := h
    refine ⟨c2, b.toNat &&& 0xf, tr', t, rfl, ?_, ?_, ?_⟩
    · simp only [Content.ask, hh]; exact h2
    · simp only [Content.take, hh, Content.Follows, halves]
      exact ⟨by simp only [h1, List.length_cons]; omega, h3⟩
    · simp only [Content.take, hh, halves]
      simp

theorem follows_start {l : Lbk} {bs : List UInt8} {tr : Trace Key Bool} {lEnd : Lbk}
    (h : sendBytes l bs = some (tr, lEnd)) : (⟨bs.length, none, []⟩ : Content).Follows l bs tr lEnd :=
  ⟨rfl, h⟩

/-- When no byte is left the literal is complete, nothing more is asked for, and both sides remember
the same. -/
theorem follows_end {l : Lbk} {c : Content} {rest : List UInt8} {tr : Trace Key Bool} {lEnd : Lbk}
    (h : c.Follows l rest tr lEnd) (hl : c.left = 0) : rest = [] ∧ tr = [] ∧ l = lEnd := by
  unfold Content.Follows at h
  cases hh : c.high with
  | none =>
    rw [hh] at h
    obtain ⟨h1, h2⟩ := h
    have : rest = [] := List.length_eq_zero_iff.1 (by omega)
    subst this
    simp only [sendBytes, Option.some.injEq, Prod.mk.injEq] at h2
    exact ⟨rfl, h2.1.symm, h2.2⟩
  | some hi =>
    rw [hh] at h
    obtain ⟨b, t, c2, tr', rfl, h1, -⟩ := h
    simp at h1; omega

/-- Two bytes from the start: four nibbles, high ones first. -/
example : (sendBytes Lbk.init [104, 105]).map (fun r => r.1.map fun y => y.2) = some [6, 8, 6, 9] := by
  decide +kernel

end Divans.Lit
