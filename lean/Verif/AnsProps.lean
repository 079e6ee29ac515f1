import Verif.AnsProof

/-!
Property theorems for the entropy coder (C01-C04).

Specification vocabulary (all that is needed to read the statements):
* `Slot.Valid` - the slot is a non-empty part of `[0, 2^15)` that is not the whole interval;
* `slotsFrom slot [] syms` - the slots the sender uses for `syms`, where the slot of a symbol may
  depend on all earlier symbols (adaptive models);
* `Owns slot lookup syms` - at each position of `syms` the receiver's `lookup` maps every offset in
  the slot of the sent symbol back to that symbol and slot;
* `putsOf ops`, `ClosedOnce ops` - the symbols coded by an operation sequence, and that the
  sequence closes the coder once after all symbols (taking output is allowed anywhere).
-/
namespace Divans.Ans

/-- The receiver's lookup inverts the sender's slot assignment along `syms`. -/
def Owns {σ : Type} (slot : List σ → σ → Slot) (lookup : List σ → Nat → σ × Slot)
    (syms : List σ) : Prop :=
  ∀ pre s post, syms = pre ++ s :: post →
    (slot pre s).Valid ∧
    ∀ off, (slot pre s).start ≤ off → off < (slot pre s).start + (slot pre s).freq →
      lookup pre off = (s, slot pre s)

/-- C01: whatever adaptive model is used, and however the encoder's output is taken out in between,
a fresh decoder that receives the produced bytes recovers the symbols in order and is left with no
input.  `hdrained`: the caller took all the output. -/
theorem ans_round_trip {σ : Type} (slot : List σ → σ → Slot) (lookup : List σ → Nat → σ × Slot)
    (syms : List σ) (hown : Owns slot lookup syms)
    (ops : List EncOp) (hputs : putsOf ops = slotsFrom slot [] syms) (hclosed : ClosedOnce ops)
    (out : List UInt8) (e : Enc) (hrun : Enc.init.run ops = some (out, e)) (hdrained : e.q = []) :
    ∃ d, Dec.decode lookup syms.length [] Dec.init out [] = some (syms, d, [], []) := by
  have hvs := slotsFrom_valid slot syms [] (fun pre s post e => by
    simpa using (hown pre s post e).1)
  have hb := run_spec ops Enc.init out e (by simp [Enc.init, symbolsPerChunk, maxBufferSize])
    (by simp [Enc.init]) (by rw [hputs]; exact hvs) hclosed hrun
  rw [hdrained, hputs] at hb
  simp only [Enc.init, List.append_nil, List.nil_append, List.reverse_nil] at hb
  obtain ⟨d', c', m', h1, h2⟩ := decode_spec slot lookup syms [] Dec.init out [] []
    (fun pre s post e => by simpa using (hown pre s post e).1)
    (fun pre s post e off => by simpa using (hown pre s post e).2 off)
    (Or.inl ⟨⟨rfl, rfl⟩, by simp [hb]⟩)
  have hm : m' = [] := by
    -- no piece can be left: there was none to begin with
    have : ∀ (n : Nat) (hist : List σ) (d : Dec) (cur : List UInt8) r,
        Dec.decode lookup n hist d cur [] = some r → r.2.2.2 = [] := by
      intro n
      induction n with
      | zero => intro hist d cur r h; simp [Dec.decode] at h; rw [← h]
      | succ n ih =>
        intro hist d cur r h
        rw [Dec.decode] at h
        cases hf : d.fill cur [] with
        | none => simp [hf] at h
        | some v =>
          obtain ⟨d2, c2, m2⟩ := v
          rw [hf] at h
          have hm2 : m2 = [] := by
            rw [Dec.fill] at hf
            dsimp only at hf
            split_ifs at hf
            simp at hf; exact hf.2.2
          subst hm2
          exact ih _ _ _ _ h
    exact this _ _ _ _ _ h1
  subst hm
  simp at h2
  subst h2
  exact ⟨d', by simpa using h1⟩

/-- C01/C02: the same with the bytes arriving in any pieces, possibly followed by unrelated bytes
`tail`: the symbols come back, and exactly the encoder's bytes are consumed. -/
theorem ans_round_trip_split {σ : Type} (slot : List σ → σ → Slot)
    (lookup : List σ → Nat → σ × Slot) (syms : List σ) (hown : Owns slot lookup syms)
    (ops : List EncOp) (hputs : putsOf ops = slotsFrom slot [] syms) (hclosed : ClosedOnce ops)
    (out : List UInt8) (e : Enc) (hrun : Enc.init.run ops = some (out, e)) (hdrained : e.q = [])
    (pieces : List (List UInt8)) (tail : List UInt8) (hpieces : pieces.flatten = out ++ tail) :
    ∃ d cur more, Dec.decode lookup syms.length [] Dec.init [] pieces = some (syms, d, cur, more) ∧
      cur ++ more.flatten = tail := by
  have hvs := slotsFrom_valid slot syms [] (fun pre s post e => by
    simpa using (hown pre s post e).1)
  have hb := run_spec ops Enc.init out e (by simp [Enc.init, symbolsPerChunk, maxBufferSize])
    (by simp [Enc.init]) (by rw [hputs]; exact hvs) hclosed hrun
  rw [hdrained, hputs] at hb
  simp only [Enc.init, List.append_nil, List.nil_append, List.reverse_nil] at hb
  obtain ⟨d', c', m', h1, h2⟩ := decode_spec slot lookup syms [] Dec.init [] pieces tail
    (fun pre s post e => by simpa using (hown pre s post e).1)
    (fun pre s post e off => by simpa using (hown pre s post e).2 off)
    (Or.inl ⟨⟨rfl, rfl⟩, by simp [hb, hpieces]⟩)
  exact ⟨d', c', m', by simpa using h1, h2⟩

/-- The encoder used as the codec uses it: all output is taken after every symbol and after close. -/
def drainedOps (slots : List Slot) : List EncOp :=
  slots.flatMap (fun sl => [.put sl, .pop maxBufferSize]) ++ [.close, .pop maxBufferSize]

/-- C03 (and non-vacuity of C01 for every symbol sequence): for every sequence of valid slots the
encoder that is drained after every symbol never runs out of buffer space, and ends empty. -/
theorem ans_encode_total (slots : List Slot) (hv : ∀ sl ∈ slots, sl.Valid) :
    ∃ out e, Enc.init.run (drainedOps slots) = some (out, e) ∧ e.q = [] ∧
      putsOf (drainedOps slots) = slots ∧ ClosedOnce (drainedOps slots) := by
  have hM : maxBufferSize = 262144 := rfl
  have hC : symbolsPerChunk = 65536 := rfl
  have gen : ∀ (l : List Slot) (e : Enc), (∀ sl ∈ l, sl.Valid) →
      e.startFreq.length < symbolsPerChunk → (∀ sl ∈ e.startFreq, sl.Valid) → e.q = [] →
      ∃ out e', e.run (drainedOps l) = some (out, e') ∧ e'.q = [] := by
    intro l
    induction l with
    | nil =>
      intro e _ hlen hve hq
      obtain ⟨-, e', h1, h2, h3⟩ := run_never_fails e hlen hve hq ⟨0, 1⟩ (by simp [Slot.Valid])
      refine ⟨e'.q.take maxBufferSize, ⟨e'.q.drop maxBufferSize, e'.startFreq⟩, ?_, ?_⟩
      · simp [drainedOps, Enc.run, hq, h1, Enc.pop]
      · exact List.drop_of_length_le (by omega)
    | cons sl l ih =>
      intro e hl hlen hve hq
      obtain ⟨⟨e', h1, h2, h3, h4⟩, -⟩ := run_never_fails e hlen hve hq sl (hl sl List.mem_cons_self)
      have hdrop : e'.q.drop maxBufferSize = [] := List.drop_of_length_le (by omega)
      obtain ⟨out, e'', h5, h6⟩ := ih ⟨e'.q.drop maxBufferSize, e'.startFreq⟩
        (fun s hs => hl s (List.mem_cons_of_mem _ hs)) h3 h4 hdrop
      refine ⟨e'.q.take maxBufferSize ++ out, e'', ?_, h6⟩
      have : drainedOps (sl :: l) = .put sl :: .pop maxBufferSize :: drainedOps l := by
        simp [drainedOps]
      rw [this, Enc.run, if_pos hq, h1, Option.bind_some, Enc.run]
      simp only [Enc.pop]
      rw [h5]; rfl
  have hp : ∀ l : List Slot, putsOf (drainedOps l) = l ∧ ClosedOnce (drainedOps l) := by
    intro l
    induction l with
    | nil => simp [drainedOps, putsOf, ClosedOnce]
    | cons sl l ih =>
      have : drainedOps (sl :: l) = .put sl :: .pop maxBufferSize :: drainedOps l := by
        simp [drainedOps]
      rw [this]
      exact ⟨by simp [putsOf, ih.1], by simpa [ClosedOnce] using ih.2⟩
  obtain ⟨out, e, h1, h2⟩ := gen slots Enc.init hv (by simp [Enc.init, hC]) (by simp [Enc.init]) rfl
  exact ⟨out, e, h1, h2, hp slots⟩

/-- C03: while the symbols of a chunk are coded (newest first, any number of them up to a chunk),
both 64-bit states stay in `[2^31, 2^63)`, the byte stack never overflows and holds at most two
bytes per symbol. -/
theorem ans_state_bounds (sls : List Slot) (hv : ∀ sl ∈ sls, sl.Valid)
    (hlen : sls.length ≤ symbolsPerChunk) :
    ∃ a b q, reversePutAll (normInterval, normInterval, []) sls = some (a, b, q) ∧
      2 ^ 31 ≤ a ∧ a < 2 ^ 63 ∧ 2 ^ 31 ≤ b ∧ b < 2 ^ 63 ∧ q.length ≤ 2 * sls.length := by
  have hv' : ∀ sl ∈ sls.reverse, sl.Valid := fun s hs => hv s (List.mem_reverse.1 hs)
  have hb := encF_bytes sls.reverse hv'
  have hM : maxBufferSize = 262144 := rfl
  have hC : symbolsPerChunk = 65536 := rfl
  rw [List.length_reverse] at hb
  have he := reversePutAll_eq sls.reverse hv' (by omega)
  rw [List.reverse_reverse] at he
  obtain ⟨⟨h1, h2⟩, h3, h4⟩ := encF_ok sls.reverse hv'
  exact ⟨_, _, _, he, h1, h2, h3, h4, hb⟩

/-- C03: no intermediate 64-bit result wraps: the rescale limit, and the new state before reduction,
are below `2^64` for every reachable state and every valid slot. -/
theorem ans_no_wrap (a : Nat) (sl : Slot) (hv : sl.Valid) (h1 : 2 ^ 31 ≤ a) (h2 : a < 2 ^ 63) :
    ((normInterval >>> log2Scale) <<< 32) * sl.freq < 2 ^ 64 ∧
    ∀ s, s = (if a ≥ ((normInterval >>> log2Scale) <<< 32) * sl.freq then a >>> 32 else a) →
      ((s / sl.freq) <<< log2Scale) + s % sl.freq + sl.start < 2 ^ 63 := by
  have e : ((normInterval >>> log2Scale) <<< 32) * sl.freq = 2 ^ 48 * sl.freq := by
    simp [normInterval, log2Scale, Nat.shiftRight_eq_div_pow, Nat.shiftLeft_eq]
  rw [e]
  refine ⟨by have := hv.2.1; omega, ?_⟩
  intro s hs
  obtain ⟨hb1, hb2, -⟩ := renorm_bounds a sl ⟨h1, h2⟩ hv
  have hp := push_ok _ sl hv hb1 hb2
  have : s = (renorm a sl).2 := by
    rw [hs, renorm]; split_ifs <;> simp [Nat.shiftRight_eq_div_pow]
  rw [← this] at hp
  have := hp.2
  simpa [push, Nat.shiftLeft_eq, log2Scale] using this

/-! ### C02: the decoder depends only on the concatenation of its input, for any input at all -/

theorem pushData_reqB (d : Dec) (x : List UInt8) : (d.pushData x).1.reqB = d.reqB := by
  unfold Dec.pushData Dec.pushRare Dec.pushReallyRare
  split_ifs <;> rfl

theorem decode_split {σ : Type} (lookup : List σ → Nat → σ × Slot) (n : Nat) (hist : List σ)
    (d : Dec) (c1 c2 : List UInt8) (m1 m2 : List (List UInt8)) (hg : d.Good) (hb : d.reqB ≤ 1)
    (h : c1 ++ m1.flatten = c2 ++ m2.flatten) :
    (Dec.decode lookup n hist d c1 m1).map (fun r => (r.1, r.2.1, r.2.2.1 ++ r.2.2.2.flatten)) =
    (Dec.decode lookup n hist d c2 m2).map (fun r => (r.1, r.2.1, r.2.2.1 ++ r.2.2.2.flatten)) := by
  induction n generalizing hist d c1 c2 m1 m2 with
  | zero => simp [Dec.decode, h]
  | succ n ih =>
    rw [Dec.decode, Dec.decode]
    obtain ⟨s1, f1⟩ := fill_spec d c1 m1 hg
    obtain ⟨s2, f2⟩ := fill_spec d c2 m2 hg
    by_cases hle : d.numPushAvail ≤ (c1 ++ m1.flatten).length
    · obtain ⟨c1', m1', e1, r1⟩ := s1 hle
      obtain ⟨c2', m2', e2, r2⟩ := s2 (by rw [← h]; exact hle)
      rw [e1, e2, ← h]
      dsimp only
      have hB := pushData_reqB d (c1 ++ m1.flatten)
      have hb' : (d.pushData (c1 ++ m1.flatten)).1.reqB ≤ 1 := by omega
      apply ih
      · simp only [Dec.Good, Dec.advance]
        generalize (d.pushData (c1 ++ m1.flatten)).1.reqB = rb at *
        rcases (show rb = 0 ∨ rb = 1 by omega) with h | h <;> subst h <;> split_ifs <;> simp
      · simp only [Dec.advance]; split_ifs <;> omega
      · rw [r1, r2, h]
    · rw [f1 (by omega), f2 (by rw [← h]; omega)]

/-- C02: for arbitrary input bytes (valid or not), any model, and any two ways of cutting the input
into pieces, the decoder yields the same symbols, ends in the same state, and leaves the same bytes
unread; in particular it reports lack of input in the same cases. -/
theorem ans_decode_split_independent {σ : Type} (lookup : List σ → Nat → σ × Slot) (n : Nat)
    (pieces pieces' : List (List UInt8)) (h : pieces.flatten = pieces'.flatten) :
    (Dec.decode lookup n [] Dec.init [] pieces).map
        (fun r => (r.1, r.2.1, r.2.2.1 ++ r.2.2.2.flatten)) =
    (Dec.decode lookup n [] Dec.init [] pieces').map
        (fun r => (r.1, r.2.1, r.2.2.1 ++ r.2.2.2.flatten)) :=
  decode_split lookup n [] Dec.init [] [] pieces pieces' (by simp [Dec.Good, Dec.init])
    (by simp [Dec.init]) (by simpa using h)

/-! ### C04: bits, alone or mixed with nibbles -/

theorem bit_slot_owned (b : Bool) (p : UInt8) :
    (bitSlot b p).Valid ∧
    ∀ off, (bitSlot b p).start ≤ off → off < (bitSlot b p).start + (bitSlot b p).freq →
      bitLookup p off = (b, bitSlot b p) := by
  have hp := p.toNat_lt
  have hq : 1 ≤ (if p = 0 then 1 else p.toNat) ∧ (if p = 0 then 1 else p.toNat) ≤ 255 := by
    split_ifs with h
    · omega
    · have : p.toNat ≠ 0 := fun h' => h (UInt8.toNat.inj (by simpa using h'))
      omega
  unfold bitSlot bitLookup
  generalize (if p = 0 then 1 else p.toNat) = q at *
  simp only [log2Scale, Nat.shiftLeft_eq]
  constructor
  · cases b <;> simp [Slot.Valid] <;> omega
  · intro off h1 h2
    cases b
    · simp at h1 h2 ⊢; omega
    · simp at h1 h2 ⊢; omega

/-- What is coded when bits and 16-ary symbols are mixed. -/
inductive Item where
  | bit (b : Bool)
  | nib (n : Nat)
deriving DecidableEq

/-- What the protocol codes next after `hist`: a bit with an 8-bit probability of false, or a nibble
with a slot table and lookup. -/
inductive Next where
  | bit (probOfFalse : UInt8)
  | nib (slot : Nat → Slot) (lookup : Nat → Nat × Slot)

/-- C04: a mixture of bits (each with its own 8-bit probability of false) and nibbles (each with its
own distribution) is recovered exactly.  `next` says, from the items so far, what comes next and
with which probabilities; sender and receiver share it. -/
theorem ans_bits_round_trip (next : List Item → Next) (items : List Item)
    (hitems : ∀ pre s post, items = pre ++ s :: post →
      match next pre, s with
      | .bit _, .bit _ => True
      | .nib slot lookup, .nib n => (slot n).Valid ∧
          ∀ off, (slot n).start ≤ off → off < (slot n).start + (slot n).freq →
            lookup off = (n, slot n)
      | _, _ => False)
    (slot : List Item → Item → Slot)
    (hslot : slot = fun h s => match next h, s with
      | .bit p, .bit b => bitSlot b p
      | .nib sl _, .nib n => sl n
      | _, _ => ⟨0, 0⟩)
    (lookup : List Item → Nat → Item × Slot)
    (hlookup : lookup = fun h off => match next h with
      | .bit p => let (b, sl) := bitLookup p off; (.bit b, sl)
      | .nib _ lk => let (n, sl) := lk off; (.nib n, sl))
    (ops : List EncOp) (hputs : putsOf ops = slotsFrom slot [] items) (hclosed : ClosedOnce ops)
    (out : List UInt8) (e : Enc) (hrun : Enc.init.run ops = some (out, e)) (hdrained : e.q = [])
    (pieces : List (List UInt8)) (tail : List UInt8) (hpieces : pieces.flatten = out ++ tail) :
    ∃ d cur more, Dec.decode lookup items.length [] Dec.init [] pieces =
      some (items, d, cur, more) ∧ cur ++ more.flatten = tail := by
  refine ans_round_trip_split slot lookup items ?_ ops hputs hclosed out e hrun hdrained
    pieces tail hpieces
  intro pre s post he
  have := hitems pre s post he
  subst hslot; subst hlookup
  dsimp only
  cases hn : next pre with
  | bit p =>
    rw [hn] at this
    cases s with
    | bit b =>
      obtain ⟨h1, h2⟩ := bit_slot_owned b p
      exact ⟨h1, fun off a1 a2 => by dsimp only at *; rw [h2 off a1 a2]⟩
    | nib n => exact this.elim
  | nib sl lk =>
    rw [hn] at this
    cases s with
    | bit b => exact this.elim
    | nib n => exact ⟨this.1, fun off a1 a2 => by dsimp only at *; rw [this.2 off a1 a2]⟩

/-! ### Non-vacuity -/

/-- A concrete model with three symbols of very different sizes (one has frequency 1). -/
def demoSlot : List (Fin 3) → Fin 3 → Slot := fun _ s =>
  match s with
  | 0 => ⟨0, 1⟩
  | 1 => ⟨1, 7⟩
  | 2 => ⟨8, 100⟩

def demoLookup : List (Fin 3) → Nat → Fin 3 × Slot := fun _ off =>
  if off < 1 then (0, ⟨0, 1⟩) else if off < 8 then (1, ⟨1, 7⟩) else (2, ⟨8, 100⟩)

/-- The demo model meets the hypotheses of the round trip for every symbol sequence, of any length. -/
theorem demo_owns (syms : List (Fin 3)) : Owns demoSlot demoLookup syms := by
  intro pre s post _
  constructor
  · match s with
    | 0 => exact ⟨by norm_num [demoSlot], by norm_num [demoSlot], by norm_num [demoSlot]⟩
    | 1 => exact ⟨by norm_num [demoSlot], by norm_num [demoSlot], by norm_num [demoSlot]⟩
    | 2 => exact ⟨by norm_num [demoSlot], by norm_num [demoSlot], by norm_num [demoSlot]⟩
  · intro off h1 h2
    match s with
    | 0 =>
      have h2 : off < 1 := by simpa [demoSlot] using h2
      simp only [demoLookup, if_pos h2]; rfl
    | 1 =>
      have h1 : ¬ off < 1 := Nat.not_lt.2 (by simpa [demoSlot] using h1)
      have h2 : off < 8 := by simpa [demoSlot] using h2
      simp only [demoLookup, if_neg h1, if_pos h2]; rfl
    | 2 =>
      have h1 : ¬ off < 8 := Nat.not_lt.2 (by simpa [demoSlot] using h1)
      have h3 : ¬ off < 1 := by omega
      simp only [demoLookup, if_neg h1, if_neg h3]; rfl

/-- Concrete run: symbols of frequency 1 overflow the state and force two renormalisations; the
output is taken in two parts. -/
example : (Enc.init.run ((slotsFrom demoSlot [] [0, 0, 0, 2, 0, 0, 0, 1]).map .put ++
      [.close, .pop 7, .pop 100])).map (fun r => (r.1, r.2.q)) =
    some ([0, 0, 0, 0, 0, 0, 0, 8, 0, 0, 26, 128, 251, 236, 2, 0, 0, 0, 0, 0, 0, 128, 1, 128],
      []) := by decide +kernel

/-- The decoder gets the symbols back from two pieces, and leaves the byte that follows unread. -/
example : (Dec.decode demoLookup 8 [] Dec.init [] [[0, 0, 0, 0, 0, 0, 0, 8, 0], [0, 26, 128, 251, 236, 2,
      0, 0, 0, 0, 0, 0, 128, 1, 128, 77]]).map (fun r => (r.1, r.2.2)) =
    some ([0, 0, 0, 2, 0, 0, 0, 1], [77], []) := by decide +kernel

end Divans.Ans
