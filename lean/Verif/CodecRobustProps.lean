import Verif.CodecRobust

/-!
# Properties: the command decoder on arbitrary input

Nothing is assumed about the nibbles.  `decodeFrom` is the decoder of the command stream including
the lookup of the adaptive model before every nibble, so that an out-of-range lookup counts as a panic.
-/

namespace Divans.Codec
open Divans.Num Divans.Cdf

/-- Feed nibbles to the decoder until the end marker or the end of the input.  Result: final state,
commands, nibbles left over. -/
def decodeFrom : Core → List Nat → Res (Core × List Got × List Nat)
  | c, [] => .ok (c, [], [])
  | c, n :: t =>
    if c.at_ = .stop then .ok (c, [], n :: t)
    else
      (decStep c n).bind fun r =>
        (decodeFrom r.1 t).bind fun q =>
          .ok (q.1, (match r.2 with | none => q.2.1 | some g => g :: q.2.1), q.2.2)

/-- A decoder without a failing lookup is the decoder of the round-trip theorems. -/
theorem decodeFrom_eq_decAll : ∀ (ns : List Nat) (c : Core), decodeFrom c ns ≠ .panic →
    decodeFrom c ns = decAll c ns := by
  intro ns
  induction ns with
  | nil => intro c _; rfl
  | cons n t ih =>
    intro c h
    unfold decodeFrom at h ⊢
    unfold decAll
    by_cases hs : c.at_ = .stop
    · rw [if_pos hs, if_pos hs]
    · rw [if_neg hs] at h ⊢
      rw [if_neg hs]
      unfold decStep at h ⊢
      cases ha : coreAsk c with
      | none => rw [ha] at h; exact absurd rfl h
      | some a =>
        rw [ha] at h
        simp only at h ⊢
        cases ht : coreTake c n with
        | ok r =>
          rw [ht] at h
          simp only [Res.bind] at h ⊢
          rw [ih _ ?_]
          · rfl
          · intro hp
            rw [hp] at h
            exact h rfl
        | fail => rfl
        | panic => rfl

/-- Whatever the decoder is fed, every command it completes is within these bounds, and its state
remains well formed. -/
theorem decoded_commands_bounded : ∀ (ns : List Nat), (∀ n ∈ ns, n < 16) → ∀ (c c' : Core)
    (gs : List Got) (rest : List Nat), CoreInv c → decodeFrom c ns = .ok (c', gs, rest) →
    CoreInv c' ∧ ∀ g ∈ gs, GotOk g := by
  intro ns
  induction ns with
  | nil =>
    intro _ c c' gs rest hc h
    cases h
    exact ⟨hc, by simp⟩
  | cons n t ih =>
    intro hns c c' gs rest hc h
    unfold decodeFrom at h
    by_cases hs : c.at_ = .stop
    · rw [if_pos hs] at h
      cases h
      exact ⟨hc, by simp⟩
    · rw [if_neg hs] at h
      rcases decStep_inv hc (hns n (by simp)) with ⟨_, ⟨c1, g, h1, h2, h3⟩ | h1⟩ | ⟨_, h1⟩
      · rw [h1] at h
        simp only [Res.bind] at h
        cases hq : decodeFrom c1 t with
        | ok q =>
          obtain ⟨c2, gs2, rest2⟩ := q
          rw [hq] at h
          obtain ⟨h4, h5⟩ := ih (fun m hm => hns m (by simp [hm])) c1 c2 gs2 rest2 h2 hq
          cases g with
          | none =>
            cases h
            exact ⟨h4, h5⟩
          | some g' =>
            cases h
            refine ⟨h4, ?_⟩
            intro x hx
            rcases List.mem_cons.1 hx with rfl | hx
            · exact h3 _ rfl
            · exact h5 x hx
        | fail => simp [hq] at h
        | panic => simp [hq] at h
      · simp [h1, Res.bind] at h
      · simp [h1, Res.bind] at h

/-- C18, second clause: on any input, a dictionary reference the decoder accepts has a word length of
4 to 24, a transform of at most 120, and an index that fits the nibbles sent for that length.  The
index need not be one of a word of the dictionary: see `dict_accepts_missing_word`. -/
theorem dict_accepts_only_partial (ns : List Nat) (hn : ∀ n ∈ ns, n < 16) (c' : Core) (gs : List Got)
    (rest : List Nat) (h : decodeFrom Core.init ns = .ok (c', gs, rest)) (z i t : Nat)
    (hg : Got.dict z i t ∈ gs) :
    4 ≤ z ∧ z ≤ 24 ∧ t ≤ 120 ∧ i < 2 ^ (4 * ((dictBits.getD z 0 + 3) / 4)) := by
  obtain ⟨h1, h2, h3, h4⟩ := (decoded_commands_bounded ns hn _ _ _ _ coreInv_init h).2 _ hg
  refine ⟨h1, h2, h4, ?_⟩
  rw [Nat.mul_comm]
  exact h3

/-- The second clause of C18 is false for the index: this stream is accepted as the word number 255 of
length 24, although the dictionary has 32 words of that length. -/
theorem dict_accepts_missing_word :
    ∃ c', decodeFrom Core.init [2, 15, 5, 15, 15, 0, 0] = .ok (c', [.dict 24 255 0], []) ∧
      dictBits.getD 24 0 = 5 ∧ 2 ^ 5 ≤ 255 := by
  exact ⟨_, rfl, rfl, by decide⟩

/-- Exactly when a step of the decoder panics, in any state it can reach on any input:
after the end marker (the program stops there by itself); on a copy when the last literal was
announced with exactly `2^32` bytes; on a copy length of more than 32 bits; on a short distance code
whose addition leaves the range of `i32`. -/
theorem decoder_panics_iff (ns : List Nat) (hns : ∀ n ∈ ns, n < 16) (c : Core) (gs : List Got)
    (rest : List Nat) (h : decodeFrom Core.init ns = .ok (c, gs, rest)) (n : Nat) (hn : n < 16) :
    decStep c n = .panic ↔
      c.at_ = .stop ∨
      (c.bk.lastLlen = 0 ∧ ∃ s, c.at_ = .copy s ∧ s.at_ = .countSmall) ∨
      (∃ s, c.at_ = .copy s ∧ s.at_ = .countMore ∧ 14 ≤ n) ∨
      (∃ s, c.at_ = .copy s ∧ s.at_ = .distMnem ∧ Overflows c.bk.dist n) := by
  have hc := (decoded_commands_bounded ns hns _ _ _ _ coreInv_init h).1
  have hiff : decStep c n = .panic ↔ StepPanics c n := by
    rcases decStep_inv hc hn with ⟨hp, ⟨c1, g, h1, _⟩ | h1⟩ | ⟨hp, h1⟩
    · rw [h1]; simp [hp]
    · rw [h1]; simp [hp]
    · rw [h1]; simp [hp]
  rw [hiff]
  unfold StepPanics NoLength CopyPanics
  constructor
  · rintro (h | h | ⟨s, h1, h2 | h2⟩)
    · exact Or.inl h
    · exact Or.inr (Or.inl h)
    · exact Or.inr (Or.inr (Or.inl ⟨s, h1, h2.1, h2.2⟩))
    · exact Or.inr (Or.inr (Or.inr ⟨s, h1, h2.1, h2.2⟩))
  · rintro (h | h | ⟨s, h1, h2⟩ | ⟨s, h1, h2⟩)
    · exact Or.inl h
    · exact Or.inr (Or.inl h)
    · exact Or.inr (Or.inr ⟨s, h1, Or.inl h2⟩)
    · exact Or.inr (Or.inr ⟨s, h1, Or.inr h2⟩)

theorem modest_along : ∀ (ns : List Nat), (∀ n ∈ ns, n < 16) → ∀ (c c' : Core)
    (gs : List Got) (rest : List Nat), Modest c.bk → decodeFrom c ns = .ok (c', gs, rest) →
    (∀ g ∈ gs, g.modest) → Modest c'.bk := by
  intro ns
  induction ns with
  | nil =>
    intro _ c c' gs rest hc h _
    cases h
    exact hc
  | cons n t ih =>
    intro hns c c' gs rest hc h hg
    unfold decodeFrom at h
    by_cases hs : c.at_ = .stop
    · rw [if_pos hs] at h
      cases h
      exact hc
    · rw [if_neg hs] at h
      unfold decStep at h
      cases ha : coreAsk c with
      | none => simp [ha, Res.bind] at h
      | some a =>
        simp only [ha] at h
        cases ht : coreTake c n with
        | fail => simp [ht, Res.bind] at h
        | panic => simp [ht, Res.bind] at h
        | ok r =>
          obtain ⟨c1, g⟩ := r
          rw [ht] at h
          simp only [Res.bind] at h
          cases hq : decodeFrom c1 t with
          | fail => simp [hq] at h
          | panic => simp [hq] at h
          | ok q =>
            obtain ⟨c2, gs2, rest2⟩ := q
            rw [hq] at h
            have hn := hns n (by simp)
            have hns' := fun m (hm : m ∈ t) => hns m (by simp [hm])
            cases g with
            | none =>
              cases h
              exact ih hns' c1 _ _ _ (coreTake_modest hc hn ht (by simp)) hq hg
            | some g' =>
              cases h
              refine ih hns' c1 _ _ _ (coreTake_modest hc hn ht ?_) hq fun x hx => hg x (by simp [hx])
              intro g1 e
              cases e
              exact hg _ (by simp)

/-- C41, the part that holds: as long as the commands decoded so far have copy distances below
`2^31 - 3` and literals of less than `2^32` bytes, the only input on which the decoder can panic is a
copy length of more than 32 bits.  Missing: rejecting that input. -/
theorem decoder_no_panic_partial (ns : List Nat) (hns : ∀ n ∈ ns, n < 16) (c : Core) (gs : List Got)
    (rest : List Nat) (h : decodeFrom Core.init ns = .ok (c, gs, rest)) (hg : ∀ g ∈ gs, g.modest)
    (hs : c.at_ ≠ .stop) (n : Nat) (hn : n < 16)
    (hl : ∀ s, c.at_ = .copy s → s.at_ = .countMore → n < 14) : decStep c n ≠ .panic := by
  have hm : Modest c.bk := modest_along ns hns _ _ _ _ (by unfold Modest; decide +kernel) h hg
  rw [Ne, decoder_panics_iff ns hns c gs rest h n hn]
  rintro (h1 | h1 | ⟨s, h1, h2, h3⟩ | ⟨s, h1, h2, h3⟩)
  · exact hs h1
  · have := hm.1
    omega
  · have := hl s h1 h2
    omega
  · obtain ⟨_, h0, h1, h2, h3'⟩ := hm
    unfold Overflows at h3
    have hget : c.bk.dist.get (n % 4 / 2) < 2 ^ 31 - 3 := by
      unfold Lru4.get
      split <;> assumption
    omega

/-- C41 is false: four nibbles that begin a copy with a length of 33 bits make the decoder overflow a
shift (`/repo/src/codec/copy.rs:137`). -/
theorem malformed_length_panics : decodeFrom Core.init [1, 15, 15, 14] = .panic := by
  decide +kernel

/-- C41 is false also after a copy from distance `2^31 - 1`: the short code for "that distance plus
one" overflows (`/repo/src/codec/interface.rs:1000-1003`). -/
theorem malformed_distance_panics :
    decodeFrom Core.init [1, 4, 15, 14, 15, 7, 15, 15, 15, 15, 15, 15, 15, 1, 4, 4] = .panic := by
  decide +kernel

/-- The encoder cannot send an empty literal: it arrives at a symbol that is not a nibble.  (The program
computes `bit length of 2^32 - 15, minus 15 = 17` and hands it to the coder,
`/repo/src/codec/literal.rs:622`.) -/
theorem empty_literal_not_encodable (o : Opts) (e : Bool) :
    encCmd o (.lit 0 e) 5 Core.init = some .panic := by
  cases e <;> rfl

/-- The hypotheses of `decoder_no_panic_partial` are met by a stream that is not one an encoder would
send. -/
example : ∃ c gs, decodeFrom Core.init [1, 3, 15, 15, 2, 15, 5, 15, 15, 0] = .ok (c, gs, []) ∧
    c.at_ ≠ .stop := by
  refine ⟨_, _, rfl, ?_⟩
  decide

/-- The index widths are those of the brotli dictionary: with `2 ^ bits` words of each length from 4 to
24, the words fill the 122784 bytes of the dictionary (RFC 7932, appendix A), and words of each length
are found with these bits rounded up to nibbles. -/
theorem dictionary_size :
    ((List.range 25).map fun z => if 4 ≤ z then z * 2 ^ dictBits.getD z 0 else 0).sum = 122784 ∧
    (List.range 21).map (fun z => dictIndexBits (z + 4)) =
      [12, 12, 12, 12, 12, 12, 12, 12, 12, 12, 12, 8, 8, 8, 8, 8, 8, 8, 8, 8, 8] := by
  decide +kernel

/-- Entry 1024 and later of a distance context map is rejected, and every earlier one is recorded at
its place, all others unchanged; a literal context map leaves the recorded distance map alone. -/
theorem distance_map_entries {b : Bk} (hb : BkInv b) (i : Nat) (v : UInt8) :
    (1024 ≤ i → obsCmap b .dist i v = .fail) ∧
    (i < 1024 → ∃ b', obsCmap b .dist i v = .ok b' ∧ b'.distMap[i]? = some v ∧
      ∀ j, j ≠ i → b'.distMap[j]? = b.distMap[j]?) ∧
    (∃ b', obsCmap b .lit i v = .ok b' ∧ b'.distMap = b.distMap) := by
  have hm := hb.map
  refine ⟨fun h => ?_, fun h => ?_, ⟨_, rfl, rfl⟩⟩
  · simp only [obsCmap]
    rw [if_neg (by omega)]
  · refine ⟨_, by simp only [obsCmap]; rw [if_pos (by omega)], ?_, fun j hj => ?_⟩
    · simp [hm, h]
    · simp [Ne.symm hj]

end Divans.Codec
