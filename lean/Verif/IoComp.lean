import Verif.IoWrite
import Verif.CompProps
import Verif.CompLen

/-!
# The compressor for raw bytes keeps the contract of the adaptors: of the reader for a window full of input, of the writer for any input
-/

namespace Divans.RawCmd

/-- The end of `stream` when nothing is full. -/
theorem finish_quiet {s s' : St} {left room : Nat} {cs : List Cmd} {r : Res} (hf : ¬ (full s = true))
    (e : finish s left room = some (s', cs, r)) : cs = [] ∧ s' = s := by
  unfold finish at e
  rw [if_neg (fun h => hf h.2)] at e
  by_cases h1 : room = 0
  · rw [if_pos h1] at e
    simp only [Option.some.injEq, Prod.mk.injEq] at e
    exact ⟨e.2.1.symm, e.1.symm⟩
  · rw [if_neg h1] at e
    by_cases h2 : left = 0
    · rw [if_pos h2] at e
      simp only [Option.some.injEq, Prod.mk.injEq] at e
      exact ⟨e.2.1.symm, e.1.symm⟩
    · rw [if_neg h2] at e; cases e

/-- Until the ring is full no command comes. -/
theorem first_quiet {s : St} {t : Nat} (h0 : s.out = 0) (hd : s.dec = t) (hi : Inv s) {inp : List UInt8} {room : Nat}
    {s' : St} {i : List UInt8} {cs : List Cmd} (hs : step s (.stream inp room) = some (s', i, cs))
    (hl : t + i.length < s.ring.length) : cs = [] ∧ s'.out = 0 ∧ s'.dec = t + i.length ∧ s'.ring.length = s.ring.length := by
  obtain ⟨s1, n, cs1, r, e, -, hn, hl2, -, -⟩ := stream_spec hi inp room
  simp only [step, e, Option.map_some, Option.some.injEq, Prod.mk.injEq] at hs
  obtain ⟨rfl, rfl, rfl⟩ := hs
  rw [List.length_take, Nat.min_eq_left hn] at hl ⊢
  obtain ⟨ring, dec, out, hdr⟩ := s
  simp only at h0 hd hl hl2
  subst h0 hd
  obtain ⟨hi1, -⟩ := hi
  simp only at hi1
  unfold stream fillEnd at e
  simp only [ge_iff_le, Nat.zero_le, if_true] at e
  rw [if_neg (by omega)] at e
  simp only [ne_eq, not_true_eq_false, if_false] at e
  obtain ⟨m, hm⟩ : ∃ m, m = min (ring.length - dec) inp.length := ⟨_, rfl⟩
  rw [← hm] at e
  have hln : (inp.take m).length = m := by rw [List.length_take]; omega
  have hpl := put_length (ring := ring) (bs := inp.take m) (k := dec) (by omega)
  obtain ⟨ring', hr'⟩ : ∃ ring', ring' = put ring dec (inp.take m) := ⟨_, rfl⟩
  rw [← hr'] at e hpl
  unfold fillStart at e
  simp only [Nat.not_lt_zero, if_false, Nat.add_zero] at e
  cases hf : finish ⟨ring', dec + m, 0, hdr⟩ (inp.length - m) room with
  | none => rw [hf] at e; cases e
  | some x =>
    obtain ⟨x1, x2, x3⟩ := x
    rw [hf] at e
    simp only [Option.some.injEq, Prod.mk.injEq] at e
    obtain ⟨rfl, rfl, rfl, rfl⟩ := e
    obtain ⟨q1, q2⟩ := finish_quiet (by
      rw [full_iff]
      simp only
      omega) hf
    rw [q2]
    exact ⟨q1, rfl, rfl, hpl⟩

theorem run_quiet {L : Nat} : ∀ {ops : List Op} {s s' : St} {t : Nat} {i : List UInt8} {cs : List Cmd}, s.out = 0 → s.dec = t →
    Inv s → s.ring.length = L → OnlyStreams ops → run s ops = some (s', i, cs) → t + i.length < L → cs = [] := by
  intro ops
  induction ops with
  | nil =>
    intro s s' t i cs _ _ _ _ _ h _
    simp only [run, Option.some.injEq, Prod.mk.injEq] at h
    exact h.2.2.symm
  | cons op ops ih =>
    intro s s' t i cs h0 hd hi hL ho hr hl
    obtain ⟨inp, room, rfl⟩ := ho op (by simp)
    obtain ⟨s1, i1, cs1, e1, a1, l1, -, -⟩ := step_spec hi (.stream inp room)
    simp only [run, e1] at hr
    obtain ⟨s2, i2, cs2, e2, -⟩ := run_spec a1 ops
    rw [e2] at hr
    simp only [Option.map_some, Option.some.injEq, Prod.mk.injEq] at hr
    obtain ⟨rfl, rfl, rfl⟩ := hr
    rw [List.length_append] at hl
    obtain ⟨q1, q2, q3, q4⟩ := first_quiet h0 hd hi e1 (by omega)
    rw [q1, ih q2 q3 a1 (q4.trans hL) (fun op h => ho op (by simp [h])) e2 (by omega)]
    rfl

/-- One when the ring has been sent off and its place is not yet used again, zero otherwise. -/
def pend (s : St) : Nat := if s.out ≤ s.dec ∧ s.out ≠ 0 then 1 else 0

theorem pend_le (s : St) : pend s ≤ 1 := by unfold pend; split <;> omega

/-- A call that takes nothing leaves nothing to be used again. -/
theorem stream_pend {s s' : St} {L t room : Nat} {inp : List UInt8} {cs : List Cmd} {r : Res} (hi : Inv s) (ha : At L t s)
    (hr : 3 ≤ room) (e : stream s inp room = some (s', 0, cs, r)) : pend s' = 0 := by
  obtain ⟨d, -, -, hm, hd⟩ := stream_moves hi hr e
  obtain ⟨hl, m, hs⟩ := ha
  unfold pend
  rw [if_neg]
  rw [hl] at hm hd
  rcases hs with ⟨h0, h1, -⟩ | ⟨k, h1, h3, -, h5⟩ | ⟨k, h1, h3, h4, -⟩
  · rcases hm with ⟨-, -, -, hm⟩ | ⟨-, hm, -⟩ | ⟨hm, -⟩
    · rw [if_neg (by omega)] at hd
      omega
    · omega
    · omega
  · rcases hm with ⟨-, hm, -⟩ | ⟨-, -, n1, hm1, hm2, hm3⟩ | ⟨hm, -⟩
    · omega
    · have hd0 : d = 0 := by omega
      subst hd0
      by_cases hf : 0 = L ∨ 0 + 1 = s.out
      · rw [if_pos hf] at hd; omega
      · rw [if_neg hf] at hd; omega
    · omega
  · rcases hm with ⟨hm, -⟩ | ⟨hm, -⟩ | ⟨-, -, hm⟩
    · omega
    · omega
    · rw [if_neg (by omega)] at hd
      omega

theorem chain_pend {L : Nat} {s s' : St} {inp : List UInt8} {ops : List Op} {n : Nat} (h2 : 2 ≤ L) (h : Chain s inp ops n s') :
    ∀ {t : Nat}, n = 0 → Inv s → At L t s → pend s' ≤ pend s := by
  induction h with
  | nil => intro t _ _ _; exact Nat.le_refl _
  | @cons s s1 s2 inp room n n2 cs r ops e hr hne hc ih =>
    intro t hn hi ha
    have h1 := at_stream h2 hi ha hr e
    obtain ⟨s1', n', cs', r', e', a1, -⟩ := stream_spec hi inp room
    rw [e] at e'
    simp only [Option.some.injEq, Prod.mk.injEq] at e'
    have hi1 : Inv s1 := by rw [e'.1]; exact a1
    have hz : n = 0 := by omega
    subst hz
    have := ih (by omega) hi1 h1
    rw [stream_pend hi ha hr e] at this
    omega

/-- No input, no commands, unless the place of the ring is to be used again. -/
theorem stream_idle {s s' : St} {L t n room : Nat} {cs : List Cmd} {r : Res} (ha : At L t s) (hp : pend s = 0)
    (e : stream s [] room = some (s', n, cs, r)) : cs = [] := by
  obtain ⟨ring, dec, out, hdr⟩ := s
  obtain ⟨hl, m, hs⟩ := ha
  simp only at hl hs
  have hput : ∀ k, k ≤ ring.length → put ring k [] = ring := fun k hk => by simp [put]
  have key : ∀ d o' n1, fillEnd ⟨ring, dec, out, hdr⟩ [] = some (⟨ring, d, o', hdr⟩, n1) →
      fillStart ⟨ring, d, o', hdr⟩ [] = some (⟨ring, d, o', hdr⟩, 0) → d ≠ ring.length → d + 1 ≠ o' → cs = [] := by
    intro d o' n1 k1 k2 k3 k4
    unfold stream at e
    rw [k1] at e
    simp only [List.drop_nil, k2] at e
    cases hfn : finish ⟨ring, d, o', hdr⟩ (([] : List UInt8).length - (n1 + 0)) room with
    | none => rw [hfn] at e; cases e
    | some x =>
      obtain ⟨x1, x2, x3⟩ := x
      rw [hfn] at e
      simp only [Option.some.injEq, Prod.mk.injEq] at e
      obtain ⟨rfl, rfl, rfl, rfl⟩ := e
      exact (finish_quiet (by rw [full_iff]; simp only; omega) hfn).1
  rcases hs with ⟨h0, hd, -⟩ | ⟨k, h1, h3, h4, h5⟩ | ⟨k, h1, h3, h4, h5⟩
  · subst h0
    refine key dec 0 0 ?_ ?_ (by omega) (by omega)
    · unfold fillEnd
      simp only [ge_iff_le, Nat.zero_le, if_true]
      rw [if_neg (by omega)]
      simp [hput dec (by omega)]
    · unfold fillStart
      simp
  · exfalso
    unfold pend at hp
    rw [if_pos ⟨by simp only; omega, by simp only; omega⟩] at hp
    omega
  · refine key dec out 0 ?_ ?_ (by omega) (by omega)
    · unfold fillEnd
      rw [if_neg (by simp only; omega)]
    · unfold fillStart
      rw [if_pos (by simp only; omega)]
      simp only [List.length_nil, Nat.min_zero, List.take_nil, hput dec (by omega), Nat.add_zero]
      rw [if_pos ⟨by omega, by omega⟩]

end Divans.RawCmd

namespace Divans.Io
open Divans.Compressor Divans.Pipe Divans.Eng

/-- A compressor that was given input, of which `rest` is not taken. -/
def Pushes (g : Cfg) (data : List UInt8) : Slot Comp → List UInt8 → List UInt8 → Prop
  | .live c, rest, out => ∃ ops taken done fr, Pushing g c out ops taken done fr ∧ (data.length ≤ 2 * g.ring - 2 → Once g ops) ∧
      taken ++ rest = data
  | _, _, _ => False

/-- A compressor that was told to finish. -/
def Closes (g : Cfg) (data : List UInt8) : Slot Comp → List UInt8 → Prop
  | .live c, out => ∃ ops all, Closing g c out all ∧ (data.length ≤ 2 * g.ring - 2 → Once g ops) ∧
      (Once g ops → RawCmd.Fair g.ring data.length) ∧ RawCmd.Complete (List.replicate g.ring 0) ops data all
  | _, _ => False

/-- Either. -/
def Goes (g : Cfg) (data : List UInt8) (c : Slot Comp) (rest out : List UInt8) : Prop :=
  Pushes g data c rest out ∨ rest = [] ∧ Closes g data c out

/-- What comes back from a finished file: at least as many bytes; the same ones if there are not more, and in any case up to two
windows less two bytes; not the same ones when the length is not fair. -/
def Comes (g : Cfg) (data out : List UInt8) : Prop :=
  ∃ back, Restores g.dw out back ∧ data.length ≤ back.length ∧ (back.length = data.length → back = data) ∧
    (data.length ≤ 2 * g.ring - 2 → back = data) ∧ (back = data → RawCmd.Fair g.ring data.length)

/-- The header is not complete. -/
def HeaderDue : Slot Comp → Prop
  | .live c => c.eng.cmp.progress < 16
  | _ => False

/-- Progress with no input, with the state of the assembler. -/
def slotNu : Slot Comp → Nat × Nat × Nat × Nat × Nat × Nat × Nat
  | .live c => (0, RawCmd.pend c.asm, mu c)
  | _ => (0, 0, 0, 0, 0, 0, 0)

/-- Progress of finishing. -/
def slotRank : Slot Comp → Nat × Nat × Nat × Nat × Nat × Nat × Nat
  | .live c => rank c
  | _ => (0, 0, 0, 0, 0, 0, 0)

/-- Progress while input is offered. -/
def pushLt (x y : Slot Comp × List UInt8 × List UInt8) : Prop :=
  Prod.Lex (· < ·) lt7 (x.2.1.length, slotNu x.1) (y.2.1.length, slotNu y.1)

theorem pushLt_wf : WellFounded pushLt :=
  InvImage.wf (fun x : Slot Comp × List UInt8 × List UInt8 => (x.2.1.length, slotNu x.1))
    (WellFounded.prod_lex Nat.lt_wfRel.wf lt7_wf)

/-- What a compressor has before it. -/
def compKey (x : Slot Comp × List UInt8 × List UInt8) : Nat × Nat × Nat × Nat × Nat × Nat × Nat × Nat :=
  (x.2.1.length, if x.2.1 = [] then slotRank x.1 else slotNu x.1)

/-- Progress. -/
def compLt (x y : Slot Comp × List UInt8 × List UInt8) : Prop := Prod.Lex (· < ·) lt7 (compKey x) (compKey y)

theorem compLt_wf : WellFounded compLt := InvImage.wf compKey (WellFounded.prod_lex Nat.lt_wfRel.wf lt7_wf)

theorem compLt_push {c c' : Slot Comp} {r r' out out' : List UInt8} (hr : r ≠ []) (h : pushLt (c', r', out') (c, r, out)) :
    compLt (c', r', out') (c, r, out) := by
  unfold pushLt at h
  unfold compLt compKey
  rw [Prod.lex_def] at h ⊢
  simp only at h ⊢
  rcases h with h | ⟨h1, h2⟩
  · exact Or.inl h
  · refine Or.inr ⟨h1, ?_⟩
    have hr' : r' ≠ [] := by
      intro h0
      rw [h0, List.length_nil] at h1
      exact hr (List.eq_nil_of_length_eq_zero h1.symm)
    rw [if_neg hr, if_neg hr']
    exact h2

theorem compLt_close {c c' : Slot Comp} {out out' : List UInt8} (h : lt7 (slotRank c') (slotRank c)) :
    compLt (c', [], out') (c, [], out) := by
  unfold compLt compKey
  rw [Prod.lex_def]
  simp only [if_true]
  exact Or.inr ⟨trivial, h⟩

theorem pushLt_of {c c' : Slot Comp} {inp fut out o : List UInt8} {n : Nat} (hn : n ≤ inp.length)
    (h : 1 ≤ n ∨ lt7 (slotNu c') (slotNu c)) : pushLt (c', inp.drop n ++ fut, out ++ o) (c, inp ++ fut, out) := by
  unfold pushLt
  rw [Prod.lex_def]
  simp only [List.length_append, List.length_drop]
  rcases Nat.eq_zero_or_pos n with h0 | h0
  · right
    refine ⟨by omega, ?_⟩
    rcases h with h | h
    · omega
    · exact h
  · left; omega

variable {g : Cfg} {data : List UInt8}

theorem ofCode_in {c : Code} (h : ofCode c = .needsInput) : c = .needsInput := by cases c <;> cases h; rfl
theorem ofCode_out {c : Code} (h : ofCode c = .needsOutput) : c = .needsOutput := by cases c <;> cases h; rfl
theorem ofCode_ok {c : Code} (h : ofCode c = .success) : c = .success := by cases c <;> cases h; rfl
theorem ofCode_bad {c : Code} (h : ofCode c = .failure) : c = .failure := by cases c <;> cases h; rfl

theorem ring_two (g : Cfg) : 2 ≤ g.ring := by have := g.ring_ge; omega

/-- One call of `encode`. -/
theorem push_step (hpm : (Item.pm rawPm).Valid g.o g.dw g.ring) {c : Slot Comp} {inp fut out : List UInt8}
    (h : Pushes g data c (inp ++ fut) out) {cap : Nat} (hcap : 0 < cap) :
    ∃ k c' n o code, (∀ fuel, k ≤ fuel → (compProc g.o g.dw fuel).process c inp cap = (c', n, o, ofCode code)) ∧
      n ≤ inp.length ∧ o.length ≤ cap ∧ Pushes g data c' (inp.drop n ++ fut) (out ++ o) ∧
      (inp ≠ [] ∨ code = .needsOutput → 1 ≤ n ∨ lt7 (slotNu c') (slotNu c)) ∧
      (code = .needsInput ∧ n = inp.length ∨ code = .needsOutput ∧ o ≠ [] ∧ (n < inp.length → data.length ≤ g.ring → HeaderDue c')) ∧
      (HeaderDue c → o ≠ []) := by
  cases c with
  | failed => exact absurd h id
  | crashed => exact absurd h id
  | live c =>
    obtain ⟨ops, taken, done, fr, hp, hon, hd⟩ := h
    obtain ⟨k, c', n, o, code, e, hq⟩ := encode_spec hpm hp inp cap
    have hdn : taken ++ inp.take n ++ (inp.drop n ++ fut) = data := by
      rw [← hd, List.append_assoc, ← List.append_assoc (inp.take n), List.take_append_drop]
    obtain ⟨ops', done', fr', hp', hch⟩ := hq.how
    have hpend : n = 0 → RawCmd.pend c'.asm ≤ RawCmd.pend c.asm := fun h0 =>
      RawCmd.chain_pend (ring_two g) hch h0 hp.inv hp.place
    have hmu : lt5 (mu c') (mu c) → 1 ≤ n ∨ lt7 (slotNu (.live c')) (slotNu (.live c)) := by
      intro hlt
      rcases Nat.eq_zero_or_pos n with h0 | h0
      · right
        have := hpend h0
        simp only [slotNu]
        rw [lt7_iff]
        refine Or.inr ⟨rfl, ?_⟩
        by_cases h1 : RawCmd.pend c'.asm < RawCmd.pend c.asm
        · exact Or.inl h1
        · exact Or.inr ⟨by omega, hlt⟩
      · exact Or.inl h0
    refine ⟨k, .live c', n, o, code, fun fuel hf => ?_, hq.le, hq.len, ?_, ?_, ?_, fun hdue => hq.first hdue hcap⟩
    · show compStep g.o g.dw fuel (.live c) inp cap = _
      unfold compStep
      simp only [e fuel hf]
    · refine ⟨_, _, done', fr', hp', fun hlen => hp.few (hon hlen) hch (Or.inl ?_), hdn⟩
      have := congrArg List.length hdn
      have hle := hq.le
      simp only [List.length_append, List.length_take, List.length_drop] at this
      omega
    · intro hor
      by_cases hi : inp = []
      · rcases hor with h | h
        · exact absurd hi h
        · rcases hq.idle hi hcap h with h | ⟨s, m, cs, r, e1, e2, e3⟩
          · exact hmu h
          · right
            subst hi
            have hm0 : m = 0 := by
              obtain ⟨d, hm, -⟩ := RawCmd.stream_moves hp.inv (by decide : 3 ≤ slots) e1
              simpa using hm
            subst hm0
            have h0 := RawCmd.stream_pend hp.inv hp.place (by decide : 3 ≤ slots) e1
            have h1 : RawCmd.pend c.asm ≠ 0 := fun h1 => e2 (RawCmd.stream_idle hp.place h1 e1)
            simp only [slotNu]
            rw [lt7_iff, e3, h0]
            exact Or.inr ⟨rfl, Or.inl (by omega)⟩
      · rcases hq.progress hi hcap with h | h
        · exact Or.inl h
        · exact hmu h
    · rcases hq.cases with h | ⟨h1, h2⟩
      · exact Or.inl h
      · refine Or.inr ⟨h1, fun h0 => ?_, fun hlt hring => ?_⟩
        · rw [h0] at h2
          simp at h2
          omega
        · rcases hq.why h1 with h3 | h3
          · exact h3
          · exfalso
            have := congrArg List.length hdn
            simp only [List.length_append, List.length_take, List.length_drop] at this
            have hnil := RawCmd.run_quiet (L := g.ring) (s := RawCmd.new (List.replicate g.ring 0)) (t := 0) rfl rfl (RawCmd.inv_new _)
              (by simp [RawCmd.new]) hp'.only.streams hp'.run (by
                simp only [List.length_append, List.length_take]
                omega)
            rw [List.append_eq_nil_iff] at hnil
            rw [hp'.work.frozen, hnil.2] at h3
            exact h3 rfl

/-- The end of the input. -/
theorem pushes_closes {c : Slot Comp} {out : List UInt8} (h : Pushes g data c [] out) : Closes g data c out := by
  cases c with
  | failed => exact absurd h id
  | crashed => exact absurd h id
  | live c =>
    obtain ⟨ops, taken, done, fr, hp, hon, hd⟩ := h
    rw [List.append_nil] at hd
    subst hd
    obtain ⟨all, h1, h2⟩ := hp.closing
    exact ⟨ops, all, h1, hon, hp.fair, h2⟩

/-- One call of `flush`. -/
theorem close_step (hpm : (Item.pm rawPm).Valid g.o g.dw g.ring) {c : Slot Comp} {out : List UInt8}
    (h : Closes g data c out) {cap : Nat} (hcap : 0 < cap) :
    ∃ k c' o code, (∀ fuel, k ≤ fuel → (compProc g.o g.dw fuel).close c cap = (c', o, ofCode code)) ∧
      o.length ≤ cap ∧ Closes g data c' (out ++ o) ∧
      (code = .success ∧ Comes g data (out ++ o) ∧ (o ≠ [] → lt7 (slotRank c') (slotRank c)) ∨
        code = .needsOutput ∧ o ≠ [] ∧ lt7 (slotRank c') (slotRank c)) := by
  cases c with
  | failed => exact absurd h id
  | crashed => exact absurd h id
  | live c =>
    obtain ⟨ops, all, h1, h2, hfair, h3⟩ := h
    obtain ⟨k, c', o, code, e, hq⟩ := flush_spec hpm h1 cap
    refine ⟨k, .live c', o, code, fun fuel hf => ?_, hq.len, ⟨ops, all, hq.ok, h2, hfair, h3⟩, ?_⟩
    · show compClose g.o g.dw fuel (.live c) cap = _
      unfold compClose
      simp only [e fuel hf]
    · rcases hq.cases with ⟨q1, q2, q3, q4⟩ | ⟨q1, q2, q3⟩
      · refine Or.inl ⟨q1, ⟨RawCmd.bytesOf all, raw_gives hpm h3 q2 q3 q4, ?_, ?_, ?_, ?_⟩, hq.again q1⟩
        · have := (RawCmd.bytes_sent h3).1
          omega
        · intro hl
          exact (RawCmd.bytes_sent h3).2 (by have := (RawCmd.bytes_sent h3).1; omega)
        · exact fun hl => (RawCmd.raw_lossless_iff h3).2 (h2 hl)
        · exact fun hb => hfair ((RawCmd.raw_lossless_iff h3).1 hb)
      · refine Or.inr ⟨q1, fun h0 => ?_, q3 hcap⟩
        rw [h0] at q2
        simp at q2
        omega

theorem Comes.restores {out : List UInt8} (h : Comes g data out) (hl : data.length ≤ 2 * g.ring - 2) : Restores g.dw out data := by
  obtain ⟨back, h1, -, -, h2, -⟩ := h
  rw [← h2 hl]
  exact h1

theorem comp_contract (hpm : (Item.pm rawPm).Valid g.o g.dw g.ring) (hring : data.length ≤ g.ring) :
    Contract (fun fuel => compProc g.o g.dw fuel) (Goes g data) HeaderDue (fun _ out => Restores g.dw out data) False compLt := by
  constructor
  · intro c inp fut out cap h hne hcap
    have hp : Pushes g data c (inp ++ fut) out := by
      rcases h with h | ⟨h, -⟩
      · exact h
      · exact absurd (List.append_eq_nil_iff.1 h).1 hne
    obtain ⟨k, c', n, o, code, e, h1, h2, h3, h4, h5, h6⟩ := push_step hpm hp hcap
    refine ⟨k, c', n, o, ofCode code, e, h1, h2, fun _ => Or.inl h3, fun _ => compLt_push (fun h => hne (List.append_eq_nil_iff.1 h).1) (pushLt_of h1 (h4 (Or.inl hne))), fun h0 => ?_, fun h0 => ?_, fun h0 => ?_, fun h0 => ?_⟩
    · rcases h5 with ⟨rfl, -⟩ | ⟨rfl, -⟩ <;> cases h0
    · rcases h5 with ⟨rfl, h5⟩ | ⟨rfl, -⟩
      · exact ⟨h5, fun _ => h6⟩
      · cases h0
    · rcases h5 with ⟨rfl, h5⟩ | ⟨rfl, h5⟩
      · cases h0
      · exact ⟨h5.1, fun hlt => h5.2 hlt hring⟩
    · rcases h5 with ⟨rfl, -⟩ | ⟨rfl, -⟩ <;> cases h0
  · intro c out cap h hcap
    have hp : Closes g data c out := by
      rcases h with h | ⟨-, h⟩
      · exact pushes_closes h
      · exact h
    obtain ⟨k, c', o, code, e, h1, h2, h3⟩ := close_step hpm hp hcap
    refine ⟨k, c', o, ofCode code, e, h1, fun _ => Or.inr ⟨rfl, h2⟩, fun h0 => ?_, fun h0 => ?_, fun h0 => ?_, fun h0 => ?_, fun _ ho => ?_⟩
    · rcases h3 with ⟨rfl, h3⟩ | ⟨rfl, h3⟩
      · cases h0
      · exact h3.1
    · rcases h3 with ⟨rfl, -⟩ | ⟨rfl, -⟩ <;> cases h0
    · rcases h3 with ⟨rfl, -⟩ | ⟨rfl, -⟩ <;> cases h0
    · rcases h3 with ⟨rfl, h3⟩ | ⟨rfl, h3⟩
      · exact h3.1.restores (by have := ring_two g; omega)
      · cases h0
    · rcases h3 with ⟨-, -, h3⟩ | ⟨-, -, h3⟩
      · exact compLt_close (h3 ho)
      · exact compLt_close h3

theorem comp_wcontract (hpm : (Item.pm rawPm).Valid g.o g.dw g.ring) :
    WContract (fun fuel => compProc g.o g.dw fuel) (Pushes g data) (fun _ _ _ => True) pushLt := by
  constructor
  intro c inp fut out cap h hcap
  obtain ⟨k, c', n, o, code, e, h1, h2, h3, h4, h5, h6⟩ := push_step hpm h hcap
  refine ⟨k, c', n, o, ofCode code, e, h3, fun h0 => ?_, fun h0 => ?_, fun h0 => ⟨?_, trivial⟩⟩
  · rcases h5 with ⟨rfl, -⟩ | ⟨rfl, -⟩ <;> cases h0
  · exact pushLt_of h1 (h4 (Or.inr (ofCode_out h0)))
  · rcases h5 with ⟨rfl, h5⟩ | ⟨rfl, -⟩
    · rw [h5]; exact List.drop_length
    · exact absurd rfl h0

theorem wflush_ok (hpm : (Item.pm rawPm).Valid g.o g.dw g.ring) {cap : Nat} (hcap : 0 < cap) :
    ∀ (x : Nat × Nat × Nat × Nat × Nat × Nat × Nat) (w : Writer (Slot Comp)) (log : List Entry) (out : List UInt8),
      slotRank w.cd = x → WHeld (fun c _ out => Closes g data c out) cap false w [] out →
      ∃ k w' log' bs, (∀ f, k ≤ f → ∀ n, k ≤ n → w.flush (compProc g.o g.dw f) true n log = some (w', log', .ok 0)) ∧
        Comes g data (out ++ bs) ∧ sinkBytes log' = sinkBytes log ++ bs := by
  intro x
  induction x using lt7_wf.induction with
  | _ x ih =>
  intro w log out hx hh
  obtain ⟨k, c', o, code, e, h1, h2, h3⟩ := close_step hpm hh.ok hcap
  obtain ⟨w1, m1, m2, m3, m4, m5⟩ := emit_good { w with cd := c' } o hh.sink
  obtain ⟨log1, hlog1⟩ : ∃ log1, log1 = log ++ [.closed o (ofCode code), .wrote o] := ⟨_, rfl⟩
  have hsb : sinkBytes log1 = sinkBytes log ++ o := by
    rw [hlog1, sinkBytes_append]
    simp [sinkBytes]
  have hround : ∀ f, k ≤ f → ∀ n, w.flush (compProc g.o g.dw f) true (n + 1) log =
      match ofCode code with
      | .failure => some (w1, log1, .codecErr)
      | .success => Writer.flush (compProc g.o g.dw f) true n { w1 with flushed := true } log1
      | _ => Writer.flush (compProc g.o g.dw f) true n w1 log1 := by
    intro f hf n
    rw [Writer.flush.eq_def]
    simp only
    rw [hh.flushed, show (compProc g.o g.dw f).close w.cd w.cap = (c', o, ofCode code) by rw [hh.cap]; exact e f hf]
    have m1' : Writer.emit { cd := c', cap := w.cap, flushed := false, sink := w.sink } o = (w1, .wrote o, true) := by
      rw [← hh.flushed]; exact m1
    simp only [Bool.false_eq_true, if_false, m1', ← hlog1]
    rfl
  rcases h3 with ⟨rfl, h3, -⟩ | ⟨rfl, h3, h4⟩
  · refine ⟨k + 2, { w1 with flushed := true }, log1, o, fun f hf n hn => ?_, h3, hsb⟩
    obtain ⟨n, rfl⟩ : ∃ n', n = n' + 2 := ⟨n - 2, by omega⟩
    rw [hround f (by omega) (n + 1)]
    simp only [ofCode]
    rw [Writer.flush.eq_def]
    simp
  · have hh1 : WHeld (fun c _ out => Closes g data c out) cap false w1 [] (out ++ o) :=
      ⟨by rw [m2]; exact h2, m3.trans hh.cap, m4.trans hh.flushed, m5⟩
    obtain ⟨k2, w', log', bs, q1, q2, q3⟩ := ih (slotRank w1.cd) (by rw [m2, ← hx]; exact h4) w1 log1 (out ++ o) rfl hh1
    refine ⟨max k k2 + 1, w', log', o ++ bs, fun f hf n hn => ?_, by rw [← List.append_assoc]; exact q2, by rw [q3, hsb, List.append_assoc]⟩
    obtain ⟨n, rfl⟩ : ∃ n', n = n' + 1 := ⟨n - 1, by omega⟩
    rw [hround f (by omega) n]
    simp only [ofCode]
    exact q1 f (by omega) n (by omega)

end Divans.Io
