import Verif.Comp
import Verif.EngRun
import Verif.RawCmdProps

/-!
# Lemmas about the compressor
-/

namespace Divans.Codec

theorem res_bind {α β : Type} {x : Res α} {f : α → Res β} {b : β} :
    x.bind f = .ok b ↔ ∃ a, x = .ok a ∧ f a = .ok b := by
  cases x <;> simp [Res.bind]

/-- How many nibbles of a prediction mode command can follow. -/
def pmLeft (p : Pm) : PmAt → Nat
  | .begin => 22 + 3 * p.litMap.length + 3 + 3 * p.distMap.length + 3 + p.mixing.length
  | .mixing => 21 + 3 * p.litMap.length + 3 + 3 * p.distMap.length + 3 + p.mixing.length
  | .depth _ => 20 + 3 * p.litMap.length + 3 + 3 * p.distMap.length + 3 + p.mixing.length
  | .speed i _ _ => 16 - i + 3 * p.litMap.length + 3 + 3 * p.distMap.length + 3 + p.mixing.length
  | .mnem i .lit _ => 3 * (p.litMap.length - i) + 3 + 3 * p.distMap.length + 3 + p.mixing.length
  | .first i .lit _ => 3 * (p.litMap.length - i) + 2 + 3 * p.distMap.length + 3 + p.mixing.length
  | .second i .lit _ _ => 3 * (p.litMap.length - i) + 1 + 3 * p.distMap.length + 3 + p.mixing.length
  | .mnem i .dist _ => 3 * (p.distMap.length - i) + 3 + p.mixing.length
  | .first i .dist _ => 3 * (p.distMap.length - i) + 2 + p.mixing.length
  | .second i .dist _ _ => 3 * (p.distMap.length - i) + 1 + p.mixing.length
  | .values i _ => p.mixing.length - i
  | .done => 0

/-- Speeds are counted to 16. -/
def pmIn : PmAt → Prop
  | .speed i _ _ => i < 16
  | _ => True

theorem pmStore_left {p p' : Pm} {k : MapKind} {i : Nat} {v : UInt8} (h : pmStore p k i v = .ok p') :
    p'.litMap.length = p.litMap.length ∧ p'.distMap.length = p.distMap.length ∧
      p'.mixing.length = p.mixing.length ∧ (k = .lit → i < p.litMap.length) ∧ (k = .dist → i < p.distMap.length) := by
  cases k with
  | lit =>
    simp only [pmStore] at h
    by_cases hi : i < p.litMap.length
    · rw [if_pos hi] at h
      simp only [Res.ok.injEq] at h
      subst h
      simp [hi]
    · rw [if_neg hi] at h; cases h
  | dist =>
    simp only [pmStore] at h
    by_cases hi : i < p.distMap.length
    · rw [if_pos hi] at h
      simp only [Res.ok.injEq] at h
      subst h
      simp [hi]
    · rw [if_neg hi] at h; cases h

theorem pmTake_left {b b' : Bk} {p p' : Pm} {s s' : PmAt} {nib : Nat} (hs : pmIn s)
    (h : pmTake b p s nib = .ok (b', p', s')) : pmIn s' ∧ pmLeft p' s' < pmLeft p s := by
  cases s with
  | begin =>
    simp only [pmTake] at h
    split at h
    · cases h
    · simp only [Res.ok.injEq, Prod.mk.injEq] at h
      obtain ⟨-, rfl, rfl⟩ := h
      exact ⟨trivial, by simp only [pmLeft]; omega⟩
  | mixing =>
    simp only [pmTake, Res.ok.injEq, Prod.mk.injEq] at h
    obtain ⟨-, rfl, rfl⟩ := h
    exact ⟨trivial, by simp only [pmLeft]; omega⟩
  | depth c =>
    simp only [pmTake, Res.ok.injEq, Prod.mk.injEq] at h
    obtain ⟨-, rfl, rfl⟩ := h
    exact ⟨by simp [pmIn], by simp only [pmLeft]; omega⟩
  | speed i acc c =>
    simp only [pmIn] at hs
    simp only [pmTake] at h
    by_cases hi : i + 1 = 16
    · rw [if_pos hi] at h
      split at h
      · cases h
      · simp only [Res.ok.injEq, Prod.mk.injEq] at h
        obtain ⟨-, rfl, rfl⟩ := h
        exact ⟨trivial, by simp only [pmLeft]; omega⟩
    · rw [if_neg hi] at h
      simp only [Res.ok.injEq, Prod.mk.injEq] at h
      obtain ⟨-, rfl, rfl⟩ := h
      exact ⟨by simp only [pmIn]; omega, by simp only [pmLeft]; omega⟩
  | mnem i k c =>
    simp only [pmTake] at h
    by_cases h14 : nib = 14
    · rw [if_pos h14] at h
      cases k <;>
      · simp only [Res.ok.injEq, Prod.mk.injEq] at h
        obtain ⟨-, rfl, rfl⟩ := h
        exact ⟨trivial, by simp only [pmLeft]; omega⟩
    · rw [if_neg h14] at h
      by_cases h15 : nib = 15
      · rw [if_pos h15] at h
        simp only [Res.ok.injEq, Prod.mk.injEq] at h
        obtain ⟨-, rfl, rfl⟩ := h
        cases k <;> exact ⟨trivial, by simp only [pmLeft]; omega⟩
      · rw [if_neg h15] at h
        obtain ⟨b1, -, h⟩ := res_bind.1 h
        obtain ⟨p1, h1, h⟩ := res_bind.1 h
        simp only [Res.ok.injEq, Prod.mk.injEq] at h
        obtain ⟨-, rfl, rfl⟩ := h
        obtain ⟨l1, l2, l3, l4, l5⟩ := pmStore_left h1
        refine ⟨trivial, ?_⟩
        cases k with
        | lit => have := l4 rfl; simp only [pmLeft]; omega
        | dist => have := l5 rfl; simp only [pmLeft]; omega
  | first i k c =>
    simp only [pmTake, Res.ok.injEq, Prod.mk.injEq] at h
    obtain ⟨-, rfl, rfl⟩ := h
    cases k <;> exact ⟨trivial, by simp only [pmLeft]; omega⟩
  | second i k hi c =>
    simp only [pmTake] at h
    obtain ⟨p1, h1, h⟩ := res_bind.1 h
    obtain ⟨b1, -, h⟩ := res_bind.1 h
    simp only [Res.ok.injEq, Prod.mk.injEq] at h
    obtain ⟨-, rfl, rfl⟩ := h
    obtain ⟨l1, l2, l3, l4, l5⟩ := pmStore_left h1
    refine ⟨trivial, ?_⟩
    cases k with
    | lit => have := l4 rfl; simp only [pmLeft]; omega
    | dist => have := l5 rfl; simp only [pmLeft]; omega
  | values i c =>
    simp only [pmTake] at h
    by_cases hi : i < p.mixing.length
    · rw [if_pos hi] at h
      by_cases h8 : i + 1 = 8192
      · rw [if_pos h8] at h
        simp only [Res.ok.injEq, Prod.mk.injEq] at h
        obtain ⟨-, rfl, rfl⟩ := h
        exact ⟨trivial, by simp only [pmLeft]; omega⟩
      · rw [if_neg h8] at h
        simp only [Res.ok.injEq, Prod.mk.injEq] at h
        obtain ⟨-, rfl, rfl⟩ := h
        exact ⟨trivial, by simp only [pmLeft, List.length_set]; omega⟩
    · rw [if_neg hi] at h; cases h
  | done => cases h

theorem pmRun_length {o : Opts} {c : PmIn} {x y : Bk × Pm × PmAt} {ns : List Nat} (h : Run (PmStep o c) x ns y)
    (hx : pmIn x.2.2) : ns.length ≤ pmLeft x.2.1 x.2.2 := by
  induction h with
  | nil => exact Nat.zero_le _
  | @cons s s1 s2 n ns hs hr ih =>
    obtain ⟨-, -, -, ht⟩ := hs
    obtain ⟨h1, h2⟩ := pmTake_left hx (p' := s1.2.1) (s' := s1.2.2) (b' := s1.1) ht
    have := ih h1
    rw [List.length_cons]
    omega

/-- A prediction mode command has fewer nibbles than a chunk of the entropy coder. -/
theorem pm_short {o : Opts} {c : Core} {q : PmIn} (hc : CoreOk c) (hv : (Head.pm q).Valid o) {fuel : Nat}
    {ys : List Sym} {c' : Core} {g : Got} (h : encCmd o (.pm q) fuel c = some (.ok (ys, c', g)))
    (hf : 60445 ≤ fuel) : ys.length ≤ 60445 := by
  obtain ⟨a, ha⟩ := begin_ask hc
  obtain ⟨b, p, at_⟩ := c
  obtain ⟨hb, hp, hat⟩ := hc
  simp only at hat hb hp
  subst hat
  obtain ⟨w, hw⟩ := hv
  obtain ⟨ns, hr⟩ := pm_run hw hb hp
  have hl := pmRun_length hr trivial
  simp only [pmLeft, hp.lit, hp.dist, hp.mix] at hl
  have he := emits_of_pmRun hr (by simp) rfl
  have hE : Emits o (.pm q) ⟨b, p, .begin⟩ (_ :: ns) _ _ := .more a ha rfl (nibble_lt _) rfl he
  obtain ⟨zs, h1, h2⟩ := encCmd_of_emits hE
  have hlen : zs.length = ns.length + 1 := by
    have := congrArg List.length h1
    simpa using this
  have := h2 fuel (by rw [List.length_cons]; omega)
  rw [h] at this
  simp only [Option.some.injEq, Res.ok.injEq, Prod.mk.injEq] at this
  rw [this.1]
  omega

end Divans.Codec

namespace Divans.Eng
open Divans.Adaptive Divans.Pipe Divans.Frame
open Divans.Ans hiding Item

theorem drain_empty {i : Bool} {e : Eng} (h : (e.enc i).q = []) (n room : Nat) :
    drain i (n + 1) e room = some (e, [], true) := by
  rw [drain, if_pos h]

/-- Fewer nibbles than a chunk do not fill the coder, so nothing has to be handed over. -/
theorem steps_quiet (room : Nat) : ∀ (sls : List Slot) (e : Eng), (e.enc false).q = [] →
    (e.enc false).startFreq.length + sls.length < symbolsPerChunk →
    ∃ e', steps (puts false sls ++ [.need false]) e room = some (e', [], []) := by
  intro sls
  induction sls with
  | nil =>
    intro e hq _
    refine ⟨e, ?_⟩
    simp [puts, steps, drain_empty hq]
  | cons s sls ih =>
    intro e hq hl
    rw [List.length_cons] at hl
    have hput : (e.enc false).put s = some ⟨(e.enc false).q, s :: (e.enc false).startFreq⟩ := by
      unfold Enc.put
      simp only [List.length_cons]
      rw [if_neg (by omega)]
    obtain ⟨e', h⟩ := ih { e with enc := Mux.upd e.enc false ⟨(e.enc false).q, s :: (e.enc false).startFreq⟩ }
      (by simp [Mux.upd, hq]) (by simp only [Mux.upd, if_true, List.length_cons]; omega)
    refine ⟨e', ?_⟩
    have : puts false (s :: sls) ++ [Micro.need false] =
        .need false :: .put false s :: (puts false sls ++ [.need false]) := by simp [puts]
    rw [this, steps, drain_empty hq]
    simp only [List.length_nil, Nat.sub_zero]
    rw [steps, if_pos hq, hput]
    simp only
    rw [h]
    rfl

theorem item_pm_short {o : Codec.Opts} {dw : Nat → Nat → Nat → List UInt8} {room fuel : Nat} {s s' : Snd}
    {q : Codec.PmIn} {tc : Trace Codec.Key Unit} {tl : Trace Lit.Key Bool} (hc : Codec.CoreOk s.core)
    (hv : (Codec.Head.pm q).Valid o) (hf : 60445 ≤ fuel)
    (h : Snd.item o dw room fuel s (.pm q) = some (.ok (tc, tl, s'))) : tc.length ≤ 60445 ∧ tl = [] := by
  refine ⟨?_, item_silent h (by simp)⟩
  rw [Snd.item] at h
  have hq : (Item.pm q).head = .pm q := rfl
  rw [hq] at h
  cases he : Codec.encCmd o (.pm q) fuel s.core with
  | none => rw [he] at h; cases h
  | some r =>
    rw [he] at h
    cases r with
    | fail => cases h
    | panic => cases h
    | ok y =>
      obtain ⟨ys, c, g⟩ := y
      have hl := Codec.pm_short hc hv he hf
      simp only [Option.map_eq_some_iff] at h
      obtain ⟨r, -, h2⟩ := h
      cases r with
      | fail => cases h2
      | panic => cases h2
      | ok z =>
        simp only [Codec.Res.bind, Codec.Res.ok.injEq, Prod.mk.injEq] at h2
        obtain ⟨rfl, -⟩ := h2
        simpa [symTrace] using hl

/-- A prediction mode command at the very beginning is taken in one go, whatever the room. -/
theorem one_pm {g : Cfg} {e : Eng} {out : List UInt8} (h : EngOk g e out []) (hc : e.cur = none)
    (henc : e.enc false = .init) {q : Codec.PmIn} (hv : (Item.pm q).Valid g.o g.dw g.ring) (room : Nat) :
    ∃ f0, ∀ fuel, f0 ≤ fuel → ∃ e', e.one g.o g.dw fuel (.pm q) room = some (e', [], .success) := by
  have hm := h.done_mid hc
  obtain ⟨f0, e2, r, k1, -, -, -⟩ := start_spec hm hv
  refine ⟨max f0 60445, fun fuel hf => ?_⟩
  have hs := k1 fuel (by omega)
  have hq : (e.enc false).q = [] := by rw [henc]; rfl
  have h0 : steps [.need false] e room = some (e, [], []) := by
    simp [steps, drain_empty hq]
  rw [Eng.one, hc]
  simp only [h0, hs]
  rw [Eng.start] at hs
  obtain ⟨H, hH⟩ := hm.snd
  cases hi : Snd.item g.o g.dw 128 fuel e.snd (.pm q) with
  | none => rw [hi] at hs; cases hs
  | some x =>
    rw [hi] at hs
    cases x with
    | fail => cases hs
    | panic => cases hs
    | ok y =>
      obtain ⟨tc, tl, s⟩ := y
      simp only [Option.some.injEq, Prod.mk.injEq] at hs
      obtain ⟨rfl, rfl⟩ := hs
      obtain ⟨l1, rfl⟩ := item_pm_short hH.core hv.head (by omega) hi
      have hsp : (slotsOf e.sesC tc).length < symbolsPerChunk := by
        rw [slotsOf_length]
        have : symbolsPerChunk = 65536 := by decide
        omega
      obtain ⟨e', he'⟩ := steps_quiet room (slotsOf e.sesC tc)
        { e with snd := s, sesC := sessionAfter e.sesC tc, sesL := sessionAfter e.sesL [] } hq
        (by simp only [henc, Enc.init, List.length_nil]; omega)
      have hscr : script (.pm q) (slotsOf e.sesC tc) (slotsOf e.sesL []) =
          puts false (slotsOf e.sesC tc) ++ [.need false] := rfl
      rw [Eng.go, hscr, List.length_nil, Nat.sub_zero, he']
      exact ⟨_, rfl⟩

end Divans.Eng

namespace Divans.RawCmd

/-- A literal that is where it says in the ring. -/
def Lies (ring : List UInt8) : Cmd → Prop
  | .pm => True
  | .lit off d => piece ring off d.length = some d ∧ 1 ≤ d.length

theorem piece_lies {ring d : List UInt8} {k n : Nat} (h : piece ring k n = some d) (hn : n ≠ 0) :
    Lies ring (.lit k d) := by
  have h0 := h
  unfold piece at h
  split at h
  · rename_i hk
    simp only [Option.some.injEq] at h
    have : d.length = n := by rw [← h, List.length_take, List.length_drop]; omega
    exact ⟨by rw [this]; exact h0, by omega⟩
  · cases h

theorem flushTail_lies {s s' : St} {cs cs' : List Cmd} {room : Nat} {r : Res} {R : List UInt8}
    (e : flushTail s cs room = some (s', cs', r)) (hR : s.ring = R) (hc : ∀ c ∈ cs, Lies R c) :
    s'.ring = R ∧ ∀ c ∈ cs', Lies R c := by
  subst hR
  unfold flushTail at e
  split at e
  · cases e; exact ⟨rfl, hc⟩
  · split at e
    · cases e; exact ⟨rfl, hc⟩
    · split at e
      · cases e
      · split at e
        · cases e
        · rename_i hp
          split at e
          · cases e
            refine ⟨rfl, fun c hm => ?_⟩
            rcases List.mem_append.1 hm with hm | hm
            · exact hc c hm
            · simp only [List.mem_singleton] at hm
              subst hm
              exact piece_lies hp (by omega)
          · cases e

theorem flushWrap_lies {s s' : St} {cs cs' : List Cmd} {room : Nat} {r : Res} {R : List UInt8}
    (e : flushWrap s cs room = some (s', cs', r)) (hR : s.ring = R) (hc : ∀ c ∈ cs, Lies R c) :
    s'.ring = R ∧ ∀ c ∈ cs', Lies R c := by
  unfold flushWrap at e
  split at e
  · split at e
    · cases e
    · simp only at e
      split at e
      · rename_i hn
        split at e
        · cases e
        · split at e
          · cases e
          · rename_i hp
            refine flushTail_lies e hR fun c hm => ?_
            rcases List.mem_append.1 hm with hm | hm
            · exact hc c hm
            · simp only [List.mem_singleton] at hm
              subst hm
              rw [hR] at hp hn
              exact piece_lies hp hn
      · exact flushTail_lies e hR hc
  · exact flushTail_lies e hR hc

theorem flush_lies {s s' : St} {cs : List Cmd} {room : Nat} {r : Res}
    (e : flush s room = some (s', cs, r)) : s'.ring = s.ring ∧ ∀ c ∈ cs, Lies s'.ring c := by
  have key : s'.ring = s.ring ∧ ∀ c ∈ cs, Lies s.ring c := by
    unfold flush at e
    split at e
    · cases e; exact ⟨rfl, by simp⟩
    · split at e
      · split at e
        · cases e; exact ⟨rfl, by simp [Lies]⟩
        · refine flushWrap_lies e rfl fun c hm => ?_
          simp only [List.mem_singleton] at hm
          subst hm
          trivial
      · exact flushWrap_lies e rfl (by simp)
  refine ⟨key.1, ?_⟩
  rw [key.1]
  exact key.2

theorem full_content {s : St} (hi : Inv s) (h2 : 2 ≤ s.ring.length) (hw : s.dec < s.out ∨ s.out = 0)
    (hf : full s = true) : content s ≠ [] := by
  intro hc
  have hl := congrArg List.length hc
  obtain ⟨i1, i2⟩ := hi
  rw [full_iff] at hf
  unfold content at hl
  split at hl
  · simp only [List.length_drop, List.length_take, List.length_nil] at hl
    omega
  · simp only [List.length_append, List.length_drop, List.length_take, List.length_nil] at hl
    omega

/-- How `stream` ends when there are enough command slots. -/
theorem finish_cases {s s' : St} {left room : Nat} {cs : List Cmd} {r : Res} (hi : Inv s) (hroom : 3 ≤ room)
    (e : finish s left room = some (s', cs, r)) :
    (full s = true ∧ flush s room = some (s', cs, .success) ∧ r = if left ≠ 0 then .needsOutput else .needsInput) ∨
      (s' = s ∧ cs = [] ∧ r = .needsInput ∧ full s = false) := by
  unfold finish at e
  by_cases hc : 0 < room ∧ full s = true
  · rw [if_pos hc] at e
    obtain ⟨s3, cs3, r3, e3, -, -, q1, q2, q3⟩ := flush_spec hi room
    obtain rfl := q3 hroom
    rw [e3] at e
    simp only [Option.some.injEq, Prod.mk.injEq] at e
    obtain ⟨rfl, rfl, rfl⟩ := e
    exact .inl ⟨hc.2, e3, rfl⟩
  · rw [if_neg hc, if_neg (by omega)] at e
    by_cases hl : left = 0
    · rw [if_pos hl] at e
      simp only [Option.some.injEq, Prod.mk.injEq] at e
      refine .inr ⟨e.1.symm, e.2.1.symm, e.2.2.symm, ?_⟩
      cases hf : full s with
      | false => rfl
      | true => exact absurd ⟨by omega, hf⟩ hc
    · rw [if_neg hl] at e; cases e

/-- One call of `stream` with all command slots free, as the compressor makes it. -/
structure Streamed (s : St) (inp : List UInt8) (s' : St) (n : Nat) (cs : List Cmd) (r : Res) : Prop where
  inv : Inv s'
  le : n ≤ inp.length
  len : s'.ring.length = s.ring.length
  shape : Shape s.hdr s'.hdr cs
  lies : ∀ c ∈ cs, Lies s'.ring c
  asks : r = .needsInput ∧ n = inp.length ∨ r = .needsOutput ∧ n < inp.length ∧ cs ≠ [] ∧ content s' = []
  rest : content s' = [] ∨ full s' = false
  some_ : content s = [] ∨ full s = false → inp ≠ [] → 1 ≤ n

theorem fillStart_taken {s s2 : St} {inp : List UInt8} {n : Nat} (e : fillStart s inp = some (s2, n))
    (hd : s.dec < s.out) : n = min (s.out - 1 - s.dec) inp.length := by
  unfold fillStart at e
  rw [if_pos hd] at e
  simp only at e
  split at e
  · simp only [Option.some.injEq, Prod.mk.injEq] at e
    exact e.2.symm
  · cases e

theorem fill_some {s s1 s2 : St} {inp : List UInt8} {n1 n2 : Nat} (hi : Inv s) (h2 : 2 ≤ s.ring.length)
    (e1 : fillEnd s inp = some (s1, n1)) (e2 : fillStart s1 (inp.drop n1) = some (s2, n2))
    (hcn : content s = [] ∨ full s = false) (hne : inp ≠ []) : 1 ≤ n1 + n2 := by
  have hpos : 0 < inp.length := List.length_pos_iff.2 hne
  have hl : (content s).length = 0 ∨ s.dec ≠ s.ring.length ∧ s.dec + 1 ≠ s.out := by
    rcases hcn with h | h
    · left; rw [h]; rfl
    · right
      have := full_iff s
      rw [h] at this
      simp only [Bool.false_eq_true, false_iff, not_or] at this
      exact this
  obtain ⟨j1, j2⟩ := hi
  unfold fillEnd at e1
  unfold content at hl
  by_cases hd : s.out ≤ s.dec
  · rw [if_pos hd] at hl
    simp only [List.length_drop, List.length_take] at hl
    rw [if_pos hd, if_neg (by omega)] at e1
    simp only [Option.some.injEq, Prod.mk.injEq] at e1
    obtain ⟨h1, hn1⟩ := e1
    by_cases h1' : 1 ≤ n1
    · omega
    · have ho : s.out ≠ 0 := by omega
      have hd1 : s1.dec = 0 ∧ s1.out = s.out := by rw [← h1]; simp [ho]
      have := fillStart_taken e2 (by omega)
      rw [List.length_drop] at this
      omega
  · rw [if_neg hd] at hl
    simp only [List.length_append, List.length_drop, List.length_take] at hl
    rw [if_neg (by omega)] at e1
    simp only [Option.some.injEq, Prod.mk.injEq] at e1
    obtain ⟨rfl, rfl⟩ := e1
    have := fillStart_taken e2 (by omega)
    rw [List.length_drop] at this
    omega

theorem fillStart_keeps {s s2 : St} {inp : List UInt8} {n : Nat} (e : fillStart s inp = some (s2, n))
    (w : s.dec < s.out ∨ s.out = 0) : s2.dec < s2.out ∨ s2.out = 0 := by
  unfold fillStart at e
  by_cases hd : s.dec < s.out
  · rw [if_pos hd] at e
    simp only at e
    split at e
    · simp only [Option.some.injEq, Prod.mk.injEq] at e
      obtain ⟨rfl, -⟩ := e
      left; simp only; omega
    · cases e
  · rw [if_neg hd] at e
    simp only [Option.some.injEq, Prod.mk.injEq] at e
    rw [← e.1]
    exact w

theorem streamed {s : St} (hi : Inv s) (h2 : 2 ≤ s.ring.length) (inp : List UInt8) {room : Nat} (hroom : 3 ≤ room) :
    ∃ s' n cs r, stream s inp room = some (s', n, cs, r) ∧ Streamed s inp s' n cs r := by
  obtain ⟨s', n, cs, r, e, a, b, c, -, -⟩ := stream_spec hi inp room
  obtain ⟨f1, f2, f3, f4⟩ := stream_shape hi e
  obtain ⟨s1, n1, e1, i1, l1, r1, o1, hd1, -, -, w1, g1⟩ := fillEnd_spec hi inp
  obtain ⟨s2, n2, e2, i2, l2, r2, o2, hd2, -, g2, g3⟩ := fillStart_spec i1 (inp.drop n1) w1
  have w2 := fillStart_keeps e2 w1
  have e0 := e
  unfold stream at e
  simp only [e1, e2] at e
  obtain ⟨e3, hn⟩ : finish s2 (inp.length - (n1 + n2)) room = some (s', cs, r) ∧ n = n1 + n2 := by
    generalize finish s2 (inp.length - (n1 + n2)) room = q at e
    match q, e with
    | some (a, b, d), e =>
      simp only [Option.some.injEq, Prod.mk.injEq] at e
      obtain ⟨rfl, rfl, rfl, rfl⟩ := e
      exact ⟨rfl, rfl⟩
  have hcase := finish_cases i2 hroom e3
  refine ⟨s', n, cs, r, e0, a, b, c, f1, ?_, ?_, ?_, ?_⟩
  · rcases hcase with ⟨-, hf, -⟩ | ⟨-, rfl, -⟩
    · exact (flush_lies hf).2
    · simp
  · cases r with
    | success => exact absurd rfl f3
    | needsInput => exact .inl ⟨rfl, f2 rfl⟩
    | needsOutput =>
      refine .inr ⟨rfl, f4 rfl hroom, ?_⟩
      rcases hcase with ⟨hfull, hf, -⟩ | ⟨-, -, hr, -⟩
      · obtain ⟨s4, cs4, r4, e4, -, -, q1, q2, -⟩ := flush_spec i2 room
        rw [hf] at e4
        cases e4
        have hq : content s' = [] := by
          rcases q2 with q2 | q2
          · cases q2
          · exact q2.2
        refine ⟨fun hn => ?_, hq⟩
        rw [hn, hq] at q1
        exact full_content i2 (by omega) w2 hfull (by simpa [bytesOf] using q1.symm)
      · cases hr
  · rcases hcase with ⟨hfull, hf, -⟩ | ⟨rfl, -, -, hr⟩
    · obtain ⟨s4, cs4, r4, e4, -, -, -, q2, -⟩ := flush_spec i2 room
      rw [hf] at e4
      cases e4
      rcases q2 with q2 | q2
      · cases q2
      · exact .inl q2.2
    · exact .inr hr
  · intro hcn hne
    rw [hn]
    exact fill_some hi h2 e1 e2 hcn hne

end Divans.RawCmd
