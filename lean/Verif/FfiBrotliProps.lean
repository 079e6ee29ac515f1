import Verif.FfiBrotli
import Verif.FfiProps
import Verif.HybridProps

/-!
# C93: the C interface as it is by default

Brotli chooses the commands.  Its encoder is any machine that keeps the contract `Hybrid.Meets` (C70).
-/

namespace Divans.Ffi
open Divans.Pipe Divans.Eng Divans.Compressor
open Divans.Hybrid (Brotli Hy Meets Live Flushing)

variable {σ : Type} {b : Brotli σ} {boot : Options → σ} {g : Cfg} {I : Bool → σ → List UInt8 → List Item → Prop} {m : σ → Nat}

/-- What a call of `divans_encode` does when brotli chooses the commands: it asks for input; it has taken a part of what was
offered; the output offset and the output buffer are as before. -/
def EncArgs.Silent {τ : Type} (a : EncArgs) (r : After τ) : Prop :=
  ∃ i', r.inOff = some i' ∧ a.i ≤ i' ∧ i' ≤ a.inp.length ∧ r.outOff = some a.p ∧ r.buf = a.buf ∧ r.code = 1

theorem stored_nil {buf : List UInt8} {p : Nat} : stored buf p [] = buf := by
  unfold stored
  simp

theorem encode_other {fuel : Nat} {co : Codec.Opts} {dw : Nat → Nat → Nat → List UInt8} {h h' : Hy σ} {n : Nat} {code : Code}
    {a : EncArgs} (hf : a.Fits) (e : h.encode b co dw fuel (a.inp.drop a.i) = some (h', n, code)) :
    cEncode dw fuel (some (.other (co, h) : State (withBrotli b boot dw fuel))) a.inp (some a.i) a.buf (some a.p) =
      some ⟨some (.other (co, h')), some (a.i + n), a.buf, some a.p, ret code⟩ := by
  unfold cEncode
  simp only
  rw [if_pos (by exact hf)]
  unfold State.encode State.started
  simp only [withBrotli, e, Option.map_some, stored_nil, List.length_nil, Nat.add_zero]

theorem flush_other {fuel : Nat} {co : Codec.Opts} {dw : Nat → Nat → Nat → List UInt8} {h h' : Hy σ} {out : List UInt8} {code : Code}
    {a : FlushArgs} (hf : a.Fits) (e : h.flush b co dw fuel (a.buf.length - a.p) = some (h', out, code)) :
    cFlush dw fuel (some (.other (co, h) : State (withBrotli b boot dw fuel))) a.buf (some a.p) =
      some ⟨some (.other (co, h')), none, stored a.buf a.p out, some (a.p + out.length), ret code⟩ := by
  unfold cFlush
  simp only
  rw [if_pos (by exact hf)]
  unfold State.flush State.started
  simp only [withBrotli, e, Option.map_some]

theorem encode_calls_hy (hb : Meets b g I m) : ∀ (as : List EncArgs), (∀ a ∈ as, a.Fits) →
    ∀ {h : Hy σ} {taken : List UInt8}, Live b g I false taken [] h →
    ∃ f0 h' bytes, Live b g I false (taken ++ bytes) [] h' ∧ ∀ fuel, f0 ≤ fuel → ∃ rs,
      encodeCalls g.dw fuel (.other (g.o, h) : State (withBrotli b boot g.dw fuel)) as = some (.other (g.o, h'), rs) ∧
      rs.length = as.length ∧ (∀ x ∈ as.zip rs, x.1.Silent x.2) ∧ bytes = takenAll as rs := by
  intro as
  induction as with
  | nil =>
    intro _ h taken hl
    exact ⟨0, h, [], by simpa using hl, fun fuel _ => ⟨[], rfl, rfl, by simp, by simp [takenAll]⟩⟩
  | cons a as ih =>
    intro hf h taken hl
    have ha := hf a (by simp)
    obtain ⟨h1, h2⟩ := ha
    obtain ⟨f1, hy1, n, k1, k2, k3, -⟩ := Hybrid.encode_spec hb hl (a.inp.drop a.i)
    obtain ⟨f2, hy2, bytes, l1, l2⟩ := ih (fun x hx => hf x (by simp [hx])) k3
    rw [List.length_drop] at k2
    refine ⟨max f1 f2, hy2, (a.inp.drop a.i).take n ++ bytes, by rw [← List.append_assoc]; exact l1, fun fuel hfu => ?_⟩
    obtain ⟨rs, e1, e2, e3, e4⟩ := l2 fuel (by omega)
    refine ⟨⟨some (.other (g.o, hy1)), some (a.i + n), a.buf, some a.p, ret .needsInput⟩ :: rs, ?_, by simp [e2], ?_, ?_⟩
    · rw [encodeCalls, encode_other ⟨h1, h2⟩ (k1 fuel (by omega))]
      simp only [e1, Option.map_some]
    · intro x hx
      rw [List.zip_cons_cons, List.mem_cons] at hx
      rcases hx with rfl | hx
      · exact ⟨a.i + n, rfl, Nat.le_add_right _ _, (by show a.i + n ≤ a.inp.length; omega), rfl, rfl, rfl⟩
      · exact e3 x hx
    · rw [e4]
      unfold takenAll
      rw [List.zip_cons_cons, List.flatMap_cons]
      congr 1
      unfold takenIn
      simp only [Option.getD_some]
      rw [show a.i + n - a.i = n by omega]

theorem flush_calls_hy (hb : Meets b g I m) : ∀ (as : List FlushArgs), (∀ a ∈ as, a.Fits) →
    ∀ {h : Hy σ} {taken out : List UInt8}, Flushing b g I taken out h →
    ∃ f0, ∀ fuel, f0 ≤ fuel → ∃ rs, flushCalls g.dw fuel (.other (g.o, h) : State (withBrotli b boot g.dw fuel)) as = some rs ∧
      rs.length = as.length ∧ (∀ x ∈ as.zip rs, x.1.Kept x.2) ∧
      ((rs.getLast?).map After.code = some 0 → Restores g.dw (out ++ flushedAll as rs) taken) := by
  intro as
  induction as with
  | nil =>
    intro _ h taken out hl
    exact ⟨0, fun fuel _ => ⟨[], rfl, rfl, by simp, by simp⟩⟩
  | cons a as ih =>
    intro hf h taken out hl
    have h2 : a.p ≤ a.buf.length := hf a (by simp)
    obtain ⟨f1, hy1, o, code, k1, k2, k3, -, k4⟩ := Hybrid.flush_spec hb hl (a.buf.length - a.p)
    obtain ⟨f2, l1⟩ := ih (fun x hx => hf x (by simp [hx])) k3
    refine ⟨max f1 f2, fun fuel hfu => ?_⟩
    obtain ⟨rs, e1, e2, e3, e4⟩ := l1 fuel (by omega)
    have q : flushedAll (a :: as) (⟨some (.other (g.o, hy1)), none, stored a.buf a.p o, some (a.p + o.length),
        ret code⟩ :: rs : List (After (State (withBrotli b boot g.dw fuel)))) = o ++ flushedAll as rs := by
      unfold flushedAll
      rw [List.zip_cons_cons, List.flatMap_cons]
      congr 1
      unfold wroteIn
      simp only [Option.getD_some]
      rw [show a.p + o.length - a.p = o.length by omega]
      exact stored_middle h2
    refine ⟨⟨some (.other (g.o, hy1)), none, stored a.buf a.p o, some (a.p + o.length), ret code⟩ :: rs, ?_, by simp [e2], ?_, ?_⟩
    · rw [flushCalls, flush_other h2 (k1 fuel (by omega))]
      simp only [e1, Option.map_some]
    · intro x hx
      rw [List.zip_cons_cons, List.mem_cons] at hx
      rcases hx with rfl | hx
      · show FlushArgs.Kept a _
        refine ⟨a.p + o.length, rfl, by omega, by omega, stored_length (by omega), stored_take h2, stored_drop h2, ?_⟩
        rcases k4 with ⟨rfl, -⟩ | ⟨rfl, e⟩
        · exact .inl rfl
        · exact .inr ⟨rfl, by omega⟩
      · exact e3 x hx
    · rw [q, ← List.append_assoc]
      cases rs with
      | nil =>
        intro hc
        have hc' : ret code = 0 := by simpa using hc
        rcases k4 with ⟨rfl, q1⟩ | ⟨rfl, -⟩
        · cases as with
          | nil => simpa [flushedAll] using q1
          | cons _ _ => simp at e2
        · cases hc'
      | cons r rs =>
        intro hc
        rw [List.getLast?_cons_cons] at hc
        exact e4 hc

theorem brotli_started {o : Options} {co : Codec.Opts} (hsel : o.select ≠ .internal) (hc : codecOpts o = some co)
    (dw : Nat → Nat → Nat → List UInt8) (fuel : Nat) :
    (State.options o : State (withBrotli b boot dw fuel)).started = some (.other (co, Hy.new o.window (boot o))) := by
  unfold State.started
  simp only
  simp [withBrotli, hc]

/-- **C93, sessions.**  A C program that makes any settings, or none, and leaves the choice of commands to brotli, whose encoder keeps the
contract of C70 for these settings.  It calls `divans_encode` any number of times and then `divans_encode_flush` any number of
times, with any input, buffers and offsets into them:

* every call returns; `divans_encode` takes a part of the input, writes nothing, and asks for more input;
  `divans_encode_flush` reports success, or asks for output space, having filled the buffer; no byte outside of the part
  passed over is changed;
* if the last flush reports success, the bytes written by the flushes are a file that restores the bytes taken, however many
  there are. -/
theorem default_session {o : Options} {co : Codec.Opts} {dw : Nat → Nat → Nat → List UInt8} (hsel : o.select ≠ .internal)
    (hc : codecOpts o = some co) (hb : Meets b ⟨co, dw, o.window⟩ I m) (h0 : I false (boot o) [] [])
    (encs : List EncArgs) (he : ∀ a ∈ encs, a.Fits) (fls : List FlushArgs) (hf : ∀ a ∈ fls, a.Fits) :
    ∃ f0, ∀ fuel, f0 ≤ fuel → ∃ s' rs qs,
      encodeCalls dw fuel (.options o : State (withBrotli b boot dw fuel)) encs = some (s', rs) ∧
      flushCalls dw fuel s' fls = some qs ∧
      rs.length = encs.length ∧ qs.length = fls.length ∧
      (∀ x ∈ encs.zip rs, x.1.Silent x.2) ∧ (∀ x ∈ fls.zip qs, x.1.Kept x.2) ∧
      ((qs.getLast?).map After.code = some 0 → Restores dw (flushedAll fls qs) (takenAll encs rs)) := by
  obtain ⟨f1, h1, bytes, l1, l2⟩ := encode_calls_hy (boot := boot) hb encs he (Hybrid.live_new hb h0)
  rw [List.nil_append] at l1
  obtain ⟨f2, m1⟩ := flush_calls_hy (boot := boot) hb fls hf (.inl ⟨false, l1⟩)
  refine ⟨max f1 f2, fun fuel hfu => ?_⟩
  obtain ⟨rs, e1, e2, e3, e4⟩ := l2 fuel (by omega)
  obtain ⟨qs, q1, q2, q3, q4⟩ := m1 fuel (by omega)
  have hst := brotli_started (b := b) (boot := boot) hsel hc dw fuel
  simp only at e1 q1
  rw [e4, List.nil_append] at q4
  cases encs with
  | nil =>
    simp only [encodeCalls, Option.some.injEq, Prod.mk.injEq] at e1
    obtain ⟨e1, rfl⟩ := e1
    rw [← e1] at q1
    refine ⟨.options o, [], qs, rfl, ?_, rfl, q2, by simp, q3, q4⟩
    rw [flushCalls_started hst rfl]
    exact q1
  | cons a as =>
    refine ⟨_, rs, qs, ?_, q1, e2, q2, e3, q3, q4⟩
    rw [encodeCalls_started hst rfl]
    exact e1

theorem encodeLoop_hy (hb : Meets b g I m) :
    ∀ (t : Nat × Nat) {h : Hy σ} {taken inp : List UInt8}, (inp.length, m h.br) = t →
      Live b g I false taken [] h → ∀ buf : List UInt8,
      ∃ f0 h', (∀ fuel k, f0 ≤ fuel → f0 ≤ k →
        encodeLoop g.dw fuel buf k (.other (g.o, h) : State (withBrotli b boot g.dw fuel)) inp =
          some (.other (g.o, h'), [], 0)) ∧
        Live b g I false (taken ++ inp) [] h' ∧ (inp = [] → h' = h) := by
  intro t
  induction t using (WellFounded.prod_lex Nat.lt_wfRel.wf Nat.lt_wfRel.wf).induction with
  | _ t ih =>
    intro h taken inp ht hl buf
    by_cases hi : inp = []
    · subst hi
      refine ⟨1, h, fun fuel k _ hk => ?_, by simpa using hl, fun _ => rfl⟩
      obtain ⟨k, rfl⟩ : ∃ j, k = j + 1 := ⟨k - 1, by omega⟩
      rw [encodeLoop, if_pos rfl]
    · obtain ⟨f1, h1, n, k1, k2, k3, k4, -⟩ := Hybrid.encode_spec hb hl inp
      obtain ⟨f2, h2, l1, l2, -⟩ := ih ((inp.drop n).length, m h1.br) (by
          rw [← ht]
          show Prod.Lex (· < ·) (· < ·) _ _
          rw [Prod.lex_def]
          simp only [List.length_drop]
          have := List.length_pos_iff.2 hi
          rcases Nat.eq_zero_or_pos n with h0 | h0
          · exact .inr ⟨by omega, k4 h0 hi⟩
          · exact .inl (by omega)) rfl k3 buf
      refine ⟨max f1 f2 + 1, h2, fun fuel k hfu hk => ?_, ?_, fun h0 => absurd h0 hi⟩
      · obtain ⟨k, rfl⟩ : ∃ j, k = j + 1 := ⟨k - 1, by omega⟩
        have hc := encode_other (b := b) (boot := boot) (co := g.o) (dw := g.dw) (a := ⟨inp, 0, buf, 0⟩)
          ⟨Nat.zero_le _, Nat.zero_le _⟩ (by simpa using k1 fuel (by omega))
        rw [encodeLoop, if_neg hi]
        simp only [hc, Nat.zero_add]
        rw [if_neg (by decide), l1 fuel k (by omega) (by omega)]
        rfl
      · rw [List.append_assoc, List.take_append_drop] at l2
        exact l2

theorem flushLoop_hy (hb : Meets b g I m) : ∀ (t : Nat × Nat) {h : Hy σ} {taken out : List UInt8}, Hybrid.todo b h = t →
      Flushing b g I taken out h → ∀ buf : List UInt8, buf ≠ [] →
      ∃ f0 o, (∀ fuel k, f0 ≤ fuel → f0 ≤ k →
        flushLoop g.dw fuel buf k (.other (g.o, h) : State (withBrotli b boot g.dw fuel)) = some (o, 0)) ∧
        Restores g.dw (out ++ o) taken := by
  intro t
  induction t using (WellFounded.prod_lex Nat.lt_wfRel.wf Nat.lt_wfRel.wf).induction with
  | _ t ih =>
    intro h taken out ht hl buf hbuf
    obtain ⟨f1, h1, o1, code, k1, k2, k3, k4, k5⟩ := Hybrid.flush_spec hb hl buf.length
    rcases k5 with ⟨rfl, hres⟩ | ⟨rfl, hfull⟩
    · refine ⟨f1 + 1, o1, fun fuel k hfu hk => ?_, hres⟩
      obtain ⟨k, rfl⟩ : ∃ j, k = j + 1 := ⟨k - 1, by omega⟩
      have hc := flush_other (b := b) (boot := boot) (co := g.o) (dw := g.dw) (a := ⟨buf, 0⟩)
        (by unfold FlushArgs.Fits; simp) (by simpa using k1 fuel (by omega))
      rw [flushLoop]
      simp only [hc, Nat.zero_add, ret, stored_front]
      rfl
    · have hb' : stored buf 0 o1 ≠ [] := by
        intro e
        have := congrArg List.length e
        rw [stored_length (by omega), List.length_nil] at this
        exact hbuf (List.length_eq_zero_iff.1 this)
      have hne : o1 ≠ [] := by
        intro e
        rw [e, List.length_nil] at hfull
        exact hbuf (List.length_eq_zero_iff.1 hfull.symm)
      obtain ⟨f2, o2, l1, l2⟩ := ih _ (ht ▸ k4 hne) rfl k3 (stored buf 0 o1) hb'
      refine ⟨max f1 f2 + 1, o1 ++ o2, fun fuel k hfu hk => ?_, by rw [← List.append_assoc]; exact l2⟩
      obtain ⟨k, rfl⟩ : ∃ j, k = j + 1 := ⟨k - 1, by omega⟩
      have hc := flush_other (b := b) (boot := boot) (co := g.o) (dw := g.dw) (a := ⟨buf, 0⟩)
        (by unfold FlushArgs.Fits; simp) (by simpa using k1 fuel (by omega))
      rw [flushLoop]
      simp only [hc, Nat.zero_add, ret, stored_front]
      rw [if_neg (by decide), if_neg (by decide), l1 fuel k (by omega) (by omega)]
      rfl

/-- **C93, the example program.**  With settings that leave the choice of commands to brotli, whose encoder keeps the contract,
any buffers that are not empty and any input of any length: `compress` of `c/example.c` ends and returns success, and
`decompress` of what it has collected, with anything behind it, ends, returns success, and has collected the input. -/
theorem default_example {o : Options} {co : Codec.Opts} {dw : Nat → Nat → Nat → List UInt8} (hsel : o.select ≠ .internal)
    (hc : codecOpts o = some co) (hb : Meets b ⟨co, dw, o.window⟩ I m) (h0 : I false (boot o) [] [])
    (buf buf' : List UInt8) (hbuf : buf ≠ []) (hbuf' : buf' ≠ []) (data : List UInt8) (skip : Bool) (tail : List UInt8) :
    ∃ f0 file, ∀ fuel, f0 ≤ fuel →
      compress dw fuel buf (.options o : State (withBrotli b boot dw fuel)) data = some (file, 0) ∧
      decompress dw fuel buf' skip (file ++ tail) = some (data, 0) := by
  obtain ⟨f1, h1, l1, l2, l3⟩ := encodeLoop_hy (boot := boot) hb _ (inp := data) rfl (Hybrid.live_new hb h0) buf
  rw [List.nil_append] at l2
  obtain ⟨f2, file, m1, m2⟩ := flushLoop_hy (boot := boot) hb _ rfl (.inl ⟨false, l2⟩) buf hbuf
  rw [List.nil_append] at m2
  obtain ⟨f3, n1⟩ := decodeLoop_ok (tail := tail) m2.1 skip _ Io.reached_new (List.nil_prefix) rfl buf' hbuf'
  refine ⟨max (max f1 f2) f3 + 1, file, fun fuel hfu => ⟨?_, ?_⟩⟩
  · have hst := brotli_started (b := b) (boot := boot) hsel hc dw fuel
    have e1 := l1 fuel fuel (by omega) (by omega)
    have e2 := m1 fuel fuel (by omega) (by omega)
    simp only at e1 e2
    obtain ⟨k, hk⟩ : ∃ k, fuel = k + 1 := ⟨fuel - 1, by omega⟩
    unfold compress
    by_cases hd : data = []
    · have e3 : encodeLoop dw fuel buf fuel (.options o : State (withBrotli b boot dw fuel)) data = some (.options o, [], 0) := by
        generalize hq : withBrotli b boot dw fuel = w
        rw [hk, encodeLoop, if_pos hd]
      have e4 : flushLoop dw fuel buf fuel (.options o : State (withBrotli b boot dw fuel)) = some (file, 0) := by
        rw [← e2, l3 hd]
        have key : ∀ k, flushLoop dw fuel buf (k + 1) (.options o : State (withBrotli b boot dw fuel)) =
            flushLoop dw fuel buf (k + 1) (.other (co, Hy.new o.window (boot o)) : State (withBrotli b boot dw fuel)) := by
          intro k
          rw [flushLoop, flushLoop, flush_started hst rfl _ _ rfl]
        have := key (fuel - 1)
        rwa [show fuel - 1 + 1 = fuel by omega] at this
      simp only [e3]
      rw [if_neg (by decide), e4]
      rfl
    · have e3 : encodeLoop dw fuel buf fuel (.options o : State (withBrotli b boot dw fuel)) data = some (.other (co, h1), [], 0) := by
        rw [← e1]
        have key : ∀ k, encodeLoop dw fuel buf (k + 1) (.options o : State (withBrotli b boot dw fuel)) data =
            encodeLoop dw fuel buf (k + 1) (.other (co, Hy.new o.window (boot o)) : State (withBrotli b boot dw fuel)) data := by
          intro k
          rw [encodeLoop, encodeLoop, if_neg hd, if_neg hd, encode_started hst rfl _ _ _ _ rfl rfl]
        have := key (fuel - 1)
        rwa [show fuel - 1 + 1 = fuel by omega] at this
      simp only [e3]
      rw [if_neg (by decide), e2]
      rfl
  · have := n1 fuel fuel (by omega) (by omega)
    rw [List.length_nil, List.drop_zero] at this
    exact this

/-- Settings from 15 on for the mixing are accepted and panic here too, in the first call. -/
theorem default_mixing_panics {o : Options} (hsel : o.select ≠ .internal) (hm : 15 ≤ o.mixing.getD 0)
    (dw : Nat → Nat → Nat → List UInt8) (fuel : Nat) (inp buf : List UInt8) :
    cEncode dw fuel (some (.options o : State (withBrotli b boot dw fuel))) inp (some 0) buf (some 0) = none ∧
    cFlush dw fuel (some (.options o : State (withBrotli b boot dw fuel))) buf (some 0) = none := by
  have hc : codecOpts o = none := by
    unfold codecOpts
    simp only
    rw [if_neg (by omega)]
  have hst : (State.options o : State (withBrotli b boot dw fuel)).started = none := by
    unfold State.started
    simp only
    simp [withBrotli, hc]
  constructor
  · unfold cEncode State.encode
    simp [hst]
  · unfold cFlush State.flush
    simp [hst]

/-! ## The theorems are not vacuous -/

/-- The settings as they are without any call of `divans_set_option`, and an encoder that does not always take all its input. -/
example (data : List UInt8) : ∃ f0 file, ∀ fuel, f0 ≤ fuel →
    compress demoWords fuel (List.replicate 65536 0)
      (State.new (withBrotli (Hybrid.toy true) (fun _ => (true, false)) demoWords fuel)) data = some (file, 0) ∧
    decompress demoWords fuel (List.replicate 65536 0) false (file ++ []) = some (data, 0) := by
  have hu := usable_opts (o := { Options.default with select := .internal })
    ⟨rfl, by decide, by decide, tuned_default⟩
  obtain ⟨co, hco, hval⟩ := hu
  have hne : List.replicate 65536 (0 : UInt8) ≠ [] := fun e => by
    have := congrArg List.length e
    rw [List.length_replicate] at this
    exact absurd this (by decide)
  exact default_example (b := Hybrid.toy true) (boot := fun _ => (true, false)) (o := .default) (co := co) (I := Hybrid.toyInv demoWords)
    (m := fun _ => 0) (by decide) hco (Hybrid.toy_meets true (hval demoWords _)) ⟨by simp, rfl, fun _ => rfl⟩ _ _
    hne hne data false []

end Divans.Ffi
