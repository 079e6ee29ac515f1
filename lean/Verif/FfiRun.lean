import Verif.Ffi
import Verif.RoundTripProps
import Verif.CompLen
import Mathlib.Tactic.SplitIfs

/-!
# The C interface: lemmas

The calls of a C program on a compressor with usable settings, the loops of the example program.
-/

namespace Divans.Ffi
open Divans.Adaptive Divans.Pipe Divans.Frame Divans.Compressor
open Divans.Eng (Code Cfg)
open Divans.Cdf (Speed SafeSpeed)

/-! ## Settings -/

/-- The speeds are unset or from the palette. -/
def Tuned (o : Options) : Prop :=
  ∀ a b c d, o.adaptation = some (a, b, c, d) → a ∈ palette ∧ b ∈ palette ∧ c ∈ palette ∧ d ∈ palette

theorem tuned_default : Tuned .default := by
  intro a b c d h
  cases h

theorem tuned_speed {o o' : Options} {i v : Nat} (h : Tuned o) (e : setSpeed o i v = some o') : Tuned o' := by
  unfold setSpeed at e
  cases hp : palette[v]? with
  | none => rw [hp] at e; cases e
  | some sp =>
    rw [hp, Option.map_some, Option.some.injEq] at e
    have hm : sp ∈ palette := List.mem_of_getElem? hp
    subst e
    intro a b c d he
    cases ha : o.adaptation with
    | none =>
      simp only [ha, Option.some.injEq, Prod.mk.injEq] at he
      obtain ⟨rfl, rfl, rfl, rfl⟩ := he
      exact ⟨hm, hm, hm, hm⟩
    | some t =>
      obtain ⟨x, y, z, w⟩ := t
      obtain ⟨h1, h2, h3, h4⟩ := h x y z w ha
      simp only [ha] at he
      by_cases i0 : i = 0
      · rw [if_pos i0] at he
        simp only [Option.some.injEq, Prod.mk.injEq] at he
        obtain ⟨rfl, rfl, rfl, rfl⟩ := he
        exact ⟨hm, h2, h3, h4⟩
      · rw [if_neg i0] at he
        by_cases i1 : i = 1
        · rw [if_pos i1] at he
          simp only [Option.some.injEq, Prod.mk.injEq] at he
          obtain ⟨rfl, rfl, rfl, rfl⟩ := he
          exact ⟨h1, hm, h3, h4⟩
        · rw [if_neg i1] at he
          by_cases i2 : i = 2
          · rw [if_pos i2] at he
            simp only [Option.some.injEq, Prod.mk.injEq] at he
            obtain ⟨rfl, rfl, rfl, rfl⟩ := he
            exact ⟨h1, h2, hm, h4⟩
          · rw [if_neg i2] at he
            simp only [Option.some.injEq, Prod.mk.injEq] at he
            obtain ⟨rfl, rfl, rfl, rfl⟩ := he
            exact ⟨h1, h2, h3, hm⟩

/-- The selectors. -/
theorem selectors (k : Nat) : k = 1 ∨ k = 2 ∨ k = 3 ∨ k = 4 ∨ k = 5 ∨ k = 6 ∨ k = 7 ∨ k = 8 ∨ k = 9 ∨ k = 10 ∨ k = 11 ∨
    k = 12 ∨ k = 13 ∨ k = 14 ∨ k = 15 ∨ k = 16 ∨ k = 17 ∨ k = 18 ∨ k = 19 ∨ k = 20 ∨ (k = 0 ∨ 20 < k) := by omega

theorem set_unknown {o : Options} {k v : Nat} (h : k = 0 ∨ 20 < k) : setOption o k v = none := by
  unfold setOption
  repeat rw [if_neg (by omega)]

/-- A setting other than a speed leaves the speeds alone. -/
theorem setOption_cases {o o' : Options} {k v : Nat} (e : setOption o k v = some o') :
    o'.adaptation = o.adaptation ∨ ∃ i, setSpeed o i v = some o' := by
  rcases selectors k with rfl | rfl | rfl | rfl | rfl | rfl | rfl | rfl | rfl | rfl | rfl | rfl | rfl | rfl | rfl |
    rfl | rfl | rfl | rfl | rfl | h
  case inr.inr.inr.inr.inr.inr.inr.inr.inr.inr.inr.inr.inr.inr.inr.inr.inr.inr.inr.inr =>
    rw [set_unknown h] at e; cases e
  all_goals
    simp only [setOption, Nat.reduceEqDiff, if_true, if_false] at e
  all_goals first
    | exact .inr ⟨_, e⟩
    | (cases e; exact .inl rfl)
    | (split_ifs at e <;> (cases e; exact .inl rfl))

theorem tuned_set {o o' : Options} {k v : Nat} (h : Tuned o) (e : setOption o k v = some o') : Tuned o' := by
  rcases setOption_cases e with h1 | ⟨i, h1⟩
  · intro a b c d hd
    exact h a b c d (h1 ▸ hd)
  · exact tuned_speed h h1

theorem tuned_all : ∀ (l : List (Nat × Nat)) {o o' : Options}, Tuned o → setAll o l = some o' → Tuned o'
  | [], o, o', h, e => by cases e; exact h
  | (k, v) :: l, o, o', h, e => by
    rw [setAll] at e
    cases h1 : setOption o k v with
    | none => rw [h1] at e; cases e
    | some o1 =>
      rw [h1, Option.bind_some] at e
      exact tuned_all l (tuned_set h h1) e

/-! ## The prediction mode command with any of these settings -/

theorem palette_arrives : ∀ sp ∈ palette, ∃ v, Lit.speedOf (Codec.speedArrives sp) = some v ∧ SafeSpeed v := by
  have h : ∀ sp ∈ palette, Lit.speedOf (Codec.speedArrives sp) = some sp := by decide +kernel
  have h2 : ∀ sp ∈ palette, 0 ≤ sp.inc ∧ sp.inc ≤ 5445 ∧ sp.lim ≤ 2 ^ 14 := by decide +kernel
  exact fun sp hs => ⟨sp, h sp hs, h2 sp hs⟩

theorem wanted_some {o : Codec.Opts} {a b c d : Speed} (ha : o.adaptation = some (a, b, c, d)) {p : Codec.PmIn}
    (hs : p.speeds = some ⟨(0, 0), (0, 0), (0, 0), (0, 0), (0, 0), (0, 0)⟩) :
    Codec.wantedSpeeds o p = some [a, b, c, d] := by
  have h0 : Codec.wantedSpeed (0, 0) = some Codec.mud := by
    rw [Codec.wantedSpeed, if_neg (by decide)]
  generalize Codec.mud = q at h0
  unfold Codec.wantedSpeeds
  rw [ha, hs]
  by_cases hm : o.mixing ≠ 0
  · simp only [if_pos hm, h0]; rfl
  · simp only [if_neg hm, h0]; rfl

theorem tuned_valid {o : Codec.Opts}
    (ht : ∀ a b c d, o.adaptation = some (a, b, c, d) → a ∈ palette ∧ b ∈ palette ∧ c ∈ palette ∧ d ∈ palette)
    (hm : o.mixing < 8) (hd : o.priorDepth < 16)
    (dw : Nat → Nat → Nat → List UInt8) (L : Nat) : (Item.pm rawPm).Valid o dw L := by
  cases ha : o.adaptation with
  | none => exact rawPm_valid ha hm hd dw L
  | some t =>
    obtain ⟨a, b, c, d⟩ := t
    obtain ⟨h1, h2, h3, h4⟩ := ht a b c d ha
    have hw := wanted_some ha (p := rawPm) rfl
    refine ⟨⟨_, ⟨by decide, by decide, hm, hd, hw, ?_, by decide, fun _ => ⟨List.length_replicate, ?_⟩⟩⟩, trivial, ?_⟩
    · show ((List.range 64).map UInt8.ofNat).length ≤ 16384
      rw [List.length_map, List.length_range]
      omega
    · intro v hv
      rw [List.eq_of_mem_replicate hv]
      decide
    · rintro p hp w hw' sp hsp
      cases hp
      rw [hw] at hw'
      cases hw'
      have : sp ∈ palette := by
        simp only [List.mem_cons, List.not_mem_nil, or_false] at hsp
        rcases hsp with rfl | rfl | rfl | rfl <;> assumption
      exact palette_arrives sp this

/-- Settings with which the internal compressor works. -/
structure Usable (o : Options) : Prop where
  select : o.select = .internal
  mixing : o.mixing.getD 0 < 8
  depth : o.priorDepth.getD 0 < 16
  tuned : Tuned o

theorem usable_opts {o : Options} (h : Usable o) : ∃ co, codecOpts o = some co ∧
    ∀ (dw : Nat → Nat → Nat → List UInt8) (L : Nat), (Item.pm rawPm).Valid co dw L := by
  refine ⟨_, if_pos (by have := h.mixing; omega), fun dw L => tuned_valid (by exact h.tuned) ?_ (by exact h.depth) dw L⟩
  have := h.mixing
  show (if _ then 1 else o.mixing.getD 0) < 8
  by_cases hc : o.stride ≠ 0 ∧ o.mixing.getD 0 = 0 ∧ o.contextMap = true
  · rw [if_pos hc]; omega
  · rw [if_neg hc]; exact this

theorem usable_started {b : Other} {o : Options} {co : Codec.Opts} (h : Usable o) (hc : codecOpts o = some co) :
    (State.options o : State b).started = some (.internal co (.new o.window)) := by
  unfold State.started
  simp only [h.select, hc, Option.map_some]

/-! ## Buffers -/

theorem stored_length {buf : List UInt8} {p : Nat} {w : List UInt8} (h : p + w.length ≤ buf.length) :
    (stored buf p w).length = buf.length := by
  unfold stored
  rw [List.length_append, List.length_append, List.length_take, List.length_drop]
  omega

theorem stored_take {buf : List UInt8} {p : Nat} {w : List UInt8} (h : p ≤ buf.length) :
    (stored buf p w).take p = buf.take p := by
  unfold stored
  rw [List.append_assoc, List.take_append_of_le_length (by rw [List.length_take]; omega), List.take_take]
  congr 1
  omega

theorem stored_drop {buf : List UInt8} {p : Nat} {w : List UInt8} (h : p ≤ buf.length) :
    (stored buf p w).drop (p + w.length) = buf.drop (p + w.length) := by
  unfold stored
  have : p + w.length = (buf.take p ++ w).length := by rw [List.length_append, List.length_take]; omega
  rw [List.drop_left' this.symm]

theorem stored_middle {buf : List UInt8} {p : Nat} {w : List UInt8} (h : p ≤ buf.length) :
    ((stored buf p w).drop p).take w.length = w := by
  unfold stored
  rw [List.append_assoc, List.drop_left' (by rw [List.length_take]; omega)]
  exact List.take_left

theorem stored_front {buf : List UInt8} {w : List UInt8} : (stored buf 0 w).take w.length = w := by
  unfold stored
  rw [List.take_zero, List.nil_append]
  exact List.take_left

/-! ## Sessions -/

/-- The arguments of a call of `divans_encode`: input buffer and offset, output buffer and offset. -/
structure EncArgs where
  inp : List UInt8
  i : Nat
  buf : List UInt8
  p : Nat

/-- The arguments of a call of `divans_encode_flush`. -/
structure FlushArgs where
  buf : List UInt8
  p : Nat

/-- The offsets lie in their buffers. -/
def EncArgs.Fits (a : EncArgs) : Prop := a.i ≤ a.inp.length ∧ a.p ≤ a.buf.length

/-- The offset lies in the buffer. -/
def FlushArgs.Fits (a : FlushArgs) : Prop := a.p ≤ a.buf.length

/-- Calls of `divans_encode` one after the other. -/
def encodeCalls {b : Other} (dw : Nat → Nat → Nat → List UInt8) (fuel : Nat) :
    State b → List EncArgs → Option (State b × List (After (State b)))
  | s, [] => some (s, [])
  | s, a :: as =>
    match cEncode dw fuel (some s) a.inp (some a.i) a.buf (some a.p) with
    | some r =>
      match r.state with
      | some s' => (encodeCalls dw fuel s' as).map fun z => (z.1, r :: z.2)
      | none => none
    | none => none

/-- Calls of `divans_encode_flush` one after the other. -/
def flushCalls {b : Other} (dw : Nat → Nat → Nat → List UInt8) (fuel : Nat) :
    State b → List FlushArgs → Option (List (After (State b)))
  | _, [] => some []
  | s, a :: as =>
    match cFlush dw fuel (some s) a.buf (some a.p) with
    | some r =>
      match r.state with
      | some s' => (flushCalls dw fuel s' as).map fun z => r :: z
      | none => none
    | none => none

/-- The bytes a call has taken: between the old and the new offset of the input. -/
def takenIn {σ : Type} (a : EncArgs) (r : After σ) : List UInt8 := (a.inp.drop a.i).take (r.inOff.getD 0 - a.i)

/-- The bytes a call has written: between the old and the new offset of the output. -/
def wroteIn {σ : Type} (p : Nat) (r : After σ) : List UInt8 := (r.buf.drop p).take (r.outOff.getD 0 - p)

/-- What a call of `divans_encode` may do with the memory of the caller: offsets only move forward and stay
inside; nothing outside of the part between old and new offset of the output is changed.  It asks for input
when all has been taken, and for output space when the buffer is full; it returns nothing else. -/
def EncArgs.Kept {σ : Type} (a : EncArgs) (r : After σ) : Prop :=
  ∃ i' p', r.inOff = some i' ∧ r.outOff = some p' ∧ a.i ≤ i' ∧ i' ≤ a.inp.length ∧ a.p ≤ p' ∧ p' ≤ a.buf.length ∧
    r.buf.length = a.buf.length ∧ r.buf.take a.p = a.buf.take a.p ∧ r.buf.drop p' = a.buf.drop p' ∧
    (r.code = 1 ∧ i' = a.inp.length ∨ r.code = 2 ∧ p' = a.buf.length)

/-- The same for `divans_encode_flush`, which reports success or asks for output space. -/
def FlushArgs.Kept {σ : Type} (a : FlushArgs) (r : After σ) : Prop :=
  ∃ p', r.outOff = some p' ∧ a.p ≤ p' ∧ p' ≤ a.buf.length ∧
    r.buf.length = a.buf.length ∧ r.buf.take a.p = a.buf.take a.p ∧ r.buf.drop p' = a.buf.drop p' ∧
    (r.code = 0 ∨ r.code = 2 ∧ p' = a.buf.length)

/-- All bytes taken in calls of `divans_encode`. -/
def takenAll {σ : Type} (as : List EncArgs) (rs : List (After σ)) : List UInt8 :=
  (as.zip rs).flatMap fun x => takenIn x.1 x.2

/-- All bytes written in calls of `divans_encode`. -/
def wroteAll {σ : Type} (as : List EncArgs) (rs : List (After σ)) : List UInt8 :=
  (as.zip rs).flatMap fun x => wroteIn x.1.p x.2

/-- All bytes written in calls of `divans_encode_flush`. -/
def flushedAll {σ : Type} (as : List FlushArgs) (rs : List (After σ)) : List UInt8 :=
  (as.zip rs).flatMap fun x => wroteIn x.1.p x.2

theorem encode_internal {b : Other} {dw : Nat → Nat → Nat → List UInt8} {fuel : Nat} {o : Codec.Opts} {c c' : Comp}
    {n : Nat} {out : List UInt8} {code : Code} {a : EncArgs} (hf : a.Fits)
    (h : c.encode o dw fuel (a.inp.drop a.i) (a.buf.length - a.p) = some (c', n, out, code)) :
    cEncode dw fuel (some (.internal o c : State b)) a.inp (some a.i) a.buf (some a.p) =
      some ⟨some (.internal o c'), some (a.i + n), stored a.buf a.p out, some (a.p + out.length), ret code⟩ := by
  unfold cEncode
  simp only
  rw [if_pos (by exact hf)]
  unfold State.encode State.started
  simp only [h, Option.map_some]

theorem flush_internal {b : Other} {dw : Nat → Nat → Nat → List UInt8} {fuel : Nat} {o : Codec.Opts} {c c' : Comp}
    {out : List UInt8} {code : Code} {a : FlushArgs} (hf : a.Fits)
    (h : c.flush o dw fuel (a.buf.length - a.p) = some (c', out, code)) :
    cFlush dw fuel (some (.internal o c : State b)) a.buf (some a.p) =
      some ⟨some (.internal o c'), none, stored a.buf a.p out, some (a.p + out.length), ret code⟩ := by
  unfold cFlush
  simp only
  rw [if_pos (by exact hf)]
  unfold State.flush State.started
  simp only [h, Option.map_some]

theorem encode_started {b : Other} {dw : Nat → Nat → Nat → List UInt8} {fuel : Nat} {s t : State b}
    (h : s.started = some t) (ht : t.started = some t) (inp : List UInt8) (i : Option Nat) (buf : List UInt8) (p : Option Nat)
    (hi : i.isSome = true) (hp : p.isSome = true) :
    cEncode dw fuel (some s) inp i buf p = cEncode dw fuel (some t) inp i buf p := by
  have : ∀ x r, s.encode dw fuel x r = t.encode dw fuel x r := by
    intro x r
    unfold State.encode
    rw [h, ht]
  obtain ⟨i, rfl⟩ := Option.isSome_iff_exists.1 hi
  obtain ⟨p, rfl⟩ := Option.isSome_iff_exists.1 hp
  unfold cEncode
  simp only [this]

theorem flush_started {b : Other} {dw : Nat → Nat → Nat → List UInt8} {fuel : Nat} {s t : State b}
    (h : s.started = some t) (ht : t.started = some t) (buf : List UInt8) (p : Option Nat) (hp : p.isSome = true) :
    cFlush dw fuel (some s) buf p = cFlush dw fuel (some t) buf p := by
  have : ∀ r, s.flush dw fuel r = t.flush dw fuel r := by
    intro r
    unfold State.flush
    rw [h, ht]
  obtain ⟨p, rfl⟩ := Option.isSome_iff_exists.1 hp
  unfold cFlush
  simp only [this]

theorem encodeCalls_started {b : Other} {dw : Nat → Nat → Nat → List UInt8} {fuel : Nat} {s t : State b}
    (h : s.started = some t) (ht : t.started = some t) (a : EncArgs) (as : List EncArgs) :
    encodeCalls dw fuel s (a :: as) = encodeCalls dw fuel t (a :: as) := by
  unfold encodeCalls
  rw [encode_started h ht _ _ _ _ rfl rfl]

theorem flushCalls_started {b : Other} {dw : Nat → Nat → Nat → List UInt8} {fuel : Nat} {s t : State b}
    (h : s.started = some t) (ht : t.started = some t) (as : List FlushArgs) :
    flushCalls dw fuel s as = flushCalls dw fuel t as := by
  cases as with
  | nil => rfl
  | cons a as =>
    unfold flushCalls
    rw [flush_started h ht _ _ rfl]

theorem encode_calls_ok {b : Other} {g : Cfg} (hpm : (Item.pm rawPm).Valid g.o g.dw g.ring) : ∀ (as : List EncArgs),
    (∀ a ∈ as, a.Fits) →
    ∀ {c : Comp} {out : List UInt8} {ops : List RawCmd.Op} {taken : List UInt8} {done fr : List RawCmd.Cmd},
    Pushing g c out ops taken done fr → (taken.length ≤ 2 * g.ring - 2 → Once g ops) →
    ∃ f0 c' rs, (∀ fuel, f0 ≤ fuel →
        encodeCalls g.dw fuel (.internal g.o c : State b) as = some (.internal g.o c', rs)) ∧
      rs.length = as.length ∧ (∀ x ∈ as.zip rs, x.1.Kept x.2) ∧
      ∃ ops' done' fr', Pushing g c' (out ++ wroteAll as rs) ops' (taken ++ takenAll as rs) done' fr' ∧
        ((taken ++ takenAll as rs).length ≤ 2 * g.ring - 2 → Once g ops') := by
  intro as
  induction as with
  | nil =>
    intro _ c out ops taken done fr h hcl
    exact ⟨0, c, [], fun _ _ => rfl, rfl, by simp, ops, done, fr, by simpa [wroteAll, takenAll] using h,
      by simpa [takenAll] using hcl⟩
  | cons a as ih =>
    intro hf c out ops taken done fr h hcl
    have ha := hf a (by simp)
    obtain ⟨h1, h2⟩ := ha
    obtain ⟨f1, c1, n, o, code, k1, k2⟩ := encode_spec hpm h (a.inp.drop a.i) (a.buf.length - a.p)
    obtain ⟨ops1, d1, fr1, hp, hch⟩ := k2.how
    obtain ⟨f2, c2, rs, l1, l2, l3, l4⟩ := ih (fun x hx => hf x (by simp [hx])) hp (fun hl => by
      rw [List.length_append, List.length_take, Nat.min_eq_left k2.le] at hl
      exact h.few (hcl (by omega)) hch (.inl hl))
    have hn := k2.le
    rw [List.length_drop] at hn
    have ho := k2.len
    refine ⟨max f1 f2, c2, ⟨some (.internal g.o c1), some (a.i + n), stored a.buf a.p o, some (a.p + o.length), ret code⟩ :: rs,
      fun fuel hfu => ?_, by simp [l2], ?_, ?_⟩
    · rw [encodeCalls, encode_internal ⟨h1, h2⟩ (k1 fuel (by omega))]
      simp only [l1 fuel (by omega), Option.map_some]
    · intro x hx
      rw [List.zip_cons_cons, List.mem_cons] at hx
      rcases hx with rfl | hx
      · show EncArgs.Kept a _
        refine ⟨a.i + n, a.p + o.length, rfl, rfl, by omega, by omega, by omega, by omega, stored_length (by omega),
          stored_take h2, stored_drop h2, ?_⟩
        rcases k2.cases with ⟨rfl, e⟩ | ⟨rfl, e⟩
        · rw [List.length_drop] at e
          exact .inl ⟨rfl, by omega⟩
        · exact .inr ⟨rfl, by omega⟩
      · exact l3 x hx
    · obtain ⟨ops', done', fr', hq, hq'⟩ := l4
      refine ⟨ops', done', fr', ?_⟩
      have e1 : wroteAll (a :: as) (⟨some (.internal g.o c1), some (a.i + n), stored a.buf a.p o, some (a.p + o.length),
          ret code⟩ :: rs : List (After (State b))) = o ++ wroteAll as rs := by
        unfold wroteAll
        rw [List.zip_cons_cons, List.flatMap_cons]
        congr 1
        unfold wroteIn
        simp only [Option.getD_some]
        rw [show a.p + o.length - a.p = o.length by omega]
        exact stored_middle h2
      have e2 : takenAll (a :: as) (⟨some (.internal g.o c1), some (a.i + n), stored a.buf a.p o, some (a.p + o.length),
          ret code⟩ :: rs : List (After (State b))) = (a.inp.drop a.i).take n ++ takenAll as rs := by
        unfold takenAll
        rw [List.zip_cons_cons, List.flatMap_cons]
        congr 1
        unfold takenIn
        simp only [Option.getD_some]
        rw [show a.i + n - a.i = n by omega]
      rw [e1, e2, ← List.append_assoc, ← List.append_assoc]
      exact ⟨hq, hq'⟩

theorem flush_calls_ok {b : Other} {g : Cfg} (hpm : (Item.pm rawPm).Valid g.o g.dw g.ring) : ∀ (as : List FlushArgs),
    (∀ a ∈ as, a.Fits) →
    ∀ {c : Comp} {out : List UInt8} {all : List RawCmd.Cmd}, Closing g c out all →
    ∃ f0 rs, (∀ fuel, f0 ≤ fuel → flushCalls g.dw fuel (.internal g.o c : State b) as = some rs) ∧
      rs.length = as.length ∧ (∀ x ∈ as.zip rs, x.1.Kept x.2) ∧
      ((rs.getLast?).map After.code = some 0 → ∃ c', Compressor.After g c' (out ++ flushedAll as rs) all ∧
        c'.eng.ending = some [] ∧ c'.eng.cmp.stage = .done) := by
  intro as
  induction as with
  | nil =>
    intro _ c out all h
    exact ⟨0, [], fun _ _ => rfl, rfl, by simp, by simp⟩
  | cons a as ih =>
    intro hf c out all h
    have h2 : a.p ≤ a.buf.length := hf a (by simp)
    obtain ⟨f1, c1, o, code, k1, k2⟩ := flush_spec hpm h (a.buf.length - a.p)
    obtain ⟨f2, rs, l1, l2, l3, l4⟩ := ih (fun x hx => hf x (by simp [hx])) k2.ok
    have ho := k2.len
    have e1 : flushedAll (a :: as) (⟨some (.internal g.o c1), none, stored a.buf a.p o, some (a.p + o.length),
        ret code⟩ :: rs : List (After (State b))) = o ++ flushedAll as rs := by
      unfold flushedAll
      rw [List.zip_cons_cons, List.flatMap_cons]
      congr 1
      unfold wroteIn
      simp only [Option.getD_some]
      rw [show a.p + o.length - a.p = o.length by omega]
      exact stored_middle h2
    refine ⟨max f1 f2, ⟨some (.internal g.o c1), none, stored a.buf a.p o, some (a.p + o.length), ret code⟩ :: rs,
      fun fuel hfu => ?_, by simp [l2], ?_, ?_⟩
    · rw [flushCalls, flush_internal h2 (k1 fuel (by omega))]
      simp only [l1 fuel (by omega), Option.map_some]
    · intro x hx
      rw [List.zip_cons_cons, List.mem_cons] at hx
      rcases hx with rfl | hx
      · show FlushArgs.Kept a _
        refine ⟨a.p + o.length, rfl, by omega, by omega, stored_length (by omega), stored_take h2, stored_drop h2, ?_⟩
        rcases k2.cases with ⟨rfl, -⟩ | ⟨rfl, e, -⟩
        · exact .inl rfl
        · exact .inr ⟨rfl, by omega⟩
      · exact l3 x hx
    · rw [e1, ← List.append_assoc]
      cases rs with
      | nil =>
        intro hc
        have hc' : ret code = 0 := by simpa using hc
        rcases k2.cases with ⟨rfl, q1, q2, q3⟩ | ⟨rfl, -⟩
        · refine ⟨c1, ?_, q2, q3⟩
          cases as with
          | nil => simpa [flushedAll] using q1
          | cons _ _ => simp at l2
        · cases hc'
      | cons r rs =>
        intro hc
        rw [List.getLast?_cons_cons] at hc
        exact l4 hc

/-! ## The loops of the example program -/

theorem encodeLoop_ok {b : Other} {g : Cfg} (hpm : (Item.pm rawPm).Valid g.o g.dw g.ring) :
    ∀ (m : Nat × Nat × Nat × Nat × Nat × Nat) {c : Comp} {out : List UInt8} {ops : List RawCmd.Op}
      {taken : List UInt8} {done fr : List RawCmd.Cmd} {inp : List UInt8}, (inp.length, mu c) = m →
      Pushing g c out ops taken done fr → (RawCmd.Fair g.ring (taken ++ inp).length → Once g ops) → ∀ buf : List UInt8, buf ≠ [] →
      ∃ f0 c' o, (∀ fuel k, f0 ≤ fuel → f0 ≤ k →
        encodeLoop g.dw fuel buf k (.internal g.o c : State b) inp = some (.internal g.o c', o, 0)) ∧
        ∃ ops' done' fr', Pushing g c' (out ++ o) ops' (taken ++ inp) done' fr' ∧
          (RawCmd.Fair g.ring (taken ++ inp).length → Once g ops') := by
  intro m
  have wf : WellFounded (Prod.Lex (· < ·) lt5) := WellFounded.prod_lex Nat.lt_wfRel.wf lt5_wf
  induction m using wf.induction with
  | _ m ih =>
    intro c out ops taken done fr inp hm h hcl buf hb
    by_cases hi : inp = []
    · subst hi
      refine ⟨1, c, [], fun fuel k _ hk => ?_, ops, done, fr, by simpa using h, hcl⟩
      obtain ⟨k, rfl⟩ : ∃ j, k = j + 1 := ⟨k - 1, by omega⟩
      rw [encodeLoop, if_pos rfl]
    · obtain ⟨f1, c1, n1, o1, code, k1, k2⟩ := encode_spec hpm h inp buf.length
      obtain ⟨ops1, d1, fr1, hp1, hch⟩ := k2.how
      have hle := k2.le
      have hlen := k2.len
      have hpr := k2.progress hi (List.length_pos_iff.2 hb)
      have hlt : Prod.Lex (· < ·) lt5 ((inp.drop n1).length, mu c1) m := by
        rw [← hm, Prod.lex_def]
        simp only [List.length_drop]
        by_cases hn : 1 ≤ n1
        · left; omega
        · right
          refine ⟨by omega, ?_⟩
          rcases hpr with h | h
          · omega
          · exact h
      have hb' : stored buf 0 o1 ≠ [] := by
        intro e
        have := congrArg List.length e
        rw [stored_length (by omega), List.length_nil] at this
        exact hb (List.length_eq_zero_iff.1 this)
      have hcl' : RawCmd.Fair g.ring (taken ++ inp.take n1 ++ inp.drop n1).length → Once g (ops ++ ops1) := by
        rw [List.append_assoc, List.take_append_drop]
        intro hf
        refine h.ample (hcl hf) hch ?_
        have := RawCmd.ample_rest (ring_two' g) hf (t := taken.length)
          (by rw [List.length_append]; have := List.length_pos_iff.2 hi; omega)
        rwa [List.length_append, Nat.add_sub_cancel_left] at this
      obtain ⟨f2, c2, o2, l1, ops2, d2, fr2, l2, l3⟩ := ih _ hlt rfl hp1 hcl' (stored buf 0 o1) hb'
      refine ⟨max f1 f2 + 1, c2, o1 ++ o2, fun fuel k hf hk => ?_, ops2, d2, fr2, ?_⟩
      · obtain ⟨k, rfl⟩ : ∃ j, k = j + 1 := ⟨k - 1, by omega⟩
        have hc := encode_internal (b := b) (a := ⟨inp, 0, buf, 0⟩) ⟨Nat.zero_le _, Nat.zero_le _⟩
          (by simpa using k1 fuel (by omega))
        rw [encodeLoop, if_neg hi]
        simp only [hc, Nat.zero_add]
        rw [if_neg (by rcases k2.cases with ⟨rfl, -⟩ | ⟨rfl, -⟩ <;> decide), l1 fuel k (by omega) (by omega),
          stored_front]
        rfl
      · rw [List.append_assoc taken, List.take_append_drop] at l2 l3
        rw [← List.append_assoc]
        exact ⟨l2, l3⟩

theorem flushLoop_ok {b : Other} {g : Cfg} (hpm : (Item.pm rawPm).Valid g.o g.dw g.ring) :
    ∀ (m : Nat × Nat × Nat × Nat × Nat × Nat × Nat) {c : Comp} {out : List UInt8} {all : List RawCmd.Cmd}, rank c = m →
      Closing g c out all → ∀ buf : List UInt8, buf ≠ [] →
      ∃ f0 c' o, (∀ fuel k, f0 ≤ fuel → f0 ≤ k →
        flushLoop g.dw fuel buf k (.internal g.o c : State b) = some (o, 0)) ∧
        Compressor.After g c' (out ++ o) all ∧ c'.eng.ending = some [] ∧ c'.eng.cmp.stage = .done := by
  intro m
  induction m using lt7_wf.induction with
  | _ m ih =>
    intro c out all hm h buf hb
    obtain ⟨f1, c1, o1, code, k1, k2⟩ := flush_spec hpm h buf.length
    have hlen := k2.len
    rcases k2.cases with ⟨rfl, q1, q2, q3⟩ | ⟨rfl, -, hlt⟩
    · refine ⟨f1 + 1, c1, o1, fun fuel k hf hk => ?_, q1, q2, q3⟩
      obtain ⟨k, rfl⟩ : ∃ j, k = j + 1 := ⟨k - 1, by omega⟩
      have hc := flush_internal (b := b) (a := ⟨buf, 0⟩) (by unfold FlushArgs.Fits; simp) (by simpa using k1 fuel (by omega))
      rw [flushLoop]
      simp only [hc, Nat.zero_add, ret, stored_front]
      rfl
    · have hb' : stored buf 0 o1 ≠ [] := by
        intro e
        have := congrArg List.length e
        rw [stored_length (by omega), List.length_nil] at this
        exact hb (List.length_eq_zero_iff.1 this)
      obtain ⟨f2, c2, o2, l1, l2, l3, l4⟩ := ih _ (hm ▸ hlt (List.length_pos_iff.2 hb)) rfl k2.ok (stored buf 0 o1) hb'
      refine ⟨max f1 f2 + 1, c2, o1 ++ o2, fun fuel k hf hk => ?_, by rw [← List.append_assoc]; exact l2, l3, l4⟩
      obtain ⟨k, rfl⟩ : ∃ j, k = j + 1 := ⟨k - 1, by omega⟩
      have hc := flush_internal (b := b) (a := ⟨buf, 0⟩) (by unfold FlushArgs.Fits; simp) (by simpa using k1 fuel (by omega))
      rw [flushLoop]
      simp only [hc, Nat.zero_add, ret, stored_front]
      rw [if_neg (by decide), if_neg (by decide), l1 fuel k (by omega) (by omega)]
      rfl

/-- A finished file of raw input gives back what was taken. -/
theorem raw_restores {g : Cfg} (hpm : (Item.pm rawPm).Valid g.o g.dw g.ring) {c : Comp} {out : List UInt8}
    {ops : List RawCmd.Op} {taken : List UInt8} {done fr : List RawCmd.Cmd} (h : Pushing g c out ops taken done fr)
    {all : List RawCmd.Cmd} (h6 : RawCmd.Complete (List.replicate g.ring 0) ops taken all) {c' : Comp} {file : List UInt8}
    (ha : Compressor.After g c' file all) (he : c'.eng.ending = some []) (hd : c'.eng.cmp.stage = .done)
    (hl : taken.length ≤ g.ring) : Restores g.dw file taken := by
  have hb := RawCmd.raw_lossless_partial (by rw [List.length_replicate]; have := Cfg.ring_ge g; omega) h.only.streams h6
    (by rw [List.length_replicate]; exact hl)
  rw [← hb, ← original_raw g.dw]
  refine finished ha.eng he hd ?_ (inHistory_raw g.dw all 0)
  intro x hx
  obtain ⟨y, hy, rfl⟩ := List.mem_map.1 hx
  have := RawCmd.complete_fits h6 y hy
  rw [List.length_replicate] at this
  exact fits_valid hpm this

end Divans.Ffi
