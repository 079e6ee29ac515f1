import Verif.FfiRun
import Verif.IoDec

/-!
# C63: the C interface

Settings, memory of the caller, return codes, and the round trip of the example program.
-/

namespace Divans.Ffi
open Divans.Adaptive Divans.Pipe Divans.Frame Divans.Compressor
open Divans.Eng (Code Cfg Eng)
open Divans.Cdf (Speed)

/-! ## Specification -/

/-- The settings the interface accepts: selectors 1 to 20; who chooses the commands 0 to 2 (5) or 1 (6); context
maps off or on (7); strides 0 to 8 (9); one of the 15 speeds (8, 12, 13, 14); the others take any value. -/
def Accepts (k v : Nat) : Prop :=
  1 ≤ k ∧ k ≤ 20 ∧ (k = 5 → v ≤ 2) ∧ (k = 6 → v = 1) ∧ (k = 7 → v ≤ 1) ∧ (k = 9 → v ≤ 8) ∧
    (k = 8 ∨ k = 12 ∨ k = 13 ∨ k = 14 → v < 15)

/-- The four speeds. -/
def IsSpeed (k : Nat) : Prop := k = 8 ∨ k = 12 ∨ k = 13 ∨ k = 14

/-- Who chooses the commands: two selectors for the same thing. -/
def IsSelect (k : Nat) : Prop := k = 5 ∨ k = 6

/-- What a C program does with a compressor. -/
inductive Op where
  | set (k v : Nat)
  | encode (a : EncArgs)
  | flush (a : FlushArgs)

/-- What it gets. -/
inductive Reply (b : Other) where
  | set (code : Nat)
  | call (r : After (State b))

/-- One operation. -/
def Op.run {b : Other} (dw : Nat → Nat → Nat → List UInt8) (fuel : Nat) (s : Option (State b)) :
    Op → Option (Option (State b) × Reply b)
  | .set k v => some ((cSet s k v).1, .set (cSet s k v).2)
  | .encode a => (cEncode dw fuel s a.inp (some a.i) a.buf (some a.p)).map fun r => (r.state, .call r)
  | .flush a => (cFlush dw fuel s a.buf (some a.p)).map fun r => (r.state, .call r)

/-- A history. -/
def runAll {b : Other} (dw : Nat → Nat → Nat → List UInt8) (fuel : Nat) :
    Option (State b) → List Op → Option (Option (State b) × List (Reply b))
  | s, [] => some (s, [])
  | s, x :: xs =>
    match x.run dw fuel s with
    | none => none
    | some (s', r) => (runAll dw fuel s' xs).map fun z => (z.1, r :: z.2)

/-- Not a setting. -/
def Op.isCall : Op → Bool
  | .set _ _ => false
  | _ => true

/-- Not the answer to a setting. -/
def Reply.isCall {b : Other} : Reply b → Bool
  | .set _ => false
  | _ => true

/-! ## Settings -/

/-- An accepted setting, field by field. -/
def upd (k v : Nat) (o : Options) : Options :=
  { adaptation :=
      if k = 8 then ((setSpeed o 3 v).map Options.adaptation).getD none
      else if k = 12 then ((setSpeed o 1 v).map Options.adaptation).getD none
      else if k = 13 then ((setSpeed o 2 v).map Options.adaptation).getD none
      else if k = 14 then ((setSpeed o 0 v).map Options.adaptation).getD none
      else o.adaptation
    window := if k = 2 then some (asI32 v) else o.window
    lgblock := if k = 3 then some v else o.lgblock
    quality := if k = 1 then some (v % 2 ^ 16) else o.quality
    q95 := if k = 18 then decide (v % 256 ≠ 0) else o.q95
    contextMode := if k = 19 then some (v % 256) else o.contextMode
    mixing := if k = 4 then some (v % 256) else o.mixing
    strideQuality := if k = 10 then some (v % 256) else o.strideQuality
    speedQuality := if k = 16 then some (v % 256) else o.speedQuality
    select :=
      if k = 5 then if v = 0 then .internal else if v = 1 then .commands else .bitstream
      else if k = 6 then .bitstream else o.select
    contextMap := if k = 7 then decide (v = 1) else o.contextMap
    stride := if k = 9 then v else o.stride
    priorDepth := if k = 11 then some (v % 256) else o.priorDepth
    bitmask := if k = 17 then v % 256 else o.bitmask
    byteScore := if k = 15 then some v else o.byteScore
    optimizer := if k = 20 then v % 256 else o.optimizer }

theorem speed_upd {o : Options} {i v : Nat} (h : v < 15) :
    setSpeed o i v = some { o with adaptation := ((setSpeed o i v).map Options.adaptation).getD none } := by
  have : v < palette.length := h
  unfold setSpeed
  rw [List.getElem?_eq_getElem this]
  rfl

theorem speed_refused {o : Options} {i v : Nat} (h : 15 ≤ v) : setSpeed o i v = none := by
  unfold setSpeed
  rw [List.getElem?_eq_none (by exact h)]
  rfl

theorem set_accepted {o : Options} {k v : Nat} (h : Accepts k v) : setOption o k v = some (upd k v o) := by
  obtain ⟨h1, h2, h5, h6, h7, h9, h8⟩ := h
  rcases selectors k with rfl | rfl | rfl | rfl | rfl | rfl | rfl | rfl | rfl | rfl | rfl | rfl | rfl | rfl | rfl |
    rfl | rfl | rfl | rfl | rfl | h
  case inr.inr.inr.inr.inr.inr.inr.inr.inr.inr.inr.inr.inr.inr.inr.inr.inr.inr.inr.inr => omega
  all_goals
    simp only [setOption, upd, Nat.reduceEqDiff, if_true, if_false]
  case inr.inr.inr.inr.inl =>
    have := h5 rfl
    by_cases v0 : v = 0
    · rw [if_pos v0, if_pos v0]
    · by_cases v1 : v = 1
      · rw [if_neg v0, if_pos v1, if_neg v0, if_pos v1]
      · rw [if_neg v0, if_neg v1, if_pos (by omega), if_neg v0, if_neg v1]
  case inr.inr.inr.inr.inr.inl =>
    rw [if_pos (h6 rfl)]
  case inr.inr.inr.inr.inr.inr.inl =>
    have := h7 rfl
    by_cases v1 : v = 1
    · rw [if_pos v1]; simp [v1]
    · rw [if_neg v1, if_pos (by omega)]; simp [v1]
  case inr.inr.inr.inr.inr.inr.inr.inl => exact speed_upd (h8 (by omega))
  case inr.inr.inr.inr.inr.inr.inr.inr.inl => rw [if_pos (h9 rfl)]
  case inr.inr.inr.inr.inr.inr.inr.inr.inr.inr.inr.inl => exact speed_upd (h8 (by omega))
  case inr.inr.inr.inr.inr.inr.inr.inr.inr.inr.inr.inr.inl => exact speed_upd (h8 (by omega))
  case inr.inr.inr.inr.inr.inr.inr.inr.inr.inr.inr.inr.inr.inl => exact speed_upd (h8 (by omega))

theorem set_refused {o : Options} {k v : Nat} (h : ¬ Accepts k v) : setOption o k v = none := by
  unfold Accepts at h
  rcases selectors k with rfl | rfl | rfl | rfl | rfl | rfl | rfl | rfl | rfl | rfl | rfl | rfl | rfl | rfl | rfl |
    rfl | rfl | rfl | rfl | rfl | hk
  case inr.inr.inr.inr.inr.inr.inr.inr.inr.inr.inr.inr.inr.inr.inr.inr.inr.inr.inr.inr => exact set_unknown hk
  all_goals
    simp only [setOption, Nat.reduceEqDiff, if_true, if_false]
  all_goals first
    | (exfalso; omega)
    | exact speed_refused (by omega)
    | (repeat rw [if_neg (by omega)])

/-- **C63, settings.**  A setting made before the first byte is compressed is accepted exactly if it is one of those
listed; a refused setting changes nothing, and the return code tells which of the two it was. -/
theorem setting_accepted_iff {b : Other} (o : Options) (k v : Nat) :
    (Accepts k v ↔ (cSet (some (.options o : State b)) k v).2 = 0) ∧
    (¬ Accepts k v → cSet (some (.options o : State b)) k v = (some (.options o), 3)) := by
  by_cases h : Accepts k v
  · refine ⟨⟨fun _ => ?_, fun _ => h⟩, fun h' => absurd h h'⟩
    unfold cSet
    simp only [set_accepted h]
  · have e : cSet (some (.options o : State b)) k v = (some (.options o), 3) := by
      unfold cSet
      simp only [set_refused h]
    exact ⟨⟨fun h' => absurd h' h, fun h' => by rw [e] at h'; cases h'⟩, fun _ => e⟩

/-- **C63, settings.**  The order of two settings with different selectors does not matter, unless both are speeds or
both say who chooses the commands; and of two settings with the same selector the later one counts. -/
theorem settings_order (o : Options) (k v k' v' : Nat) (h : Accepts k v) (h' : Accepts k' v') :
    (k ≠ k' → ¬ (IsSpeed k ∧ IsSpeed k') → ¬ (IsSelect k ∧ IsSelect k') →
      setAll o [(k, v), (k', v')] = setAll o [(k', v'), (k, v)]) ∧
    (k = k' → ¬ IsSpeed k → setAll o [(k, v), (k', v')] = setAll o [(k', v')]) := by
  have e2 : ∀ a w a' w', Accepts a w → Accepts a' w' → setAll o [(a, w), (a', w')] = some (upd a' w' (upd a w o)) := by
    intro a w a' w' q q'
    simp only [setAll, set_accepted q, set_accepted q', Option.bind_some]
  have sp : ∀ (o1 o2 : Options) i w, o1.adaptation = o2.adaptation →
      (setSpeed o1 i w).map Options.adaptation = (setSpeed o2 i w).map Options.adaptation := by
    intro o1 o2 i w e
    unfold setSpeed
    cases palette[w]? with
    | none => rfl
    | some s => simp only [Option.map_some, e]
  unfold IsSpeed IsSelect
  constructor
  · intro hne hs hsel
    rw [e2 _ _ _ _ h h', e2 _ _ _ _ h' h]
    have ad : ∀ a w x, ¬ (a = 8 ∨ a = 12 ∨ a = 13 ∨ a = 14) → (upd a w x).adaptation = x.adaptation := by
      intro a w x q
      show (if a = 8 then _ else if a = 12 then _ else if a = 13 then _ else if a = 14 then _ else _) = _
      rw [if_neg (by omega), if_neg (by omega), if_neg (by omega), if_neg (by omega)]
    have ad2 : ∀ a w (x y : Options), x.adaptation = y.adaptation → (upd a w x).adaptation = (upd a w y).adaptation := by
      intro a w x y e
      unfold upd
      simp only [sp x y _ _ e, e]
    have key : (upd k' v' (upd k v o)).adaptation = (upd k v (upd k' v' o)).adaptation := by
      by_cases q : k = 8 ∨ k = 12 ∨ k = 13 ∨ k = 14
      · have q' : ¬ (k' = 8 ∨ k' = 12 ∨ k' = 13 ∨ k' = 14) := fun q' => hs ⟨q, q'⟩
        rw [ad k' v' (upd k v o) q']
        exact (ad2 _ _ _ _ (ad k' v' o q')).symm
      · rw [ad k v (upd k' v' o) q]
        exact ad2 _ _ _ _ (ad k v o q)
    have fields : ∀ x y : Options, x.adaptation = y.adaptation → x.window = y.window → x.lgblock = y.lgblock →
        x.quality = y.quality → x.q95 = y.q95 → x.contextMode = y.contextMode → x.mixing = y.mixing →
        x.strideQuality = y.strideQuality → x.speedQuality = y.speedQuality → x.select = y.select →
        x.contextMap = y.contextMap → x.stride = y.stride → x.priorDepth = y.priorDepth → x.bitmask = y.bitmask →
        x.byteScore = y.byteScore → x.optimizer = y.optimizer → x = y := by
      intro x y
      cases x; cases y
      simp only
      rintro rfl rfl rfl rfl rfl rfl rfl rfl rfl rfl rfl rfl rfl rfl rfl rfl
      rfl
    congr 1
    apply fields _ _ key
    all_goals
      simp only [upd]
      split_ifs <;> first | rfl | (exfalso; omega)
  · rintro rfl hs
    rw [e2 _ _ _ _ h h']
    simp only [setAll, set_accepted h', Option.bind_some]
    congr 1
    unfold upd
    have n8 : k ≠ 8 := by omega
    have n12 : k ≠ 12 := by omega
    have n13 : k ≠ 13 := by omega
    have n14 : k ≠ 14 := by omega
    simp only [if_neg n8, if_neg n12, if_neg n13, if_neg n14, Options.mk.injEq, true_and]
    refine ⟨?_, ?_, ?_, ?_, ?_, ?_, ?_, ?_, ?_, ?_, ?_, ?_, ?_, ?_, ?_⟩
    all_goals split_ifs <;> rfl

/-- Finding: of the four speeds the one set first also sets the other three, so their order matters. -/
theorem speeds_order_matters : ∃ o o', setAll .default [(8, 3), (14, 5)] = some o ∧
    setAll .default [(14, 5), (8, 3)] = some o' ∧ o.adaptation = some (⟨4, 1024⟩, ⟨1, 16384⟩, ⟨1, 16384⟩, ⟨1, 16384⟩) ∧
    o'.adaptation = some (⟨4, 1024⟩, ⟨4, 1024⟩, ⟨4, 1024⟩, ⟨1, 16384⟩) :=
  ⟨_, _, rfl, rfl, rfl, rfl⟩

/-! ## Settings after the first call -/

/-- The settings are fixed. -/
def Fixed {b : Other} : Option (State b) → Prop
  | some (.options _) => False
  | _ => True

theorem fixed_set {b : Other} {s : Option (State b)} (h : Fixed s) (k v : Nat) : cSet s k v = (s, 3) := by
  unfold cSet
  cases s with
  | none => rfl
  | some s =>
    cases s with
    | options o => exact absurd h (by simp [Fixed])
    | internal o c => rfl
    | other x => rfl

theorem encode_fixed {b : Other} {dw : Nat → Nat → Nat → List UInt8} {fuel : Nat} {s : State b} {inp : List UInt8} {room : Nat}
    {z : State b × Nat × List UInt8 × Nat} (h : s.encode dw fuel inp room = some z) : Fixed (some z.1) := by
  unfold State.encode at h
  cases hs : s.started with
  | none => simp only [hs] at h; cases h
  | some t =>
    cases t with
    | options o => simp only [hs] at h; cases h
    | internal o c =>
      simp only [hs] at h
      obtain ⟨y, -, rfl⟩ := Option.map_eq_some_iff.1 h
      trivial
    | other x =>
      simp only [hs] at h
      obtain ⟨y, -, rfl⟩ := Option.map_eq_some_iff.1 h
      trivial

theorem flush_fixed {b : Other} {dw : Nat → Nat → Nat → List UInt8} {fuel : Nat} {s : State b} {room : Nat}
    {z : State b × List UInt8 × Nat} (h : s.flush dw fuel room = some z) : Fixed (some z.1) := by
  unfold State.flush at h
  cases hs : s.started with
  | none => simp only [hs] at h; cases h
  | some t =>
    cases t with
    | options o => simp only [hs] at h; cases h
    | internal o c =>
      simp only [hs] at h
      obtain ⟨y, -, rfl⟩ := Option.map_eq_some_iff.1 h
      trivial
    | other x =>
      simp only [hs] at h
      obtain ⟨y, -, rfl⟩ := Option.map_eq_some_iff.1 h
      trivial

theorem run_fixed {b : Other} {dw : Nat → Nat → Nat → List UInt8} {fuel : Nat} {s s' : Option (State b)} {x : Op}
    {r : Reply b} (hx : x.isCall = true) (h : x.run dw fuel s = some (s', r)) : Fixed s' ∧ r.isCall = true := by
  cases x with
  | set k v => cases hx
  | encode a =>
    obtain ⟨y, hy, e⟩ := Option.map_eq_some_iff.1 h
    simp only [Prod.mk.injEq] at e
    obtain ⟨rfl, rfl⟩ := e
    refine ⟨?_, rfl⟩
    unfold cEncode at hy
    cases s with
    | none => simp only [Option.some.injEq] at hy; subst hy; trivial
    | some s =>
      simp only at hy
      by_cases hc : a.i ≤ a.inp.length ∧ a.p ≤ a.buf.length
      · rw [if_pos hc] at hy
        obtain ⟨z, hz, rfl⟩ := Option.map_eq_some_iff.1 hy
        exact encode_fixed hz
      · rw [if_neg hc] at hy; cases hy
  | flush a =>
    obtain ⟨y, hy, e⟩ := Option.map_eq_some_iff.1 h
    simp only [Prod.mk.injEq] at e
    obtain ⟨rfl, rfl⟩ := e
    refine ⟨?_, rfl⟩
    unfold cFlush at hy
    cases s with
    | none => simp only [Option.some.injEq] at hy; subst hy; trivial
    | some s =>
      simp only at hy
      by_cases hc : a.p ≤ a.buf.length
      · rw [if_pos hc] at hy
        obtain ⟨z, hz, rfl⟩ := Option.map_eq_some_iff.1 hy
        exact flush_fixed hz
      · rw [if_neg hc] at hy; cases hy

theorem late_aux {b : Other} (dw : Nat → Nat → Nat → List UInt8) (fuel : Nat) : ∀ (xs : List Op) (s s' : Option (State b))
    (rs : List (Reply b)), Fixed s → runAll dw fuel s xs = some (s', rs) →
    runAll dw fuel s (xs.filter Op.isCall) = some (s', rs.filter Reply.isCall) ∧ ∀ c, Reply.set c ∈ rs → c = 3
  | [], s, s', rs, _, h => by
    simp only [runAll, Option.some.injEq, Prod.mk.injEq] at h
    obtain ⟨rfl, rfl⟩ := h
    exact ⟨rfl, by simp⟩
  | x :: xs, s, s', rs, hs, h => by
    rw [runAll] at h
    cases hr : x.run dw fuel s with
    | none => rw [hr] at h; cases h
    | some y =>
      obtain ⟨s1, r⟩ := y
      rw [hr] at h
      obtain ⟨z, hz, e⟩ := Option.map_eq_some_iff.1 h
      obtain ⟨s2, rs2⟩ := z
      simp only [Prod.mk.injEq] at e
      obtain ⟨rfl, rfl⟩ := e
      cases x with
      | set k v =>
        simp only [Op.run, fixed_set hs, Option.some.injEq, Prod.mk.injEq] at hr
        obtain ⟨rfl, rfl⟩ := hr
        obtain ⟨q1, q2⟩ := late_aux dw fuel xs s s2 rs2 hs hz
        refine ⟨by simpa [Op.isCall, Reply.isCall] using q1, fun c hc => ?_⟩
        rcases List.mem_cons.1 hc with e | e
        · cases e; rfl
        · exact q2 c e
      | encode a =>
        obtain ⟨f1, f2⟩ := run_fixed rfl hr
        obtain ⟨q1, q2⟩ := late_aux dw fuel xs s1 s2 rs2 f1 hz
        refine ⟨?_, fun c hc => ?_⟩
        · rw [List.filter_cons_of_pos (by rfl), List.filter_cons_of_pos f2, runAll, hr]
          simp only [q1, Option.map_some]
        · rcases List.mem_cons.1 hc with e | e
          · rw [← e] at f2; cases f2
          · exact q2 c e
      | flush a =>
        obtain ⟨f1, f2⟩ := run_fixed rfl hr
        obtain ⟨q1, q2⟩ := late_aux dw fuel xs s1 s2 rs2 f1 hz
        refine ⟨?_, fun c hc => ?_⟩
        · rw [List.filter_cons_of_pos (by rfl), List.filter_cons_of_pos f2, runAll, hr]
          simp only [q1, Option.map_some]
        · rcases List.mem_cons.1 hc with e | e
          · rw [← e] at f2; cases f2
          · exact q2 c e

/-- **C63, late settings.**  In any history of a C program, from the first call of `divans_encode` or
`divans_encode_flush` on every setting is refused, and the rest of the history is the same without it.  This holds
whichever of the two compressors is behind the interface. -/
theorem late_settings_do_nothing {b : Other} (dw : Nat → Nat → Nat → List UInt8) (fuel : Nat) (s s' : Option (State b))
    (x : Op) (hx : x.isCall = true) (xs : List Op) (rs : List (Reply b))
    (h : runAll dw fuel s (x :: xs) = some (s', rs)) :
    runAll dw fuel s (x :: xs.filter Op.isCall) = some (s', rs.filter Reply.isCall) ∧
      ∀ c, Reply.set c ∈ rs → c = 3 := by
  rw [runAll] at h
  cases hr : x.run dw fuel s with
  | none => rw [hr] at h; cases h
  | some y =>
    obtain ⟨s1, r⟩ := y
    rw [hr] at h
    obtain ⟨z, hz, e⟩ := Option.map_eq_some_iff.1 h
    obtain ⟨s2, rs2⟩ := z
    simp only [Prod.mk.injEq] at e
    obtain ⟨rfl, rfl⟩ := e
    obtain ⟨f1, f2⟩ := run_fixed hx hr
    obtain ⟨q1, q2⟩ := late_aux dw fuel xs s1 s2 rs2 f1 hz
    refine ⟨?_, fun c hc => ?_⟩
    · rw [List.filter_cons_of_pos f2, runAll, hr]
      simp only [q1, Option.map_some]
    · rcases List.mem_cons.1 hc with e | e
      · rw [← e] at f2; cases f2
      · exact q2 c e

/-! ## Null pointers -/

/-- **C63, null pointers.**  A call with a null pointer for the state or for an offset returns the failure code and
changes nothing: no state, no offset, no buffer. -/
theorem null_pointers {b : Other} (dw : Nat → Nat → Nat → List UInt8) (fuel : Nat) (st : Option (State b)) (d : Option DState)
    (inp buf : List UInt8) (i p : Option Nat) :
    (st = none → ∀ k v, cSet st k v = (st, 3)) ∧
    (st = none ∨ i = none ∨ p = none → cEncode dw fuel st inp i buf p = some ⟨st, i, buf, p, 3⟩) ∧
    (st = none ∨ p = none → cFlush dw fuel st buf p = some ⟨st, none, buf, p, 3⟩) ∧
    (d = none ∨ i = none ∨ p = none → cDecode dw fuel d inp i buf p = some ⟨d, i, buf, p, 3⟩) := by
  refine ⟨?_, ?_, ?_, ?_⟩
  · rintro rfl k v; rfl
  · intro h
    unfold cEncode
    cases i <;> cases p <;> cases st <;> first | rfl | simp at h
  · intro h
    unfold cFlush
    cases p <;> cases st <;> first | rfl | simp at h
  · intro h
    unfold cDecode
    cases i <;> cases p <;> cases d <;> first | rfl | simp at h

/-! ## Sessions -/

/-- **C63, sessions.**  A C program that makes any accepted settings, among them the internal choice of commands, with
mixing below 8 and prior depth below 16, then calls `divans_encode` any number of times and then
`divans_encode_flush` any number of times, with any input, buffers and offsets into them:

* every call returns; `divans_encode` asks for input, having taken all of it, or for output space, having filled
  the buffer, and nothing else; `divans_encode_flush` reports success, or asks for output space, having filled the
  buffer; offsets move forward and stay in the buffers, and no byte outside of the parts passed over is changed;
* if the last flush reports success and no more than two windows less two bytes were taken, the bytes written in all
  these calls are a file that restores the bytes taken; it never is when the last two digits of their number, in base
  of the window, add up to more than the window (C94). -/
theorem c_session_partial {b : Other} (dw : Nat → Nat → Nat → List UInt8) (sets : List (Nat × Nat)) (o : Options)
    (hset : setAll .default sets = some o) (hsel : o.select = .internal) (hmix : o.mixing.getD 0 < 8)
    (hdep : o.priorDepth.getD 0 < 16) (encs : List EncArgs) (he : ∀ a ∈ encs, a.Fits) (fls : List FlushArgs)
    (hf : ∀ a ∈ fls, a.Fits) :
    ∃ f0 s' rs qs, (∀ fuel, f0 ≤ fuel → encodeCalls dw fuel (.options o : State b) encs = some (s', rs) ∧
        flushCalls dw fuel s' fls = some qs) ∧
      rs.length = encs.length ∧ qs.length = fls.length ∧
      (∀ x ∈ encs.zip rs, x.1.Kept x.2) ∧ (∀ x ∈ fls.zip qs, x.1.Kept x.2) ∧
      ((qs.getLast?).map After.code = some 0 →
        ((takenAll encs rs).length ≤ 2 * 2 ^ (windowOf o.window).toNat - 2 →
          Restores dw (wroteAll encs rs ++ flushedAll fls qs) (takenAll encs rs)) ∧
        (Restores dw (wroteAll encs rs ++ flushedAll fls qs) (takenAll encs rs) →
          RawCmd.Fair (2 ^ (windowOf o.window).toNat) (takenAll encs rs).length)) := by
  have hu : Usable o := ⟨hsel, hmix, hdep, tuned_all sets tuned_default hset⟩
  obtain ⟨co, hco, hval⟩ := usable_opts hu
  let g : Cfg := ⟨co, dw, o.window⟩
  have hpm : (Item.pm rawPm).Valid g.o g.dw g.ring := hval dw _
  have hst := usable_started (b := b) hu hco
  obtain ⟨f1, c1, rs, l1, l2, l3, ops, done, fr, l4, l5⟩ := encode_calls_ok (b := b) (g := g) hpm encs he (pushing_new g)
    (fun _ => once_nil _)
  obtain ⟨all, h5, h6⟩ := l4.closing
  obtain ⟨f2, qs, m1, m2, m3, m4⟩ := flush_calls_ok (b := b) (g := g) hpm fls hf h5
  refine ⟨max f1 f2, if encs = [] then .options o else .internal co c1, rs, qs, fun fuel hfu => ?_, l2, m2, l3,
    m3, fun hq => ?_⟩
  · have e1 : encodeCalls dw fuel (.internal co (Comp.new o.window) : State b) encs = some (.internal co c1, rs) :=
      l1 fuel (by omega)
    have e2 : flushCalls dw fuel (.internal co c1 : State b) fls = some qs := m1 fuel (by omega)
    cases encs with
    | nil =>
      simp only [encodeCalls, Option.some.injEq, Prod.mk.injEq, State.internal.injEq, true_and] at e1
      obtain ⟨rfl, rfl⟩ := e1
      simp only [if_true]
      refine ⟨rfl, ?_⟩
      rw [flushCalls_started hst rfl]
      exact e2
    | cons a as =>
      rw [encodeCalls_started hst rfl, e1]
      simp only [reduceCtorEq, if_false]
      exact ⟨trivial, e2⟩
  · obtain ⟨c', k1, k2, k3⟩ := m4 hq
    have hi := raw_restores_iff (g := g) hpm h6 k1 k2 k3
    exact ⟨fun hl => hi.2 (l5 hl), fun hres => l4.fair (hi.1 hres)⟩

/-- **C94, sessions.**  If the last two digits of the number of bytes taken, in base of the window, add up to more than the window, what
was written restores something else, although the last flush reports success; up to two windows less two bytes it restores
the bytes taken. -/
theorem c_session_lengths {b : Other} (dw : Nat → Nat → Nat → List UInt8) (sets : List (Nat × Nat)) (o : Options)
    (hset : setAll .default sets = some o) (hsel : o.select = .internal) (hmix : o.mixing.getD 0 < 8)
    (hdep : o.priorDepth.getD 0 < 16) (encs : List EncArgs) (he : ∀ a ∈ encs, a.Fits) (fls : List FlushArgs)
    (hf : ∀ a ∈ fls, a.Fits) :
    ∃ f0 s' rs qs, (∀ fuel, f0 ≤ fuel → encodeCalls dw fuel (.options o : State b) encs = some (s', rs) ∧
        flushCalls dw fuel s' fls = some qs) ∧
      ((qs.getLast?).map After.code = some 0 →
        (¬ RawCmd.Fair (2 ^ (windowOf o.window).toNat) (takenAll encs rs).length →
          ¬ Restores dw (wroteAll encs rs ++ flushedAll fls qs) (takenAll encs rs)) ∧
        ((takenAll encs rs).length ≤ 2 * 2 ^ (windowOf o.window).toNat - 2 →
          Restores dw (wroteAll encs rs ++ flushedAll fls qs) (takenAll encs rs))) := by
  obtain ⟨f0, s', rs, qs, h1, -, -, -, -, h2⟩ := c_session_partial (b := b) dw sets o hset hsel hmix hdep encs he fls hf
  exact ⟨f0, s', rs, qs, h1, fun hs => ⟨fun hn hr => hn ((h2 hs).2 hr), (h2 hs).1⟩⟩

/-! ## The example program -/

theorem decodeLoop_ok {dw : Nat → Nat → Nat → List UInt8} {file data tail : List UInt8} (hs : Call.Serves dw file data)
    (skip : Bool) : ∀ (n : Nat) {d : Call.Dec} {rest out : List UInt8},
    Io.Reached dw skip (file ++ tail) (.live d) rest out → out <+: data → data.length - out.length = n →
    ∀ buf : List UInt8, buf ≠ [] →
    ∃ f0, ∀ fuel k, f0 ≤ fuel → f0 ≤ k → decodeLoop dw fuel buf k (.live d) rest = some (data.drop out.length, 0) := by
  intro n
  induction n using Nat.strong_induction_on with
  | _ n ih =>
    intro d rest out hr hpre hn buf hb
    obtain ⟨-, k1, r, e, hr', hu, -, hl, hp, hin, hout, hsu⟩ := Io.reached_step hs hr rest.length buf.length
    rw [List.take_length] at e
    have hdec : ∀ fuel, k1 ≤ fuel → cDecode dw fuel (some (.live d)) rest (some 0) buf (some 0) =
        some ⟨some (.live r.dec), some r.used, stored buf 0 r.out, some r.out.length, dret r.ret⟩ := by
      intro fuel hfu
      unfold cDecode
      simp only [List.drop_zero, Nat.sub_zero]
      rw [if_pos ⟨Nat.zero_le _, Nat.zero_le _⟩, e fuel hfu]
      simp only [Nat.zero_add]
    cases hret : r.ret with
    | needsInput =>
      obtain ⟨-, h2⟩ := hin hret
      rw [List.drop_length, List.length_nil] at h2
      omega
    | success =>
      obtain ⟨h1, -⟩ := hsu hret
      refine ⟨k1 + 1, fun fuel k hfu hk => ?_⟩
      obtain ⟨k, rfl⟩ : ∃ j, k = j + 1 := ⟨k - 1, by omega⟩
      rw [decodeLoop, hdec fuel (by omega)]
      simp only [hret, dret, stored_front]
      rw [if_neg (by simp), if_pos trivial, ← h1, List.drop_left]
    | needsOutput =>
      have h1 := hout hret
      have hb1 := List.length_pos_iff.2 hb
      have hle := hp.length_le
      rw [List.length_append] at hle
      have hb' : stored buf 0 r.out ≠ [] := by
        intro e
        have := congrArg List.length e
        rw [stored_length (by omega), List.length_nil] at this
        omega
      obtain ⟨f2, l1⟩ := ih (data.length - (out ++ r.out).length) (by rw [List.length_append]; omega) hr' hp rfl
        (stored buf 0 r.out) hb'
      refine ⟨max k1 f2 + 1, fun fuel k hfu hk => ?_⟩
      obtain ⟨k, rfl⟩ : ∃ j, k = j + 1 := ⟨k - 1, by omega⟩
      rw [decodeLoop, hdec fuel (by omega)]
      simp only [hret, dret, stored_front]
      rw [if_neg (by simp), if_neg (by decide), l1 fuel k (by omega) (by omega)]
      obtain ⟨t, ht⟩ := hp
      simp only [Option.map_some, ← ht, List.append_assoc, List.drop_left, Option.some.injEq, Prod.mk.injEq, and_true]
      rw [← List.append_assoc, List.drop_left]

/-- **C63 and C94, the example program.**  With any accepted settings, among them the internal choice of commands (`-l`), with
mixing below 8 and prior depth below 16, any buffers that are not empty and any input: `compress` of `c/example.c` ends
and returns success, and `decompress` of what it has collected, with anything behind it, ends and returns success.  What
it has collected is the input exactly if the last two digits of the length of the input, in base of the window, add up to at
most the window. -/
theorem example_exact {b : Other} (dw : Nat → Nat → Nat → List UInt8) (sets : List (Nat × Nat)) (o : Options)
    (hset : setAll .default sets = some o) (hsel : o.select = .internal) (hmix : o.mixing.getD 0 < 8)
    (hdep : o.priorDepth.getD 0 < 16) (buf buf' : List UInt8) (hb : buf ≠ []) (hb' : buf' ≠ []) (data : List UInt8)
    (skip : Bool) (tail : List UInt8) :
    ∃ f0 file back, (∀ fuel, f0 ≤ fuel → compress dw fuel buf (.options o : State b) data = some (file, 0) ∧
        decompress dw fuel buf' skip (file ++ tail) = some (back, 0)) ∧
      (back = data ↔ RawCmd.Fair (2 ^ (windowOf o.window).toNat) data.length) := by
  have hu : Usable o := ⟨hsel, hmix, hdep, tuned_all sets tuned_default hset⟩
  obtain ⟨co, hco, hval⟩ := usable_opts hu
  let g : Cfg := ⟨co, dw, o.window⟩
  have hpm : (Item.pm rawPm).Valid g.o g.dw g.ring := hval dw _
  have hst := usable_started (b := b) hu hco
  obtain ⟨f1, c1, o1, l1, ops, done, fr, l2, l3⟩ := encodeLoop_ok (b := b) (g := g) hpm _ rfl (pushing_new g) (fun _ => once_nil _) buf hb
  obtain ⟨all, h5, h6⟩ := l2.closing
  obtain ⟨f2, c2, o2, m1, m2, m3, m4⟩ := flushLoop_ok (b := b) (g := g) hpm _ rfl h5 buf hb
  have hres : Restores dw (o1 ++ o2) (RawCmd.bytesOf all) := raw_gives (g := g) hpm h6 m2 m3 m4
  obtain ⟨f3, n1⟩ := decodeLoop_ok (tail := tail) hres.1 skip _ Io.reached_new (List.nil_prefix) rfl buf' hb'
  refine ⟨max (max f1 f2) f3 + 1, o1 ++ o2, RawCmd.bytesOf all, fun fuel hfu => ⟨?_, ?_⟩,
    ⟨fun he => l2.fair ((RawCmd.raw_lossless_iff h6).1 he), fun hf => (RawCmd.raw_lossless_iff h6).2 (l3 hf)⟩⟩
  · have e1 : encodeLoop dw fuel buf fuel (.internal co (Comp.new o.window) : State b) data = some (.internal co c1, o1, 0) :=
      l1 fuel fuel (by omega) (by omega)
    have e2 : flushLoop dw fuel buf fuel (.internal co c1 : State b) = some (o2, 0) := m1 fuel fuel (by omega) (by omega)
    have e3 : (encodeLoop dw fuel buf fuel (.options o : State b) data = some (.internal co c1, o1, 0)) ∨
        data = [] ∧ encodeLoop dw fuel buf fuel (.options o : State b) data = some (.options o, [], 0) ∧ o1 = [] ∧
          c1 = Comp.new o.window := by
      obtain ⟨k, hk⟩ : ∃ k, fuel = k + 1 := ⟨fuel - 1, by omega⟩
      rw [hk] at e1 ⊢
      by_cases hd : data = []
      · right
        subst hd
        rw [encodeLoop, if_pos rfl] at e1
        simp only [Option.some.injEq, Prod.mk.injEq, State.internal.injEq, true_and, and_true] at e1
        obtain ⟨rfl, rfl⟩ := e1
        exact ⟨rfl, by rw [encodeLoop, if_pos rfl], rfl, rfl⟩
      · left
        rw [encodeLoop, if_neg hd] at e1 ⊢
        rw [encode_started hst rfl _ _ _ _ rfl rfl]
        exact e1
    rcases e3 with e3 | ⟨-, e3, e4, e5⟩
    · unfold compress
      simp only [e3]
      rw [if_neg (by decide), e2]
      rfl
    · unfold compress
      simp only [e3]
      have e6 : flushLoop dw fuel buf fuel (.options o : State b) = some (o2, 0) := by
        rw [← e2, e5]
        obtain ⟨k, hk⟩ : ∃ k, fuel = k + 1 := ⟨fuel - 1, by omega⟩
        rw [hk, flushLoop, flushLoop, flush_started hst rfl _ _ rfl]
      rw [if_neg (by decide), e6, e4]
      rfl
  · have := n1 fuel fuel (by omega) (by omega)
    rw [List.length_nil, List.drop_zero] at this
    exact this

/-- **C63, the example program.**  As long as the input is not longer than three windows less two bytes, it comes back. -/
theorem example_round_trip_partial {b : Other} (dw : Nat → Nat → Nat → List UInt8) (sets : List (Nat × Nat)) (o : Options)
    (hset : setAll .default sets = some o) (hsel : o.select = .internal) (hmix : o.mixing.getD 0 < 8)
    (hdep : o.priorDepth.getD 0 < 16) (buf buf' : List UInt8) (hb : buf ≠ []) (hb' : buf' ≠ []) (data : List UInt8)
    (hl : data.length ≤ 3 * 2 ^ (windowOf o.window).toNat - 2) (skip : Bool) (tail : List UInt8) :
    ∃ f0 file, ∀ fuel, f0 ≤ fuel → compress dw fuel buf (.options o : State b) data = some (file, 0) ∧
      decompress dw fuel buf' skip (file ++ tail) = some (data, 0) := by
  obtain ⟨f0, file, back, h1, h2⟩ := example_exact (b := b) dw sets o hset hsel hmix hdep buf buf' hb hb' data skip tail
  refine ⟨f0, file, ?_⟩
  rwa [h2.2 (RawCmd.fair_three (ring_two' ⟨⟨0, none, false, 0, 0⟩, dw, o.window⟩) hl)] at h1

/-! ## Settings that are accepted and end in a panic -/

theorem pm_panics {o : Codec.Opts} (h : o.mixing / 8 ≠ 0) {c : Codec.Core} (hc : c.at_ = .begin) (fuel : Nat) :
    Codec.encCmd o (.pm rawPm) fuel c = none ∨ Codec.encCmd o (.pm rawPm) fuel c = some .panic := by
  have adv : rawPm.adv = 0 := rfl
  have mode : rawPm.mode = 0 := rfl
  generalize rawPm = p at adv mode ⊢
  have s3 : ∀ (c : Codec.Core) fuel, c.at_ = .pm .mixing →
      Codec.encCmd o (.pm p) fuel c = none ∨ Codec.encCmd o (.pm p) fuel c = some .panic := by
    intro c fuel hc
    cases fuel with
    | zero => exact .inl rfl
    | succ n =>
      right
      rw [Codec.encCmd, Codec.encStep]
      cases Codec.coreAsk c with
      | none => rfl
      | some a =>
        have : Codec.coreOffer o (.pm p) c = .panic := by
          unfold Codec.coreOffer
          simp only [hc, Codec.pmOffer]
          rw [if_neg (by rw [adv]; decide), if_pos h]
        simp only [this]
        rfl
  have s2 : ∀ (c : Codec.Core) fuel, c.at_ = .pm .begin →
      Codec.encCmd o (.pm p) fuel c = none ∨ Codec.encCmd o (.pm p) fuel c = some .panic := by
    intro c fuel hc
    cases fuel with
    | zero => exact .inl rfl
    | succ n =>
      rw [Codec.encCmd, Codec.encStep]
      cases Codec.coreAsk c with
      | none => exact .inr rfl
      | some a =>
        have e1 : Codec.coreOffer o (.pm p) c = .ok 0 := by
          unfold Codec.coreOffer
          simp only [hc, Codec.pmOffer, mode]
        obtain ⟨c', e2, e3⟩ : ∃ c', Codec.coreTake c 0 = .ok (c', none) ∧ c'.at_ = .pm .mixing := by
          unfold Codec.coreTake
          simp only [hc, Codec.pmTake]
          rw [if_neg (by decide)]
          exact ⟨_, rfl, rfl⟩
        simp only [e1, Codec.Res.bind, e2]
        rw [if_pos (by decide)]
        simp only
        rcases s3 c' n e3 with e | e <;> rw [e]
        · exact .inl rfl
        · exact .inr rfl
  cases fuel with
  | zero => exact .inl rfl
  | succ n =>
    rw [Codec.encCmd, Codec.encStep]
    cases Codec.coreAsk c with
    | none => exact .inr rfl
    | some a =>
      have e1 : Codec.coreOffer o (.pm p) c = .ok 7 := by
        unfold Codec.coreOffer
        simp only [hc]
        rfl
      obtain ⟨c', e2, e3⟩ : ∃ c', Codec.coreTake c 7 = .ok (c', none) ∧ c'.at_ = .pm .begin := by
        unfold Codec.coreTake
        simp only [hc, Codec.startTake]
        exact ⟨_, rfl, rfl⟩
      simp only [e1, Codec.Res.bind, e2]
      rw [if_pos (by decide)]
      simp only
      rcases s2 c' n e3 with e | e <;> rw [e]
      · exact .inl rfl
      · exact .inr rfl

/-- A compressor that has not begun with its first command. -/
structure Fresh (c : Comp) : Prop where
  frozen : c.frozen = []
  cur : c.eng.cur = none
  ending : c.eng.ending = none
  idle : (c.eng.enc false).q = []
  core : c.eng.snd.core.at_ = .begin
  hdr : c.asm.hdr = false
  out : c.asm.out = 0
  fits : c.asm.dec ≤ c.asm.ring.length

theorem fresh_new (w : Option Int) : Fresh (.new w) :=
  ⟨rfl, rfl, rfl, rfl, rfl, rfl, rfl, Nat.zero_le _⟩

theorem commands_panic {o : Codec.Opts} (h : o.mixing / 8 ≠ 0) (dw : Nat → Nat → Nat → List UInt8) (fuel : Nat) {c : Comp}
    (hc : Fresh c) (xs : List RawCmd.Cmd) (room : Nat) :
    c.eng.commands o dw fuel ((.pm :: xs : List RawCmd.Cmd).map item) room = none := by
  rw [List.map_cons, Eng.commands]
  simp only [hc.ending]
  have e1 : Eng.steps [.need false] c.eng room = some (c.eng, [], []) := by
    rw [Eng.steps, Eng.drain, if_pos hc.idle]
    simp only [Eng.steps, Option.map_some, List.append_nil]
  have e2 : c.eng.start o dw fuel (item .pm) = none := by
    unfold Eng.start Snd.item
    have : (item .pm).head = .pm rawPm := rfl
    rw [this]
    rcases pm_panics h hc.core fuel with e | e <;> rw [e]
  have e3 : c.eng.one o dw fuel (item .pm) room = none := by
    unfold Eng.one
    simp only [hc.cur, e1, e2]
  rw [e3]

theorem flush_first {s : RawCmd.St} (h1 : s.hdr = false) (h2 : s.out = 0) (h3 : s.dec ≤ s.ring.length) :
    ∃ s' cs, RawCmd.flush s slots = some (s', .pm :: cs, .success) := by
  unfold RawCmd.flush
  rw [if_neg (by decide), if_pos h1, if_neg (by decide)]
  unfold RawCmd.flushWrap
  rw [if_neg (by simp only [h2]; omega)]
  unfold RawCmd.flushTail
  by_cases hd : s.dec = s.out
  · rw [if_pos hd]
    exact ⟨_, _, rfl⟩
  · rw [if_neg hd, if_neg (by decide), if_neg (by simp only [h2]; omega)]
    unfold RawCmd.piece
    simp only [h2, Nat.sub_zero, Nat.zero_add]
    rw [if_pos h3]
    simp only
    rw [if_pos h3]
    exact ⟨_, _, rfl⟩

theorem rest_panics {o : Codec.Opts} (h : o.mixing / 8 ≠ 0) (dw : Nat → Nat → Nat → List UInt8) (fuel : Nat) {c : Comp}
    (hc : Fresh c) (room k : Nat) : c.rest o dw fuel k room = none := by
  cases k with
  | zero => rfl
  | succ k =>
    obtain ⟨s', cs, e⟩ := flush_first hc.hdr hc.out hc.fits
    rw [Comp.rest, e]
    simp only
    rw [if_neg (by simp), commands_panic h dw fuel hc]

theorem header_fresh {c : Comp} (hc : Fresh c) (room : Nat) : Fresh { c with eng := (c.eng.header room).1 } :=
  ⟨hc.frozen, hc.cur, hc.ending, hc.idle, hc.core, hc.hdr, hc.out, hc.fits⟩

theorem fresh_flush {o : Codec.Opts} (h : o.mixing / 8 ≠ 0) (dw : Nat → Nat → Nat → List UInt8) (fuel : Nat) {c : Comp}
    (hc : Fresh c) (room : Nat) :
    c.flush o dw fuel room = none ∨ (room + c.eng.cmp.progress < 16 ∧
      ∃ c' w, c.flush o dw fuel room = some (c', w, .needsOutput) ∧ Fresh c') := by
  have hf := header_fresh hc room
  unfold Comp.flush
  obtain ⟨e, w, ok⟩ : Σ' (e : Eng) (w : List UInt8), { ok : Bool // c.eng.header room = (e, w, ok) } := ⟨_, _, _, rfl⟩
  obtain ⟨ok, hh⟩ := ok
  rw [hh] at hf ⊢
  cases ok with
  | false =>
    right
    refine ⟨?_, _, _, rfl, hf⟩
    unfold Eng.header Cmp.header at hh
    by_cases h1 : c.eng.cmp.progress = 16
    · simp only [if_pos h1, Prod.mk.injEq, Bool.true_eq_false, and_false] at hh
    · by_cases h2 : room + c.eng.cmp.progress < 16
      · exact h2
      · simp only [if_neg h1, if_neg h2, Prod.mk.injEq, Bool.true_eq_false, and_false] at hh
  | true =>
    left
    have hu : Comp.unfreeze o dw fuel { c with eng := e } (room - w.length) = some ({ c with eng := e }, [], .success) := by
      unfold Comp.unfreeze
      rw [if_pos hc.frozen]
    simp only [hu]
    rw [if_pos trivial, rest_panics h dw fuel hf]

theorem stream_first {s : RawCmd.St} (h1 : s.hdr = false) (h2 : s.out = 0) (h3 : s.dec ≤ s.ring.length)
    (inp : List UInt8) :
    (∃ s' n cs r, RawCmd.stream s inp slots = some (s', n, .pm :: cs, r) ∧ r ≠ .success) ∨
    (∃ s' n, RawCmd.stream s inp slots = some (s', n, [], .needsInput) ∧ s'.hdr = false ∧ s'.out = 0 ∧
      s'.dec ≤ s'.ring.length) := by
  unfold RawCmd.stream RawCmd.fillEnd
  rw [if_pos (by omega), if_neg (by omega)]
  simp only
  rw [if_neg (by omega)]
  unfold RawCmd.fillStart
  rw [if_neg (by simp only [h2]; omega)]
  simp only
  have hput : (RawCmd.put s.ring s.dec (inp.take (min (s.ring.length - s.dec) inp.length))).length = s.ring.length := by
    unfold RawCmd.put
    simp only [List.length_append, List.length_take, List.length_drop]
    omega
  generalize hn : min (s.ring.length - s.dec) inp.length = n at hput ⊢
  obtain ⟨t, ht⟩ : ∃ t : RawCmd.St, t = { s with ring := RawCmd.put s.ring s.dec (inp.take n), dec := s.dec + n } := ⟨_, rfl⟩
  have t1 : t.hdr = false := by rw [ht]; exact h1
  have t2 : t.out = 0 := by rw [ht]; exact h2
  have t3 : t.dec ≤ t.ring.length := by
    rw [ht]
    simp only [hput]
    omega
  rw [← ht]
  unfold RawCmd.finish
  by_cases hf : RawCmd.full t = true
  · left
    rw [if_pos ⟨by decide, hf⟩]
    obtain ⟨s', cs, e⟩ := flush_first t1 t2 t3
    rw [e]
    refine ⟨_, _, _, _, rfl, ?_⟩
    split_ifs <;> simp
  · right
    rw [if_neg (fun q => hf q.2), if_neg (by decide)]
    have : inp.length - (n + 0) = 0 := by
      by_contra q
      apply hf
      unfold RawCmd.full
      have : t.dec = t.ring.length := by
        rw [ht]
        simp only [hput]
        omega
      simp [this]
    rw [if_pos this]
    exact ⟨_, _, rfl, t1, t2, t3⟩

theorem fresh_encode {o : Codec.Opts} (h : o.mixing / 8 ≠ 0) (dw : Nat → Nat → Nat → List UInt8) (fuel : Nat) {c : Comp}
    (hc : Fresh c) (inp : List UInt8) (room : Nat) :
    c.encode o dw fuel inp room = none ∨
      ∃ c' n w code, c.encode o dw fuel inp room = some (c', n, w, code) ∧ Fresh c' ∧ code ≠ .failure := by
  have hf := header_fresh hc room
  unfold Comp.encode
  obtain ⟨e, w, ok⟩ : Σ' (e : Eng) (w : List UInt8), { ok : Bool // c.eng.header room = (e, w, ok) } := ⟨_, _, _, rfl⟩
  obtain ⟨ok, hh⟩ := ok
  rw [hh] at hf ⊢
  cases ok with
  | false => exact .inr ⟨_, _, _, _, rfl, hf, by decide⟩
  | true =>
    have hu : Comp.unfreeze o dw fuel { c with eng := e } (room - w.length) = some ({ c with eng := e }, [], .success) := by
      unfold Comp.unfreeze
      rw [if_pos hc.frozen]
    simp only [hu]
    rw [if_pos trivial, Comp.loop]
    rcases stream_first hf.hdr hf.out hf.fits inp with ⟨s', n, cs, r, e1, e2⟩ | ⟨s', n, e1, e2, e3, e4⟩
    · left
      rw [e1]
      simp only
      rw [if_neg e2, if_neg (by simp), commands_panic h dw fuel hf]
      rfl
    · right
      rw [e1]
      simp only
      rw [if_neg (by simp), if_pos (by simp)]
      exact ⟨_, _, _, _, rfl, ⟨hc.frozen, hf.cur, hf.ending, hf.idle, hf.core, e2, e3, e4⟩, by simp⟩

/-- Behind the pointer is a compressor that will panic. -/
def Doomed {b : Other} (o : Options) (s : State b) : Prop :=
  s = .options o ∨ ∃ co c, s = .internal co c ∧ co.mixing / 8 ≠ 0 ∧ Fresh c

theorem doomed_started {b : Other} {o : Options} (hsel : o.select = .internal) (hmix : 8 ≤ o.mixing.getD 0) {s : State b}
    (hs : Doomed o s) : s.started = none ∨ ∃ co c, s.started = some (.internal co c) ∧ co.mixing / 8 ≠ 0 ∧ Fresh c := by
  rcases hs with rfl | ⟨co, c, rfl, h1, h2⟩
  · unfold State.started
    simp only [hsel]
    cases hco : codecOpts o with
    | none => exact .inl rfl
    | some co =>
      refine .inr ⟨co, _, rfl, ?_, fresh_new _⟩
      unfold codecOpts at hco
      by_cases h15 : o.mixing.getD 0 < 15
      · rw [if_pos h15] at hco
        simp only [Option.some.injEq] at hco
        rw [← hco]
        simp only
        rw [if_neg (by omega)]
        omega
      · rw [if_neg h15] at hco; cases hco
  · exact .inr ⟨co, c, rfl, h1, h2⟩

theorem doomed_encode {b : Other} {o : Options} (hsel : o.select = .internal) (hmix : 8 ≤ o.mixing.getD 0)
    (dw : Nat → Nat → Nat → List UInt8) (fuel : Nat) {s : State b} (hs : Doomed o s) (inp : List UInt8) (room : Nat)
    {z} (hz : s.encode dw fuel inp room = some z) : Doomed o z.1 ∧ z.2.2.2 ≠ 3 := by
  unfold State.encode at hz
  rcases doomed_started hsel hmix hs with e | ⟨co, c, e, h1, h2⟩
  · simp only [e] at hz; cases hz
  · simp only [e] at hz
    obtain ⟨y, hy, rfl⟩ := Option.map_eq_some_iff.1 hz
    rcases fresh_encode h1 dw fuel h2 inp room with e | ⟨c', n, w, code, e, hf, hcode⟩
    · rw [e] at hy; cases hy
    · rw [e] at hy
      cases hy
      refine ⟨.inr ⟨_, _, rfl, h1, hf⟩, ?_⟩
      cases code <;> first | exact absurd rfl hcode | simp [ret]

theorem doomed_flush {b : Other} {o : Options} (hsel : o.select = .internal) (hmix : 8 ≤ o.mixing.getD 0)
    (dw : Nat → Nat → Nat → List UInt8) (fuel : Nat) {s : State b} (hs : Doomed o s) (room : Nat)
    {z} (hz : s.flush dw fuel room = some z) : Doomed o z.1 ∧ z.2.2 = 2 ∧ room < 16 := by
  unfold State.flush at hz
  rcases doomed_started hsel hmix hs with e | ⟨co, c, e, h1, h2⟩
  · simp only [e] at hz; cases hz
  · simp only [e] at hz
    obtain ⟨y, hy, rfl⟩ := Option.map_eq_some_iff.1 hz
    rcases fresh_flush h1 dw fuel h2 room with e | ⟨hr, c', w, e, hf⟩
    · rw [e] at hy; cases hy
    · rw [e] at hy
      cases hy
      exact ⟨.inr ⟨_, _, rfl, h1, hf⟩, rfl, by omega⟩

/-- Finding: every value below 256 is accepted for the mixing setting (selector 4), but with one of 8 or more the
internal compressor cannot be brought to write a file: whatever the settings, the calls of `divans_encode` made
before and the fuel, `divans_encode_flush` with 16 bytes of room panics, with less it asks for more room or
panics; the example program never returns, for any input. -/
theorem mixing_accepted_then_panics {b : Other} (dw : Nat → Nat → Nat → List UInt8) (fuel : Nat) (o : Options)
    (hsel : o.select = .internal) (hmix : 8 ≤ o.mixing.getD 0) :
    (∀ encs s' rs, encodeCalls dw fuel (.options o : State b) encs = some (s', rs) → ∀ a : FlushArgs,
      (a.p + 16 ≤ a.buf.length → cFlush dw fuel (some s') a.buf (some a.p) = none) ∧
      (∀ r, cFlush dw fuel (some s') a.buf (some a.p) = some r → r.code = 2)) ∧
    (∀ buf data, compress dw fuel buf (.options o : State b) data = none) := by
  have calls : ∀ encs (s s' : State b) rs, Doomed o s → encodeCalls dw fuel s encs = some (s', rs) → Doomed o s' := by
    intro encs
    induction encs with
    | nil =>
      intro s s' rs hs h
      simp only [encodeCalls, Option.some.injEq, Prod.mk.injEq] at h
      rw [← h.1]; exact hs
    | cons a as ih =>
      intro s s' rs hs h
      rw [encodeCalls] at h
      cases hr : cEncode dw fuel (some s) a.inp (some a.i) a.buf (some a.p) with
      | none => rw [hr] at h; cases h
      | some r =>
        rw [hr] at h
        unfold cEncode at hr
        simp only at hr
        by_cases hc : a.i ≤ a.inp.length ∧ a.p ≤ a.buf.length
        · rw [if_pos hc] at hr
          obtain ⟨z, hz, rfl⟩ := Option.map_eq_some_iff.1 hr
          have hd := (doomed_encode hsel hmix dw fuel hs _ _ hz).1
          simp only at h
          obtain ⟨y, hy, e⟩ := Option.map_eq_some_iff.1 h
          cases e
          exact ih _ _ _ hd hy
        · rw [if_neg hc] at hr; cases hr
  have fl : ∀ (s : State b), Doomed o s → ∀ (buf : List UInt8) (p : Nat),
      cFlush dw fuel (some s) buf (some p) = none ∨ ∃ s' w, cFlush dw fuel (some s) buf (some p) =
        some ⟨some s', none, stored buf p w, some (p + w.length), 2⟩ ∧ Doomed o s' ∧ buf.length < p + 16 := by
    intro s hs buf p
    unfold cFlush
    simp only
    by_cases hc : p ≤ buf.length
    · rw [if_pos hc]
      cases hz : s.flush dw fuel (buf.length - p) with
      | none => exact .inl rfl
      | some z =>
        obtain ⟨h1, h2, h3⟩ := doomed_flush hsel hmix dw fuel hs _ hz
        refine .inr ⟨z.1, z.2.1, ?_, h1, by omega⟩
        simp only [Option.map_some, h2]
    · rw [if_neg hc]; exact .inl rfl
  have loop2 : ∀ k (s : State b) buf, Doomed o s → flushLoop dw fuel buf k s = none := by
    intro k
    induction k with
    | zero => intro s buf _; rfl
    | succ k ih =>
      intro s buf hs
      rw [flushLoop]
      rcases fl s hs buf 0 with e | ⟨s', w, e, hd, -⟩
      · rw [e]
      · rw [e]
        simp only
        rw [if_neg (by decide), if_neg (by decide), ih _ _ hd]
        rfl
  have loop1 : ∀ k (s s' : State b) buf data out code, Doomed o s → encodeLoop dw fuel buf k s data = some (s', out, code) →
      Doomed o s' ∧ code ≠ 3 := by
    intro k
    induction k with
    | zero => intro s s' buf data out code _ h; cases h
    | succ k ih =>
      intro s s' buf data out code hs h
      rw [encodeLoop] at h
      by_cases hd : data = []
      · rw [if_pos hd] at h; cases h; exact ⟨hs, by decide⟩
      · rw [if_neg hd] at h
        cases hz : s.encode dw fuel data buf.length with
        | none =>
          have : cEncode dw fuel (some s) data (some 0) buf (some 0) = none := by
            unfold cEncode
            simp only [List.drop_zero, Nat.sub_zero, hz, Option.map_none]
            rw [if_pos ⟨Nat.zero_le _, Nat.zero_le _⟩]
          rw [this] at h; cases h
        | some z =>
          obtain ⟨hd, hne⟩ := doomed_encode hsel hmix dw fuel hs _ _ hz
          have : cEncode dw fuel (some s) data (some 0) buf (some 0) =
              some ⟨some z.1, some (0 + z.2.1), stored buf 0 z.2.2.1, some (0 + z.2.2.1.length), z.2.2.2⟩ := by
            unfold cEncode
            simp only [List.drop_zero, Nat.sub_zero, hz, Option.map_some]
            rw [if_pos ⟨Nat.zero_le _, Nat.zero_le _⟩]
          rw [this] at h
          simp only at h
          rw [if_neg hne] at h
          obtain ⟨y, hy, e⟩ := Option.map_eq_some_iff.1 h
          cases e
          exact ih _ _ _ _ _ _ hd hy
  refine ⟨fun encs s' rs h a => ?_, fun buf data => ?_⟩
  · have hd := calls encs _ _ _ (.inl rfl) h
    rcases fl s' hd a.buf a.p with e | ⟨s2, w, e, -, hr⟩
    · rw [e]; exact ⟨fun _ => rfl, fun r hr => by cases hr⟩
    · rw [e]
      exact ⟨fun hp => absurd hr (by omega), fun r hr => by cases hr; rfl⟩
  · unfold compress
    cases hl : encodeLoop dw fuel buf fuel (.options o : State b) data with
    | none => rfl
    | some z =>
      obtain ⟨s', out, code⟩ := z
      simp only
      obtain ⟨hd, h3⟩ := loop1 _ _ _ _ _ _ _ (.inl rfl) hl
      rw [if_neg h3, loop2 _ _ _ hd]
      rfl

/-! ## The theorems are not vacuous -/

/-- A stand-in for the other compressor that takes everything and writes nothing. -/
def sink : Other := ⟨Unit, fun _ => some (), fun _ i _ => some ((), i.length, [], .needsInput), fun _ _ => some ((), [], .success)⟩

/-- Strides up to 8 are accepted; selectors go from 1 to 20. -/
example : Accepts 9 8 ∧ ¬ Accepts 9 9 ∧ ¬ Accepts 0 1 ∧ Accepts 20 1 ∧ ¬ Accepts 21 1 ∧ Accepts 4 255 ∧ ¬ Accepts 8 15 := by
  unfold Accepts; simp

/-- Window and mixing can be set in either order; a speed set twice is excluded for a reason. -/
example : Accepts 2 22 ∧ Accepts 4 2 ∧ 2 ≠ 4 ∧ ¬ (IsSpeed 2 ∧ IsSpeed 4) ∧ ¬ (IsSelect 2 ∧ IsSelect 4) := by
  unfold Accepts IsSpeed IsSelect; decide

/-- A history with a setting before and one after the first call: the first is accepted, the second refused. -/
example (dw : Nat → Nat → Nat → List UInt8) :
    (runAll (b := sink) dw 0 (some (.new sink)) [.set 2 22, .encode ⟨[1, 2], 0, [0, 0], 0⟩, .set 2 10, .flush ⟨[0], 0⟩]).map
      (fun z => z.2.map fun r => match r with | .set c => c | .call a => a.code + 100) = some [0, 101, 3, 100] := rfl

/-- Settings that meet the hypotheses of the sessions, and offsets inside of the buffers. -/
example : ∃ o, setAll .default [(5, 0), (2, 12), (4, 2), (11, 3), (8, 3), (14, 5), (7, 1), (9, 2)] = some o ∧
    o.select = .internal ∧ o.mixing.getD 0 < 8 ∧ o.priorDepth.getD 0 < 16 ∧ o.window = some 12 ∧
    (∀ a ∈ [(⟨[1, 2, 3], 1, [0, 0, 0, 0], 2⟩ : EncArgs)], a.Fits) ∧ (∀ a ∈ [(⟨[0, 0, 0, 0], 2⟩ : FlushArgs)], a.Fits) :=
  ⟨_, rfl, rfl, by decide, by decide, rfl, by simp [EncArgs.Fits], by simp [FlushArgs.Fits]⟩

/-- The settings that end in a panic are accepted. -/
example : ∃ o, setAll .default [(5, 0), (4, 8)] = some o ∧ o.select = .internal ∧ 8 ≤ o.mixing.getD 0 :=
  ⟨_, rfl, rfl, by decide⟩

end Divans.Ffi
