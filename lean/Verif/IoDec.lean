import Verif.IoRun
import Verif.CallProps

/-!
# The decompressor keeps the contract of the adaptors
-/

namespace Divans.Io
open Divans.Call

variable {dw : Nat → Nat → Nat → List UInt8} {file data tail missing whole : List UInt8} {skip : Bool}

theorem calls_snoc {fuel : Nat} {d' : Dec} {rest' : List UInt8} {offer room : Nat} {r : Reply}
    (hd : d'.decode dw fuel (rest'.take offer) room = some (.ok r)) :
    ∀ (cs : List (Nat × Nat)) (d : Dec) (rest out : List UInt8) (rets : List Ret),
      calls dw fuel d rest cs = some (.ok (d', rest', out, rets)) →
      calls dw fuel d rest (cs ++ [(offer, room)]) = some (.ok (r.dec, rest'.drop r.used, out ++ r.out, rets ++ [r.ret])) := by
  intro cs
  induction cs with
  | nil =>
    intro d rest out rets h
    simp only [calls, Option.some.injEq, Codec.Res.ok.injEq, Prod.mk.injEq] at h
    obtain ⟨rfl, rfl, rfl, rfl⟩ := h
    simp only [List.nil_append, calls, hd, Option.map_some, Codec.Res.bind, List.append_nil]
  | cons c cs ih =>
    intro d rest out rets h
    obtain ⟨offer0, room0⟩ := c
    rw [List.cons_append, calls]
    rw [calls] at h
    cases hr : d.decode dw fuel (rest.take offer0) room0 with
    | none => rw [hr] at h; cases h
    | some x =>
      rw [hr] at h
      cases x with
      | fail => simp only at h; cases h
      | panic => simp only at h; cases h
      | ok r0 =>
        simp only at h ⊢
        cases h1 : calls dw fuel r0.dec (rest.drop r0.used) cs with
        | none => rw [h1] at h; cases h
        | some y =>
          rw [h1] at h
          cases y with
          | fail => cases h
          | panic => cases h
          | ok z =>
            obtain ⟨z1, z2, z3, z4⟩ := z
            simp only [Option.map_some, Codec.Res.bind, Option.some.injEq, Codec.Res.ok.injEq, Prod.mk.injEq] at h
            obtain ⟨rfl, rfl, rfl, rfl⟩ := h
            rw [ih _ _ _ _ h1]
            simp [Codec.Res.bind]

/-- A decompressor some calls have led to, with the bytes not taken and the bytes given out. -/
def Reached (dw : Nat → Nat → Nat → List UInt8) (skip : Bool) (whole : List UInt8) :
    Slot Dec → List UInt8 → List UInt8 → Prop
  | .live d, rest, out => ∃ cs k rets, ∀ fuel, k ≤ fuel → calls dw fuel (.new skip) whole cs = some (.ok (d, rest, out, rets))
  | _, _, _ => False

theorem reached_new : Reached dw skip whole (.live (.new skip)) whole [] := ⟨[], 0, [], fun _ _ => rfl⟩

/-- One more call. -/
theorem reached_step (hs : Serves dw file data) {d : Dec} {rest out : List UInt8}
    (h : Reached dw skip (file ++ tail) (.live d) rest out) (offer room : Nat) :
    tail <:+ rest ∧ ∃ k r, (∀ fuel, k ≤ fuel → d.decode dw fuel (rest.take offer) room = some (.ok r)) ∧
      Reached dw skip (file ++ tail) (.live r.dec) (rest.drop r.used) (out ++ r.out) ∧
      r.used ≤ (rest.take offer).length ∧ (r.used < (rest.take offer).length → rest.drop r.used = tail) ∧
      r.out.length ≤ room ∧ out ++ r.out <+: data ∧
      (r.ret = .needsInput → r.used = (rest.take offer).length ∧ tail.length < (rest.drop offer).length) ∧
      (r.ret = .needsOutput → r.out.length = room) ∧
      (r.ret = .success → out ++ r.out = data ∧ rest.drop r.used = tail) := by
  obtain ⟨cs, k, rets, e⟩ := h
  obtain ⟨k1, d1, rest1, out1, rets1, e1, -, -, ht, -, -, h6, -, -⟩ := hs skip tail cs
  have he := e (max k k1) (Nat.le_max_left _ _)
  rw [e1 (max k k1) (Nat.le_max_right _ _)] at he
  simp only [Option.some.injEq, Codec.Res.ok.injEq, Prod.mk.injEq] at he
  obtain ⟨rfl, rfl, rfl, rfl⟩ := he
  obtain ⟨k', r, e2, g⟩ := h6 offer room
  refine ⟨ht, k', r, e2, ⟨cs ++ [(offer, room)], max k k', rets1 ++ [r.ret], fun fuel hf => ?_⟩, g⟩
  exact calls_snoc (e2 fuel (by omega)) cs _ _ _ _ (e fuel (by omega))

theorem reached_pre (hs : Serves dw file data) {c : Slot Dec} {rest out : List UInt8}
    (h : Reached dw skip (file ++ tail) c rest out) : out <+: data := by
  cases c with
  | live d =>
    obtain ⟨-, k, r, -, -, -, -, -, h, -⟩ := reached_step hs h 0 0
    exact (List.prefix_append _ _).trans h
  | failed => exact absurd h id
  | crashed => exact absurd h id

/-- How far a decompressor is from the end. -/
def left (data : List UInt8) (x : Slot Dec × List UInt8 × List UInt8) : Nat := x.2.1.length + (data.length - x.2.2.length)

/-- The decompressor, fed a file or the beginning of a file. -/
theorem dec_contract (hs : Serves dw file data) (missing : List UInt8) :
    Contract (fun fuel => decProc dw fuel) (fun c rest out => Reached dw skip file c (rest ++ missing) out) (fun _ => False)
      (fun _ out => out = data ∧ missing = []) (missing ≠ []) (fun x y => left data x < left data y) := by
  constructor
  · intro c inp fut out cap h hne hcap
    cases c with
    | failed => exact absurd h id
    | crashed => exact absurd h id
    | live d =>
      rw [← List.append_nil file] at h
      obtain ⟨-, k, r, e, h1, h2, h3, h4, h5, h6, h7, h8⟩ := reached_step hs h inp.length cap
      have htake : (inp ++ fut ++ missing).take inp.length = inp := by rw [List.append_assoc, List.take_left]
      rw [htake] at e h2 h3 h6
      have hpos : 0 < inp.length := List.length_pos_iff.2 hne
      have hused : r.used = inp.length := by
        rcases Nat.lt_or_eq_of_le h2 with h0 | h0
        · have := congrArg List.length (h3 h0)
          rw [List.length_drop, List.length_append, List.length_append, List.length_nil] at this
          omega
        · exact h0
      have hdrop : (inp ++ fut ++ missing).drop r.used = inp.drop r.used ++ fut ++ missing := by
        rw [List.append_assoc, List.drop_append_of_le_length (by omega), List.append_assoc]
      rw [hdrop, List.append_nil] at h1
      have hle := h5.length_le
      rw [List.length_append] at hle
      refine ⟨k, .live r.dec, r.used, r.out, ofRet r.ret, fun fuel hf => ?_, h2, h4, fun _ => h1, fun _ => ?_, ?_, ?_, ?_, ?_⟩
      · show decStep dw fuel (.live d) inp cap = _
        unfold decStep
        simp only [e fuel hf]
      · simp only [left, List.length_append, List.length_drop]
        omega
      · intro h0; cases hr : r.ret <;> rw [hr] at h0 <;> cases h0
      · intro _; exact ⟨hused, fun _ h0 => absurd h0 id⟩
      · intro h0
        have hr : r.ret = .needsOutput := by cases hr : r.ret <;> rw [hr] at h0 <;> first | rfl | cases h0
        refine ⟨fun h9 => ?_, fun h9 => by omega⟩
        have := h7 hr
        rw [h9] at this
        simp at this
        omega
      · intro h0
        have hr : r.ret = .success := by cases hr : r.ret <;> rw [hr] at h0 <;> first | rfl | cases h0
        obtain ⟨q1, q2⟩ := h8 hr
        rw [hdrop] at q2
        obtain ⟨q3, q4⟩ := List.append_eq_nil_iff.1 q2
        exact ⟨q3, q1, q4⟩
  · intro c out cap h hcap
    cases c with
    | failed => exact absurd h id
    | crashed => exact absurd h id
    | live d =>
      rw [← List.append_nil file] at h
      obtain ⟨-, k, r, e, h1, h2, h3, h4, h5, h6, h7, h8⟩ := reached_step hs h 0 cap
      simp only [List.take_zero, List.length_nil, List.drop_zero, List.nil_append] at e h2 h6
      have hu : r.used = 0 := by omega
      rw [hu, List.drop_zero, List.append_nil] at h1
      refine ⟨k, .live r.dec, r.out, if ofRet r.ret = .needsInput then .failure else ofRet r.ret, fun fuel hf => ?_, h4, fun _ => h1, ?_, ?_, ?_, ?_,
        fun _ ho => ?_⟩
      · show decClose dw fuel (.live d) cap = _
        unfold decClose decStep
        simp only [e fuel hf]
      · intro h0 h9
        cases hr : r.ret <;> rw [hr] at h0
        · cases h0
        · have := h7 hr
          rw [h9] at this
          simp at this
          omega
        · cases h0
      · intro h0
        cases hr : r.ret <;> rw [hr] at h0 <;> cases h0
      · intro h0 h9
        cases hr : r.ret <;> rw [hr] at h0
        · have := (h6 hr).2
          rw [h9] at this
          simp at this
        · cases h0
        · cases h0
      · intro h0
        have hr : r.ret = .success := by cases hr : r.ret <;> rw [hr] at h0 <;> first | rfl | cases h0
        obtain ⟨q1, q2⟩ := h8 hr
        rw [hu] at q2
        exact ⟨q1, by simpa using q2⟩
      · have hle := h5.length_le
        have := List.length_pos_iff.2 ho
        rw [List.length_append] at hle
        simp only [left, List.length_append]
        omega

end Divans.Io
