import Verif.CompProps

/-!
# C56: compress in any calls, decompress in any calls

The theorems about the compressor call by call (C49) and the decompressor call by call (C55) put together.
-/

namespace Divans.Compressor
open Divans.Adaptive Divans.Pipe Divans.Frame

/-- A decompressor that is called with something offered and room for something each time. -/
theorem served {dw : Nat → Nat → Nat → List UInt8} {file data : List UInt8} (h : Call.Serves dw file data) (skip : Bool)
    (tail : List UInt8) (calls : Nat → Nat × Nat) (hc : ∀ i, 0 < (calls i).1 ∧ 0 < (calls i).2) :
    ∃ k d rets, (∀ fuel, k ≤ fuel →
        Call.calls dw fuel (.new skip) (file ++ tail) ((List.range (file.length + data.length + 1)).map calls) =
          some (.ok (d, tail, data, rets))) ∧ .success ∈ rets := by
  obtain ⟨k, d, rest, out, rets, h1, -, -, -, -, h5, -, h7, -⟩ := h skip tail
    ((List.range (file.length + data.length + 1)).map calls)
  have hs := h7 (by
    intro c hm
    obtain ⟨i, -, rfl⟩ := List.mem_map.1 hm
    exact hc i) (by rw [List.length_map, List.length_range]; omega)
  obtain ⟨rfl, rfl⟩ := h5 hs
  exact ⟨k, d, rets, h1, hs⟩

/-- **C56 for raw input** of at most two windows less two bytes.  A caller who offers the input bit by bit to `encode`, at
least one byte and a nonempty output buffer each time, then calls `flush` with nonempty output buffers until it
reports success, and offers the bytes written (with anything behind them) bit by bit to a decompressor, at least
one byte and a nonempty output buffer each time, comes to the end of each of the three, and gets the input
back, with the bytes behind the file left alone. -/
theorem round_trip_raw_partial (o : Codec.Opts) (dw : Nat → Nat → Nat → List UInt8) (window : Option Int)
    (hpm : (Item.pm rawPm).Valid o dw (2 ^ (windowOf window).toNat)) (inp : List UInt8)
    (hlen : inp.length ≤ 2 * 2 ^ (windowOf window).toNat - 2)
    (enc : Nat → Nat × Nat) (he : ∀ i, 0 < (enc i).1 ∧ 0 < (enc i).2)
    (fl : Nat → Nat) (hf : ∀ i, 0 < fl i)
    (dec : Nat → Nat × Nat) (hd : ∀ i, 0 < (dec i).1 ∧ 0 < (dec i).2) (skip : Bool) (tail : List UInt8) :
    ∃ N M K k c out codes c' out' codes' d rets, (∀ fuel, k ≤ fuel →
        encodes o dw fuel ((List.range N).map enc) (.new window) inp = some (c, inp.length, out, codes) ∧
        flushes o dw fuel ((List.range M).map fl) c = some (c', out', codes') ∧
        Call.calls dw fuel (.new skip) (out ++ out' ++ tail) ((List.range K).map dec) =
          some (.ok (d, tail, inp, rets))) ∧
      codes'.getLast? = some .success ∧ .success ∈ rets ∧ K ≤ (out ++ out').length + inp.length + 1 := by
  obtain ⟨hA, hB⟩ := raw_calls_end o dw window hpm inp
  obtain ⟨N, f1, c1, out1, codes1, a1⟩ := hA enc he
  obtain ⟨M, f2, c2, n2, out2, codes2, c2', out2', codes2', b1, b2⟩ := hB ((List.range N).map enc) fl hf
  have e := (b1 (max f1 f2) (by omega)).1.symm.trans (a1 (max f1 f2) (by omega))
  simp only [Option.some.injEq, Prod.mk.injEq] at e
  obtain ⟨rfl, rfl, rfl, rfl⟩ := e
  obtain ⟨f3, c3, n3, out3, codes3, c3', out3', codes3', -, -, -, d4, d5⟩ :=
    raw_calls_partial o dw window hpm inp ((List.range N).map enc) ((List.range M).map fl)
  have e := (d4 (max f2 f3) (by omega)).1.symm.trans (b1 (max f2 f3) (by omega)).1
  simp only [Option.some.injEq, Prod.mk.injEq] at e
  obtain ⟨rfl, rfl, rfl, rfl⟩ := e
  have e := (d4 (max f2 f3) (by omega)).2.symm.trans (b1 (max f2 f3) (by omega)).2
  simp only [Option.some.injEq, Prod.mk.injEq] at e
  obtain ⟨rfl, rfl, rfl⟩ := e
  obtain ⟨data, g1, -, -, g4⟩ := d5 b2
  have hdata := g4.1 hlen
  rw [List.take_length] at hdata
  subst hdata
  obtain ⟨k, d, rets, s1, s2⟩ := served g1.1 skip tail dec hd
  exact ⟨N, M, _, max f2 k, _, _, _, _, _, _, d, rets,
    fun fuel hf => ⟨(b1 fuel (by omega)).1, (b1 fuel (by omega)).2, s1 fuel (by omega)⟩, b2, s2, Nat.le_refl _⟩

/-- **C56 for commands.**  The same for a list of valid commands whose copies refer to data already there, of
any length. -/
theorem round_trip_commands (o : Codec.Opts) (dw : Nat → Nat → Nat → List UInt8) (window : Option Int) (xs : List Item)
    (hne : xs ≠ []) (hv : ∀ x ∈ xs, x.Valid o dw (2 ^ (windowOf window).toNat))
    (hh : Recode.InHistory 0 (xs.map (Item.ringCmd dw)))
    (enc : Nat → Nat × Nat) (he : ∀ i, 0 < (enc i).1 ∧ 0 < (enc i).2)
    (fl : Nat → Nat) (hf : ∀ i, 0 < fl i)
    (dec : Nat → Nat × Nat) (hd : ∀ i, 0 < (dec i).1 ∧ 0 < (dec i).2) (skip : Bool) (tail : List UInt8) :
    ∃ N M K k c out codes c' out' codes' d rets, (∀ fuel, k ≤ fuel →
        encodesCmds o dw fuel ((List.range N).map enc) (.new window) xs = some (c, xs.length, out, codes) ∧
        flushes o dw fuel ((List.range M).map fl) c = some (c', out', codes') ∧
        Call.calls dw fuel (.new skip) (out ++ out' ++ tail) ((List.range K).map dec) =
          some (.ok (d, tail, original dw xs, rets))) ∧
      codes.getLast? = some .success ∧ codes'.getLast? = some .success ∧ .success ∈ rets ∧
      K ≤ (out ++ out').length + (original dw xs).length + 1 := by
  obtain ⟨N, M, f0, c, out, codes, c', out', codes', h1, h2, h3, h4⟩ :=
    command_calls_end o dw window xs hne hv hh enc he fl hf
  obtain ⟨k, d, rets, s1, s2⟩ := served h4.1 skip tail dec hd
  exact ⟨N, M, _, max f0 k, c, out, codes, c', out', codes', d, rets,
    fun fuel hf => ⟨(h1 fuel (by omega)).1, (h1 fuel (by omega)).2, s1 fuel (by omega)⟩, h2, h3, s2, Nat.le_refl _⟩

/-! ## The theorems are not vacuous -/

/-- The hypotheses are met, with one byte offered and one byte of room in each call. -/
example : (Item.pm rawPm).Valid Codec.demoOpts demoWords (2 ^ (windowOf (some 12)).toNat) ∧
    ([1, 2, 3] : List UInt8).length ≤ 2 ^ (windowOf (some 12)).toNat ∧
    (∀ i : Nat, 0 < ((fun _ => (1, 1) : Nat → Nat × Nat) i).1 ∧ 0 < ((fun _ => (1, 1) : Nat → Nat × Nat) i).2) :=
  ⟨rawPm_valid rfl (by decide) (by decide) _ _, by decide, fun _ => ⟨Nat.one_pos, Nat.one_pos⟩⟩

example : demoItems ≠ [] ∧
    (∀ x ∈ demoItems, x.Valid Codec.demoOpts demoWords (2 ^ (windowOf (some 3)).toNat)) ∧
    Recode.InHistory 0 (demoItems.map (Item.ringCmd demoWords)) := by
  refine ⟨by simp [demoItems], ?_, by simp [demoItems, Item.ringCmd, Recode.InHistory, Recode.Cmd.size, demoWords]⟩
  have : 2 ^ (windowOf (some 3)).toNat = 1024 := by decide
  rw [this]
  exact demoItems_valid

end Divans.Compressor
