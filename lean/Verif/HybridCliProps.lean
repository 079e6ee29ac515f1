import Verif.HybridIoProps
import Verif.CliProps

/-!
# C72: the command line program with brotli inside, as it is by default

The machine of `compress_raw_inner` is the compressor with brotli inside; the loops are those of `Cli`.
-/

namespace Divans.Hybrid
open Divans.Pipe Divans.Eng Divans.Compressor Divans.Io Divans.Cli

variable {σ : Type}

/-! ## Model -/

/-- The compressor `compress_raw` uses unless the option `-nobrotli` is given, `/repo/src/bin/divans.rs:893-927`; `encode`
does not use the output, `/repo/src/brotli_ir_gen.rs:249-262`. -/
def machine (b : Brotli σ) (o : Codec.Opts) (dw : Nat → Nat → Nat → List UInt8) : Machine (Hy σ) where
  encode fuel h inp _ := (h.encode b o dw fuel inp).map fun (h', n, code) => (h', n, [], code)
  flush fuel h room := h.flush b o dw fuel room

variable {b : Brotli σ} {g : Cfg} {I : Bool → σ → List UInt8 → List Item → Prop} {m : σ → Nat}

/-- An encoder that keeps its contract gives a compressor the program can use. -/
theorem machine_keeps (hb : Meets b g I m) :
    Keeps (machine b g.o g.dw) (fun h taken out => Live b g I false taken [] h ∧ out = [])
      (fun h taken out => Flushing b g I taken out h) (fun taken out => Restores g.dw out taken)
      (· < ·) (fun h => m h.br) closeLt (todo b) where
  wf := Nat.lt_wfRel.wf
  wf' := closeLt_wf
  encode := by
    rintro h taken out inp room ⟨hl, rfl⟩ hi -
    obtain ⟨f0, h', n, e, h1, h2, h3, -⟩ := encode_spec hb hl inp
    refine ⟨f0, h', n, [], .needsInput, fun fuel hf => ?_, h1, ⟨h2, rfl⟩, .inl rfl, ?_⟩
    · show (h.encode b g.o g.dw fuel inp).map _ = _
      rw [e fuel hf]
      rfl
    · rcases Nat.eq_zero_or_pos n with h0 | h0
      · exact .inr (h3 h0 hi)
      · exact .inl h0
  closing := by
    rintro h taken out ⟨hl, rfl⟩
    exact .inl ⟨false, hl⟩
  flush := by
    intro h taken out room hf hr
    obtain ⟨f0, h', o, code, e, -, h2, h3, h4⟩ := flush_spec hb hf room
    refine ⟨f0, h', o, code, e, h2, ?_⟩
    rcases h4 with h4 | ⟨h4, h5⟩
    · exact .inl h4
    · refine .inr ⟨h4, h3 fun h0 => ?_⟩
      rw [h0, List.length_nil] at h5
      omega

/-! ## Theorems -/

/-- **C72.**  With brotli inside, as by default, and an encoder that keeps the contract.  Any source that is not interrupted, in
any pieces and of any length, any sink, any size of buffer; the data does not begin with the magic number, or compression is
forced.  The program ends.  Either it reports no error and the sink was given a file from which every decompressor restores exactly the data; or it
reports an error that the source or the sink had. -/
theorem hybrid_tool_partial (hb : Meets b g I m) {st : σ} (h0 : I false st [] []) (size : Nat) (force : Bool)
    (src : List Ev) (sink : List WEv) (hw : Whole src) (hi : .interrupted ∉ src) (hm : force = true ∨ ¬ magic <+: srcBytes src) :
    ∃ f0 file e, (∀ n rounds, f0 ≤ n → f0 ≤ rounds →
        compressRaw (machine b g.o g.dw) g.dw n rounds (.new g.window st) size force src sink = some (file, e)) ∧
      (e = .ok ∧ Restores g.dw file (srcBytes src) ∨ e = .ioErr ∧ (.fail ∈ src ∨ .fail ∈ sink)) :=
  tool_any (machine_keeps hb) ⟨live_new hb h0, rfl⟩ g.dw size force src sink hw hi hm

/-- **C72 fails for a source that is interrupted.**  The source gives some bytes, no more than the buffer holds, the next read
is interrupted, and there is nothing more.  The program reports no error, and every decompressor restores the bytes twice. -/
theorem hybrid_tool_doubles (hb : Meets b g I m) {st : σ} (h0 : I false st [] []) (size : Nat) (bs : List UInt8) (hne : bs ≠ [])
    (hs : bs.length ≤ bufSize size) :
    ∃ f0 file, (∀ n rounds, f0 ≤ n → f0 ≤ rounds →
        compressRaw (machine b g.o g.dw) g.dw n rounds (.new g.window st) size true [.data bs, .interrupted] [] = some (file, .ok)) ∧
      Restores g.dw file (bs ++ bs) ∧ bs ++ bs ≠ bs := by
  have hh : heard (bufSize size) [] [.data bs, .interrupted] = bs ++ bs := by
    obtain ⟨b, l, rfl⟩ := List.exists_cons_of_ne_nil hne
    rw [heard, heard, lastPiece_small hs hne, heard, List.append_nil]
  obtain ⟨f0, file, e, h1, h2⟩ := inner_any (machine_keeps hb) (c := Hy.new g.window st) ⟨live_new hb h0, rfl⟩
    (Cli.bufSize_pos size) [] [.data bs, .interrupted] []
  rw [hh, List.nil_append] at h2
  rcases h2 with ⟨rfl, -, h2⟩ | ⟨-, h2⟩
  · refine ⟨f0, file, fun n k hn hk => ?_, h2, fun h0 => hne ?_⟩
    · unfold compressRaw
      rw [if_pos rfl, h1 n k hn hk]
    · have := congrArg List.length h0
      rw [List.length_append] at this
      exact List.length_eq_zero_iff.1 (by omega)
  · rcases h2 with h2 | h2 <;> simp at h2

/-- **C72.**  There and back, for data of any length: a source without errors and interruptions, a sink without errors, then a
source that gives what the sink was given, in any pieces and with any interruptions, and a second sink without errors: the
second sink is given what the first source gave. -/
theorem hybrid_tools_round_trip_partial (hb : Meets b g I m) {st : σ} (h0 : I false st [] []) (size size' : Nat) (force : Bool)
    (src : List Ev) (sink sink' : List WEv) (hw : Whole src) (hi : .interrupted ∉ src) (hf : .fail ∉ src) (hk : .fail ∉ sink)
    (hk' : .fail ∉ sink') (hm : force = true ∨ ¬ magic <+: srcBytes src) (skip : Bool) :
    ∃ f0 file, (∀ n rounds, f0 ≤ n → f0 ≤ rounds →
        compressRaw (machine b g.o g.dw) g.dw n rounds (.new g.window st) size force src sink = some (file, .ok)) ∧
      ∀ src', Whole src' → .fail ∉ src' → srcBytes src' = file → ∃ f1, ∀ n rounds, f1 ≤ n → f1 ≤ rounds →
        decompress g.dw n rounds skip size' [] src' sink' = some (srcBytes src, .ok) := by
  obtain ⟨f0, file, e, h1, h2⟩ := hybrid_tool_partial hb h0 size force src sink hw hi hm
  rcases h2 with ⟨rfl, h2⟩ | ⟨-, h2⟩
  · refine ⟨f0, file, h1, fun src' g1 g2 g3 => ?_⟩
    obtain ⟨f1, written, e, k1, k2⟩ := decompress_tool h2.1 skip size' [] [] src' sink' g1 (by rw [g3]; simp)
    rcases k2 with ⟨rfl, rfl⟩ | ⟨-, -, k2⟩
    · exact ⟨f1, k1⟩
    · exact absurd k2 (by simp [g2, hk'])
  · exact absurd h2 (by simp [hf, hk])

/-! ## The theorems are not vacuous -/

/-- The encoder that leaves input will do. -/
example : ∃ f0 file, (∀ n rounds, f0 ≤ n → f0 ≤ rounds →
      compressRaw (machine (toy true) Codec.demoOpts demoWords) demoWords n rounds (.new (some 12) (true, false)) 2 false
        [.data [1, 2, 3], .data [4]] [.took 1, .interrupted] = some (file, .ok)) ∧ Restores demoWords file [1, 2, 3, 4] := by
  obtain ⟨f0, file, e, h1, h2⟩ := hybrid_tool_partial (b := toy true) (g := ⟨Codec.demoOpts, demoWords, some 12⟩)
    (I := toyInv demoWords) (m := fun _ => 0) (toy_meets true (rawPm_valid rfl (by decide) (by decide) _ _))
    (st := (true, false)) ⟨by simp, rfl, fun _ => rfl⟩ 2 false [.data [1, 2, 3], .data [4]] [.took 1, .interrupted]
    (by simp [Whole]) (by simp) (.inr (by decide))
  rcases h2 with ⟨rfl, h2⟩ | ⟨-, h2⟩
  · exact ⟨f0, file, h1, h2⟩
  · rcases h2 with h2 | h2 <;> simp at h2

end Divans.Hybrid
