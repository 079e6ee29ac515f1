import Verif.CallFileRun
import Verif.DamageProps

/-!
# What a success reported by `decode` means, whatever bytes it was offered: C61

`Verif.CallFileRun` shows that every call of the call-level model of `decode` is a schedule of the model of
`Verif.File`.  So what was proved there about every schedule holds of every sequence of calls: a reported
success means a checked file, its end depends on the bytes alone, truncation and damage are detected.
-/

namespace Divans.Call
open Divans.Frame (GoodHeader trailer)
open Divans.Crc (crc32c)

section
variable {dw dw' : Nat → Nat → Nat → List UInt8} {fuel fuel' : Nat} {skip skip' : Bool} {bytes bytes' rest rest' out out' : List UInt8}
  {cs cs' : List (Nat × Nat)} {d d' : Dec} {rets rets' : List Ret}

/-- Calls of `decode` that end in success are a schedule of `Verif.File` that ends in success. -/
theorem success_run (e : calls dw fuel (.new skip) bytes cs = some (.ok (d, rest, out, rets)))
    (hs : rets.getLast? = some .success) :
    ∃ acts f taken more, File.run dw (.new skip) acts = .ok (f, out) ∧ f.verdict = .success ∧
      File.fed acts = taken ++ f.pending ∧ bytes = taken ++ rest ∧ rest = f.pending ++ more := by
  obtain ⟨f, x, ⟨acts, g1, g2⟩, ⟨-, -, hp, -⟩, hb, hv, -⟩ := calls_sim cs (pair_new skip bytes) e
  obtain ⟨more, hm⟩ := hp
  exact ⟨acts, f, x, more, g1, hv hs, g2, hb, hm.symm⟩

/-- What is left is an end of what was there. -/
theorem calls_suffix : ∀ (cs : List (Nat × Nat)) {d d' : Dec} {bytes rest out : List UInt8} {rets : List Ret},
    calls dw fuel d bytes cs = some (.ok (d', rest, out, rets)) → rest <:+ bytes := by
  intro cs
  induction cs with
  | nil => intro d d' bytes rest out rets e; cases e; exact List.suffix_rfl
  | cons c cs ih =>
    intro d d' bytes rest out rets e
    obtain ⟨offer, room⟩ := c
    rw [calls.eq_def] at e
    simp only at e
    cases he : d.decode dw fuel (bytes.take offer) room with
    | none => rw [he] at e; cases e
    | some x =>
      rw [he] at e
      cases x with
      | fail => cases e
      | panic => cases e
      | ok r =>
        simp only at e
        rw [Option.map_eq_some_iff] at e
        obtain ⟨y, e1, e2⟩ := e
        cases y with
        | fail => cases e2
        | panic => cases e2
        | ok y =>
          obtain ⟨d2, rest2, out2, rets2⟩ := y
          simp only [Codec.Res.bind, Codec.Res.ok.injEq, Prod.mk.injEq] at e2
          obtain ⟨rfl, rfl, rfl, rfl⟩ := e2
          exact (ih e1).trans (List.drop_suffix _ _)

/-- If some call reported success, then the calls up to it ended in success. -/
theorem calls_split : ∀ (cs : List (Nat × Nat)) {d d' : Dec} {bytes rest out : List UInt8} {rets : List Ret},
    calls dw fuel d bytes cs = some (.ok (d', rest, out, rets)) → .success ∈ rets →
    ∃ cs1 d1 rest1 out1 rets1, cs1 <+: cs ∧ calls dw fuel d bytes cs1 = some (.ok (d1, rest1, out1, rets1)) ∧
      rets1.getLast? = some .success ∧ rest <:+ rest1 ∧ out1 <+: out ∧ rets1 <+: rets := by
  intro cs
  induction cs with
  | nil => intro d d' bytes rest out rets e hs; cases e; cases hs
  | cons c cs ih =>
    intro d d' bytes rest out rets e hs
    obtain ⟨offer, room⟩ := c
    rw [calls.eq_def] at e
    simp only at e
    cases he : d.decode dw fuel (bytes.take offer) room with
    | none => rw [he] at e; cases e
    | some x =>
      rw [he] at e
      cases x with
      | fail => cases e
      | panic => cases e
      | ok r =>
        simp only at e
        rw [Option.map_eq_some_iff] at e
        obtain ⟨y, e1, e2⟩ := e
        cases y with
        | fail => cases e2
        | panic => cases e2
        | ok y =>
          obtain ⟨d2, rest2, out2, rets2⟩ := y
          simp only [Codec.Res.bind, Codec.Res.ok.injEq, Prod.mk.injEq] at e2
          obtain ⟨rfl, rfl, rfl, rfl⟩ := e2
          rcases Decidable.em (r.ret = .success) with hr | hr
          · refine ⟨[(offer, room)], r.dec, bytes.drop r.used, r.out, [r.ret], ⟨cs, rfl⟩, ?_, by rw [hr]; rfl, ?_,
              List.prefix_append _ _, ⟨rets2, rfl⟩⟩
            · simp only [calls, he, Option.map_some, Codec.Res.bind, List.append_nil]
            · exact calls_suffix cs e1
          · have hs2 : .success ∈ rets2 := by
              rcases List.mem_cons.1 hs with h | h
              · exact absurd h.symm hr
              · exact h
            obtain ⟨cs1, d1, rest1, out1, rets1, ⟨z, hz⟩, g2, g3, g4, ⟨o, ho⟩, ⟨q, hq⟩⟩ := ih e1 hs2
            refine ⟨(offer, room) :: cs1, d1, rest1, r.out ++ out1, r.ret :: rets1, ⟨z, by rw [List.cons_append, hz]⟩, ?_, ?_, g4,
              ⟨o, by rw [List.append_assoc, ho]⟩, ⟨q, by rw [List.cons_append, hq]⟩⟩
            · simp only [calls, he, g2, Option.map_some, Codec.Res.bind]
            · rw [List.getLast?_cons, g3]; rfl
end

/-! ## The theorems -/

/-- **C61.**  A caller offers any bytes in any pieces with any output buffers.  When a call reports success, the
bytes taken until then are a good header, streams ended by the end marker and a trailer whose last four bytes are
`ans~` and whose first four bytes, unless checksums are skipped, are the CRC-32C of everything before it. -/
theorem call_success_means_checked (dw : Nat → Nat → Nat → List UInt8) (fuel : Nat) (skip : Bool) (bytes : List UInt8)
    (cs : List (Nat × Nat)) (d : Dec) (rest out : List UInt8) (rets : List Ret)
    (e : calls dw fuel (.new skip) bytes cs = some (.ok (d, rest, out, rets))) (hs : rets.getLast? = some .success) :
    ∃ h w body sum s, GoodHeader h w ∧ Mux.runAll .init body = some s ∧ s.eof = .done ∧ sum.length = 4 ∧
      bytes = h ++ body ++ (sum ++ [0x61, 0x6e, 0x73, 0x7e]) ++ rest ∧
      (skip = false → bytes = h ++ body ++ trailer (crc32c (h ++ body)) ++ rest) := by
  obtain ⟨acts, f, taken, more, g1, g2, g3, g4, -⟩ := success_run e hs
  obtain ⟨h, w, body, sum, s, k1, k2, k3, k4, k5, k6⟩ := File.success_means_checked dw skip acts f out g1 g2
  rw [g3] at k4
  have k7 := List.append_cancel_right k4
  exact ⟨h, w, body, sum, s, k1, k2, k3, k5, by rw [g4, k7], fun hk => by rw [g4, k7, k6 hk]⟩

/-- **C61.**  Where a file ends is decided by its bytes: two callers, with bytes that agree as far as both go, whose
last calls reported success, have had the same bytes taken, whatever the pieces, output buffers and options. -/
theorem call_accepted_end (dw dw' : Nat → Nat → Nat → List UInt8) (fuel fuel' : Nat) (skip skip' : Bool)
    (bytes bytes' : List UInt8) (cs cs' : List (Nat × Nat)) (d d' : Dec) (rest rest' out out' x y : List UInt8)
    (rets rets' : List Ret)
    (e : calls dw fuel (.new skip) bytes cs = some (.ok (d, rest, out, rets))) (hs : rets.getLast? = some .success)
    (e' : calls dw' fuel' (.new skip') bytes' cs' = some (.ok (d', rest', out', rets')))
    (hs' : rets'.getLast? = some .success) (hagree : bytes ++ x = bytes' ++ y) :
    ∃ file, bytes = file ++ rest ∧ bytes' = file ++ rest' := by
  obtain ⟨acts, f, taken, more, g1, g2, g3, g4, g5⟩ := success_run e hs
  obtain ⟨acts', f', taken', more', g1', g2', g3', g4', g5'⟩ := success_run e' hs'
  obtain ⟨file, h1, h2⟩ := Damage.accepted_end dw dw' skip skip' acts acts' f f' out out' (more ++ x) (more' ++ y) g1 g2 g1' g2' (by
    rw [g4, g5, g4', g5'] at hagree
    rw [g3, g3']
    simpa only [List.append_assoc] using hagree)
  rw [g3] at h1
  rw [g3'] at h2
  exact ⟨file, by rw [g4, List.append_cancel_right h1], by rw [g4', List.append_cancel_right h2]⟩

/-- **C61.**  If a file is accepted to its last byte, then no call reports success on a proper beginning of it. -/
theorem call_truncated (dw dw' : Nat → Nat → Nat → List UInt8) (fuel fuel' : Nat) (skip skip' : Bool)
    (bytes bytes' missing : List UInt8) (cs cs' : List (Nat × Nat)) (d d' : Dec) (rest' out out' : List UInt8)
    (rets rets' : List Ret)
    (e : calls dw fuel (.new skip) bytes cs = some (.ok (d, [], out, rets))) (hs : rets.getLast? = some .success)
    (hm : missing ≠ []) (hcut : bytes = bytes' ++ missing)
    (e' : calls dw' fuel' (.new skip') bytes' cs' = some (.ok (d', rest', out', rets'))) : .success ∉ rets' := by
  intro hs'
  obtain ⟨cs1, d1, rest1, out1, rets1, -, e1, hs1, -, -⟩ := calls_split cs' e' hs'
  obtain ⟨file, h1, h2⟩ := call_accepted_end dw dw' fuel fuel' skip skip' bytes bytes' cs cs1 d d1 [] rest1 out out1 [] missing
    rets rets1 e hs e1 hs1 (by rw [List.append_nil]; exact hcut)
  rw [h1, h2] at hcut
  have := congrArg List.length hcut
  simp only [List.length_append, List.length_nil] at this
  have hz := List.length_pos_iff.mpr hm
  omega

/-- **C61.**  If a file is accepted to its last byte and then offered with more bytes behind it, a call that reports
success leaves exactly those. -/
theorem call_rest (dw dw' : Nat → Nat → Nat → List UInt8) (fuel fuel' : Nat) (skip skip' : Bool)
    (bytes more : List UInt8) (cs cs' : List (Nat × Nat)) (d d' : Dec) (rest' out out' : List UInt8)
    (rets rets' : List Ret)
    (e : calls dw fuel (.new skip) bytes cs = some (.ok (d, [], out, rets))) (hs : rets.getLast? = some .success)
    (e' : calls dw' fuel' (.new skip') (bytes ++ more) cs' = some (.ok (d', rest', out', rets')))
    (hs' : rets'.getLast? = some .success) : rest' = more := by
  obtain ⟨file, h1, h2⟩ := call_accepted_end dw dw' fuel fuel' skip skip' bytes (bytes ++ more) cs cs' d d' [] rest' out out' more []
    rets rets' e hs e' hs' (by rw [List.append_nil])
  rw [List.append_nil] at h1
  rw [h1] at h2
  exact (List.append_cancel_left h2).symm

/-- **C61.**  A decompressor that checks checksums has accepted a file to its last byte.  Then no other file of the
same length, whose differences from it lie within 32 consecutive bits, is accepted to its last byte. -/
theorem call_damage_detected (dw dw' : Nat → Nat → Nat → List UInt8) (fuel fuel' : Nat)
    (bytes bytes' : List UInt8) (cs cs' : List (Nat × Nat)) (d d' : Dec) (rest' out out' : List UInt8)
    (rets rets' : List Ret)
    (e : calls dw fuel (.new false) bytes cs = some (.ok (d, [], out, rets))) (hs : rets.getLast? = some .success)
    (hlen : bytes'.length = bytes.length) (hb : Damage.Burst bytes bytes') (hne : bytes' ≠ bytes)
    (e' : calls dw' fuel' (.new false) bytes' cs' = some (.ok (d', rest', out', rets'))) :
    ¬(rets'.getLast? = some .success ∧ rest' = []) := by
  rintro ⟨hs', rfl⟩
  obtain ⟨acts, f, taken, more, g1, g2, g3, g4, g5⟩ := success_run e hs
  obtain ⟨acts', f', taken', more', g1', g2', g3', g4', g5'⟩ := success_run e' hs'
  have hp := (List.append_eq_nil_iff.1 g5.symm).1
  have hp' := (List.append_eq_nil_iff.1 g5'.symm).1
  rw [hp, ← g4] at g3
  rw [hp', ← g4'] at g3'
  exact Damage.damage_detected dw dw' acts acts' f f' out out' g1 g2 hp (by rw [g3, g3', hlen]) (by rw [g3, g3']; exact hb)
    (by rw [g3, g3']; exact hne) g1' ⟨g2', hp'⟩

/-! ## The theorems are not vacuous -/

/-- A file no compressor writes, accepted by calls that offer all of it. -/
example : ∃ d out rets, calls File.noWords 60 (.new false) File.farFile (farCalls [78, 1, 1, 1, 1, 2, 2, 2, 5000]) =
    some (.ok (d, [], out, rets)) ∧ rets.getLast? = some .success ∧ out.length = 1107 := gives_spec far_calls_small

/-- The values returned and the number of bytes left. -/
def gaveUp (n : Nat) : Option (Codec.Res (Dec × List UInt8 × List UInt8 × List Ret)) → Bool
  | some (.ok (_, rest, _, rets)) => decide (Ret.success ∉ rets ∧ rest.length = n)
  | _ => false

/-- The same file without its last byte: everything is taken and no call reports success. -/
example : gaveUp 0 (calls File.noWords 60 (.new false) File.farFile.dropLast (farCalls [78, 1, 1, 1, 1, 2, 2, 2, 5000, 5000])) =
    true := by decide +kernel

/-- A bit of the stored checksum is wrong: a call fails. -/
def fails : Option (Codec.Res (Dec × List UInt8 × List UInt8 × List Ret)) → Bool
  | some .fail => true
  | _ => false

example : fails (calls File.noWords 60 (.new false) (File.farFile.set 66 ((File.farFile.getD 66 0) ^^^ 1))
    (farCalls [78, 1, 1, 1, 1, 2, 2, 2, 5000, 5000])) = true := by decide +kernel

end Divans.Call
