import Verif.ParSim
import Verif.ParProps

/-!
# What a success reported by the decompressor with a thread means, whatever bytes it was offered: C85

`Verif.ParSim` shows that every interleaving of the two threads is a schedule of the model of `Verif.File`.  So what
was proved there about every schedule holds of every call under every schedule of the threads, and a decompressor
with a thread and one without can be compared.
-/

namespace Divans.Par
open Divans.Call (Ret)
open Divans.Frame (GoodHeader trailer)
open Divans.Crc (crc32c)

/-! ## Specification -/

/-- Calls of `decode` on the bytes `bytes`, the last of which reported success, took all but `rest` of them and gave
out `out`: either of a decompressor with a thread, under some schedule, or of one without. -/
inductive Accepted (dw : Nat → Nat → Nat → List UInt8) (skip : Bool) (bytes rest out : List UInt8) : Prop where
  | threaded {cs : List (Nat × Nat)} {d : Dec} {rets : List Ret} :
      History dw (.new skip) bytes cs d rest out rets → rets.getLast? = some .success → Accepted dw skip bytes rest out
  | serial {fuel : Nat} {cs : List (Nat × Nat)} {d : Call.Dec} {rets : List Ret} :
      Call.calls dw fuel (.new skip) bytes cs = some (.ok (d, rest, out, rets)) → rets.getLast? = some .success →
      Accepted dw skip bytes rest out

/-! ## Proofs -/

section
variable {dw dw' : Nat → Nat → Nat → List UInt8}

theorem history_sim {d d' : Dec} {rest rest' out : List UInt8} {cs : List (Nat × Nat)} {rets : List Ret}
    (hh : History dw d rest cs d' rest' out rets) : ∀ {f : File.Dec}, PPair d f rest →
    ∃ f' x, Call.Tracks dw f f' x out ∧ PPair d' f' rest' ∧ rest = x ++ rest' ∧
      (rets.getLast? = some .success → f'.verdict = .success) ∧ (cs = [] → f' = f) := by
  induction hh with
  | nil d rest => exact fun {f} h => ⟨f, [], ⟨[], rfl, by simp [File.fed]⟩, h, rfl, (fun h => by cases h), fun _ => rfl⟩
  | @cons d rest offer room r cs d' rest' out rets call more ih =>
    intro f h
    obtain ⟨f1, x, h1, h2, h3, ⟨y, h4⟩, h5⟩ := returns_sim (fut := rest.drop offer) (by rw [List.take_append_drop]; exact h) call
    have hd : (rest.take offer).drop x.length ++ rest.drop offer = rest.drop r.used := by
      have hx : x ++ ((rest.take offer).drop x.length ++ rest.drop offer) = rest := by
        rw [← List.append_assoc, ← h4, List.drop_left, h4, List.take_append_drop]
      conv_rhs => rw [← hx]
      rw [h3, List.drop_left]
    rw [hd] at h2
    obtain ⟨f2, x2, k1, k2, k3, k4, k5⟩ := ih h2
    refine ⟨f2, x ++ x2, h1.trans k1, k2, ?_, fun hl => ?_, by simp⟩
    · rw [List.append_assoc, ← k3, h3]
      have : rest.take x.length = x := by
        have hx : x <+: rest := by
          rw [← List.take_append_drop offer rest, ← h4, List.append_assoc]
          exact List.prefix_append _ _
        exact (List.prefix_iff_eq_take.1 hx).symm
      conv_lhs => rw [← List.take_append_drop x.length rest, this]
    · cases hr : rets with
      | nil =>
        rw [hr] at hl
        simp only [List.getLast?_singleton, Option.some.injEq] at hl
        have hcs : cs = [] := by
          cases more with
          | nil => rfl
          | cons a b => cases hr
        rw [k5 hcs]
        exact h5 hl
      | cons a as =>
        rw [hr, List.getLast?_cons_cons] at hl
        rw [hr] at k4
        exact k4 hl

/-- Calls that end in success are a schedule of `Verif.File` that ends in success. -/
theorem accepted_run {skip : Bool} {bytes rest out : List UInt8} (h : Accepted dw skip bytes rest out) :
    ∃ acts f taken more, File.run dw (.new skip) acts = .ok (f, out) ∧ f.verdict = .success ∧
      File.fed acts = taken ++ f.pending ∧ bytes = taken ++ rest ∧ rest = f.pending ++ more := by
  cases h with
  | serial e hs => exact Call.success_run e hs
  | threaded hh hs =>
    obtain ⟨f, x, ⟨acts, g1, g2⟩, ⟨-, -, hp, -⟩, hb, hv, -⟩ := history_sim hh (ppair_new skip bytes)
    obtain ⟨more, hm⟩ := hp
    exact ⟨acts, f, x, more, g1, hv hs, g2, hb, hm.symm⟩

/-- What is left is an end of what was there. -/
theorem history_suffix {d d' : Dec} {rest rest' out : List UInt8} {cs : List (Nat × Nat)} {rets : List Ret}
    (hh : History dw d rest cs d' rest' out rets) : rest' <:+ rest := by
  induction hh with
  | nil => exact List.suffix_rfl
  | cons _ _ ih => exact ih.trans (List.drop_suffix _ _)

/-- If some call reported success, then the calls up to it ended in success. -/
theorem history_split {d d' : Dec} {bytes rest out : List UInt8} {cs : List (Nat × Nat)} {rets : List Ret}
    (hh : History dw d bytes cs d' rest out rets) : .success ∈ rets →
    ∃ cs1 d1 rest1 out1 rets1, History dw d bytes cs1 d1 rest1 out1 rets1 ∧
      rets1.getLast? = some .success ∧ rest <:+ rest1 ∧ out1 <+: out := by
  induction hh with
  | nil => intro hs; cases hs
  | @cons d rest offer room r cs d' rest' out rets call more ih =>
    intro hs
    rcases Decidable.em (r.ret = .success) with hr | hr
    · refine ⟨[(offer, room)], r.dec, rest.drop r.used, r.out ++ [], [r.ret], .cons call (.nil _ _), by rw [hr]; rfl,
        history_suffix more, by rw [List.append_nil]; exact List.prefix_append _ _⟩
    · have hs2 : .success ∈ rets := by
        rcases List.mem_cons.1 hs with h | h
        · exact absurd h.symm hr
        · exact h
      obtain ⟨cs1, d1, rest1, out1, rets1, g2, g3, g4, o, ho⟩ := ih hs2
      exact ⟨(offer, room) :: cs1, d1, rest1, r.out ++ out1, r.ret :: rets1, .cons call g2, by rw [List.getLast?_cons, g3]; rfl, g4,
        o, by rw [List.append_assoc, ho]⟩
end

/-! ## The theorems -/

/-- **C85.**  A caller offers any bytes in any pieces with any output buffers, and the threads run in any order.  When
a call reports success, the bytes taken until then are a good header, streams ended by the end marker and a trailer
whose last four bytes are `ans~` and whose first four bytes, unless checksums are skipped, are the CRC-32C of
everything before it. -/
theorem threaded_success_means_checked (dw : Nat → Nat → Nat → List UInt8) (skip : Bool) (bytes : List UInt8)
    (cs : List (Nat × Nat)) (d : Dec) (rest out : List UInt8) (rets : List Ret)
    (hh : History dw (.new skip) bytes cs d rest out rets) (hs : rets.getLast? = some .success) :
    ∃ h w body sum s, GoodHeader h w ∧ Mux.runAll .init body = some s ∧ s.eof = .done ∧ sum.length = 4 ∧
      bytes = h ++ body ++ (sum ++ [0x61, 0x6e, 0x73, 0x7e]) ++ rest ∧
      (skip = false → bytes = h ++ body ++ trailer (crc32c (h ++ body)) ++ rest) := by
  obtain ⟨acts, f, taken, more, g1, g2, g3, g4, -⟩ := accepted_run (.threaded hh hs)
  obtain ⟨h, w, body, sum, s, k1, k2, k3, k4, k5, k6⟩ := File.success_means_checked dw skip acts f out g1 g2
  rw [g3] at k4
  have k7 := List.append_cancel_right k4
  exact ⟨h, w, body, sum, s, k1, k2, k3, k5, by rw [g4, k7], fun hk => by rw [g4, k7, k6 hk]⟩

/-- **C85.**  Where a file ends is decided by its bytes: two decompressors, each with a thread or without, with bytes
that agree as far as both go, that reported success, have taken the same bytes, whatever the pieces, output
buffers, options and schedules. -/
theorem threaded_accepted_end (dw dw' : Nat → Nat → Nat → List UInt8) (skip skip' : Bool)
    (bytes bytes' rest rest' out out' x y : List UInt8) (h : Accepted dw skip bytes rest out)
    (h' : Accepted dw' skip' bytes' rest' out') (hagree : bytes ++ x = bytes' ++ y) :
    ∃ file, bytes = file ++ rest ∧ bytes' = file ++ rest' := by
  obtain ⟨acts, f, taken, more, g1, g2, g3, g4, g5⟩ := accepted_run h
  obtain ⟨acts', f', taken', more', g1', g2', g3', g4', g5'⟩ := accepted_run h'
  obtain ⟨file, h1, h2⟩ := Damage.accepted_end dw dw' skip skip' acts acts' f f' out out' (more ++ x) (more' ++ y) g1 g2 g1' g2' (by
    rw [g4, g5, g4', g5'] at hagree
    rw [g3, g3']
    simpa only [List.append_assoc] using hagree)
  rw [g3] at h1
  rw [g3'] at h2
  exact ⟨file, by rw [g4, List.append_cancel_right h1], by rw [g4', List.append_cancel_right h2]⟩

/-- **C85.**  If a file is accepted to its last byte, by a decompressor with a thread or without, then under no
schedule does a call of a decompressor with a thread report success on a proper beginning of it. -/
theorem threaded_truncated (dw dw' : Nat → Nat → Nat → List UInt8) (skip skip' : Bool)
    (bytes bytes' missing out : List UInt8) (h : Accepted dw skip bytes [] out) (hm : missing ≠ []) (hcut : bytes = bytes' ++ missing)
    (cs : List (Nat × Nat)) (d : Dec) (rest' out' : List UInt8) (rets : List Ret)
    (hh : History dw' (.new skip') bytes' cs d rest' out' rets) : .success ∉ rets := by
  intro hs'
  obtain ⟨cs1, d1, rest1, out1, rets1, e1, hs1, -, -⟩ := history_split hh hs'
  obtain ⟨file, h1, h2⟩ := threaded_accepted_end dw dw' skip skip' bytes bytes' [] rest1 out out1 [] missing h (.threaded e1 hs1)
    (by rw [List.append_nil]; exact hcut)
  rw [h1, h2] at hcut
  have := congrArg List.length hcut
  simp only [List.length_append, List.length_nil] at this
  have hz := List.length_pos_iff.mpr hm
  omega

/-- **C85.**  If a file is accepted to its last byte and then offered with more bytes behind it, a call that reports
success leaves exactly those. -/
theorem threaded_rest (dw dw' : Nat → Nat → Nat → List UInt8) (skip skip' : Bool) (bytes more rest' out out' : List UInt8)
    (h : Accepted dw skip bytes [] out) (h' : Accepted dw' skip' (bytes ++ more) rest' out') : rest' = more := by
  obtain ⟨file, h1, h2⟩ := threaded_accepted_end dw dw' skip skip' bytes (bytes ++ more) [] rest' out out' more [] h h'
    (by rw [List.append_nil])
  rw [List.append_nil] at h1
  rw [h1] at h2
  exact (List.append_cancel_left h2).symm

/-- **C85.**  A decompressor that checks checksums, with a thread or without, has accepted a file to its last byte.
Then no other file of the same length, whose differences from it lie within 32 consecutive bits, is accepted to its
last byte. -/
theorem threaded_damage_detected (dw dw' : Nat → Nat → Nat → List UInt8) (bytes bytes' out out' : List UInt8)
    (h : Accepted dw false bytes [] out) (hlen : bytes'.length = bytes.length) (hb : Damage.Burst bytes bytes')
    (hne : bytes' ≠ bytes) : ¬ Accepted dw' false bytes' [] out' := by
  intro h'
  obtain ⟨acts, f, taken, more, g1, g2, g3, g4, g5⟩ := accepted_run h
  obtain ⟨acts', f', taken', more', g1', g2', g3', g4', g5'⟩ := accepted_run h'
  have hp := (List.append_eq_nil_iff.1 g5.symm).1
  have hp' := (List.append_eq_nil_iff.1 g5'.symm).1
  rw [hp, ← g4] at g3
  rw [hp', ← g4'] at g3'
  exact Damage.damage_detected dw dw' acts acts' f f' out out' g1 g2 hp (by rw [g3, g3', hlen]) (by rw [g3, g3']; exact hb)
    (by rw [g3, g3']; exact hne) g1' ⟨g2', hp'⟩

/-- **C85.**  A decompressor with a thread and one without, or two with threads under different schedules, give out
the same: let some schedule of `Verif.File` accept the bytes `file`, having carried out only commands the window can
carry out.  Then what calls on these bytes with anything behind them have given out is a beginning of what came
out there, and all of it when they reported success.  Calls without a thread that take all of the file are such a
schedule (`Verif.CallFileRun`), and so are calls with one. -/
theorem threaded_same_output (dw : Nat → Nat → Nat → List UInt8) (skip0 : Bool) (acts0 : List File.Act) (d0 : File.Dec)
    (out0 file : List UInt8) (h0 : File.run dw (.new skip0) acts0 = .ok (d0, out0)) (hv0 : d0.verdict = .success)
    (ht : File.Tame dw (.new skip0) acts0) (hu : File.fed acts0 = file ++ d0.pending)
    (skip : Bool) (hskip : skip = false → skip0 = false) (tail : List UInt8) :
    (∀ cs d rest out rets, History dw (.new skip) (file ++ tail) cs d rest out rets → out <+: out0) ∧
    (∀ rest out, Accepted dw skip (file ++ tail) rest out → out = out0 ∧ rest = tail) := by
  refine ⟨fun cs d rest out rets hh => ?_, fun rest out h => ?_⟩
  · obtain ⟨f, x, ⟨acts, g1, g2⟩, ⟨-, -, ⟨more, hm⟩, -⟩, hb, -, -⟩ := history_sim hh (ppair_new skip (file ++ tail))
    have hfed : File.fed acts <+: file ++ tail := by
      rw [hb, ← hm, ← List.append_assoc]
      exact ⟨more, by rw [← g2]; simp [File.Dec.new]⟩
    obtain ⟨d', o', r1, r2, -, -⟩ := (File.success_once_partial dw skip0 acts0 d0 out0 file h0 hv0 ht hu skip hskip tail acts).1 hfed
    rw [g1] at r1
    cases r1
    exact r2
  · obtain ⟨acts, f, taken, more, g1, g2, g3, g4, g5⟩ := accepted_run h
    have hfed : File.fed acts <+: file ++ tail := by
      rw [g4, g5, ← List.append_assoc, g3]
      exact List.prefix_append _ _
    obtain ⟨d', o', r1, -, -, r4⟩ := (File.success_once_partial dw skip0 acts0 d0 out0 file h0 hv0 ht hu skip hskip tail acts).1 hfed
    rw [g1] at r1
    cases r1
    obtain ⟨q1, q2⟩ := r4 g2
    refine ⟨q1, ?_⟩
    rw [g3] at q2
    rw [← List.append_cancel_right q2] at g4
    exact (List.append_cancel_left g4).symm

/-! ## The theorems are not vacuous -/

/-- The file of the examples, accepted with a thread to its last byte: `Accepted` and the hypotheses of
`threaded_success_means_checked` hold. -/
def oddAll (bs : List Bool) : List (Nat × Nat × List Bool) := [(10, 3, bs), (57, 30, bs), (60, 30, bs)]

theorem odd_all : plays File.noWords (.new false) File.oddFile (oddAll (List.replicate 60 [true, true, true, false]).flatten) =
    some (0, [97, 98, 99, 97, 98, 99, 97, 98, 99, 97, 98, 99, 97], [.needsInput, .needsInput, .success]) := by decide +kernel

theorem odd_accepted : ∃ out, Accepted File.noWords false File.oddFile [] out := by
  obtain ⟨d, rest, h1, h2⟩ := plays_history _ _ _ odd_all
  obtain rfl := List.length_eq_zero_iff.1 h1
  exact ⟨_, .threaded h2 rfl⟩

/-- Without its last byte: everything is taken, and under this schedule no call reports success. -/
example : plays File.noWords (.new false) File.oddFile.dropLast
    ([(10, 3), (57, 30), (60, 30), (60, 30)].map fun x => (x.1, x.2, (List.replicate 60 [true, true, true, false]).flatten)) =
    some (0, [97, 98, 99, 97, 98, 99, 97, 98, 99, 97, 98, 99, 97], [.needsInput, .needsInput, .needsInput, .needsInput]) := by
  decide +kernel

/-- With a bit of the stored checksum wrong it is accepted by a decompressor that skips checksums, so that the
exclusion of such files is due to the check. -/
example : ∃ d rest, History File.noWords (.new true) (File.oddFile.set 62 (File.oddFile.getD 62 0 ^^^ 1)) [(100, 100), (100, 100)] d rest
    [97, 98, 99, 97, 98, 99, 97, 98, 99, 97, 98, 99, 97] [.success, .success] := by
  have h : plays File.noWords (.new true) (File.oddFile.set 62 (File.oddFile.getD 62 0 ^^^ 1))
      ([(100, 100), (100, 100)].map fun x => (x.1, x.2, (List.replicate 60 [true, true, true, false]).flatten)) =
      some (0, [97, 98, 99, 97, 98, 99, 97, 98, 99, 97, 98, 99, 97], [.success, .success]) := by decide +kernel
  obtain ⟨d, rest, -, h2⟩ := plays_history _ _ _ h
  exact ⟨d, rest, h2⟩

end Divans.Par
