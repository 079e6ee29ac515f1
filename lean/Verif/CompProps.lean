import Verif.CompRun
import Verif.CompClean
import Verif.FileProps
import Verif.CallProps
import Verif.ParProps

/-!
# C49: the compressor under any sequence of calls

The buffers of the caller decide how often the compressor is interrupted: in the header, in the middle of a
command, between commands of the assembler, in the end marker, in the trailer.  Whatever they are, no call
panics or fails, the file decompresses to what was taken, and with nonempty buffers the calls come to an end.
-/

namespace Divans.Compressor
open Divans.Adaptive Divans.Pipe Divans.Frame Divans.Eng

/-! ## Specification -/

/-- The file decompresses to `data`, whatever follows it and however the decompressor is called: what it
gives out is a beginning of `data`; when it reports success that is all of `data` and exactly the file has been
read; and once the file has arrived enough nonempty output buffers lead to success.  `Call.Serves` says the
same of the single-threaded decompressor call by call, with the values it returns, and `Par.Serves` of the
decompressor with a thread, under every schedule. -/
def Restores (dw : Nat → Nat → Nat → List UInt8) (file data : List UInt8) : Prop :=
  Call.Serves dw file data ∧ Par.Serves dw file data ∧
  ∀ skip tail acts,
    (File.fed acts <+: file ++ tail →
      ∃ d out, File.run dw (.new skip) acts = .ok (d, out) ∧ out <+: data ∧ d.verdict ≠ .failure ∧
        (d.verdict = .success → out = data ∧ File.fed acts = file ++ d.pending)) ∧
    (File.fed acts = file ++ tail →
      ∃ n, ∀ rooms : List Nat, n ≤ rooms.length → (∀ k ∈ rooms, 0 < k) →
        ∃ d, File.run dw (.new skip) (acts ++ File.frounds rooms) = .ok (d, data) ∧
          d.verdict = .success ∧ d.pending = tail)

/-- A caller of `encode`: each call offers the first `k` bytes of those not yet taken, with an output buffer
of `room` bytes.  Returns the compressor, the number of bytes taken, the output and the result codes. -/
def encodes (o : Codec.Opts) (dw : Nat → Nat → Nat → List UInt8) (fuel : Nat) :
    List (Nat × Nat) → Comp → List UInt8 → Option (Comp × Nat × List UInt8 × List Code)
  | [], c, _ => some (c, 0, [], [])
  | (k, room) :: calls, c, inp =>
    match c.encode o dw fuel (inp.take k) room with
    | none => none
    | some (c', n, out, code) =>
      (encodes o dw fuel calls c' (inp.drop n)).map fun z => (z.1, n + z.2.1, out ++ z.2.2.1, code :: z.2.2.2)

/-- A caller of `encode_commands`: each call offers the first `k` commands of those not yet taken.  There is
no call when there is nothing to offer (the code panics then). -/
def encodesCmds (o : Codec.Opts) (dw : Nat → Nat → Nat → List UInt8) (fuel : Nat) :
    List (Nat × Nat) → Comp → List Item → Option (Comp × Nat × List UInt8 × List Code)
  | [], c, _ => some (c, 0, [], [])
  | (k, room) :: calls, c, xs =>
    if xs.take k = [] then encodesCmds o dw fuel calls c xs
    else
      match c.encodeCommands o dw fuel (xs.take k) room with
      | none => none
      | some (c', n, out, code) =>
        (encodesCmds o dw fuel calls c' (xs.drop n)).map fun z => (z.1, n + z.2.1, out ++ z.2.2.1, code :: z.2.2.2)

/-- A caller of `flush` with output buffers of the given sizes. -/
def flushes (o : Codec.Opts) (dw : Nat → Nat → Nat → List UInt8) (fuel : Nat) :
    List Nat → Comp → Option (Comp × List UInt8 × List Code)
  | [], c => some (c, [], [])
  | room :: rooms, c =>
    match c.flush o dw fuel room with
    | none => none
    | some (c', out, code) => (flushes o dw fuel rooms c').map fun z => (z.1, out ++ z.2.1, code :: z.2.2)

/-! ## A finished file -/

theorem finished {g : Cfg} {e : Eng} {file : List UInt8} {done : List Item} (h : EngEnd g e file done)
    (he : e.ending = some []) (hd : e.cmp.stage = .done) (hv : ∀ x ∈ done, x.Valid g.o g.dw g.ring)
    (hi : Recode.InHistory 0 (done.map (Item.ringCmd g.dw))) : Restores g.dw file (original g.dw done) := by
  obtain ⟨-, tc, tl, ⟨f1, hs⟩, hc⟩ := h
  obtain ⟨f0, tc', tl', w1, -, -, w2⟩ := File.whole_file g.o g.dw g.window 128 (by omega) done hv hi
  have e1 := hs (max f0 f1) (by omega)
  have e2 := w1 (max f0 f1) (by omega)
  have e3 : (tc', tl') = (tc, tl) := by
    have := e2.symm.trans e1
    simpa using this
  cases e3
  obtain ⟨f0', tc', tl', w1', -, -, w3⟩ := Call.file_made g.o g.dw g.window 128 (by omega) done hv hi
  have e4 : (tc', tl') = (tc, tl) := by
    have := (w1' (max f0' f1) (by omega)).symm.trans (hs (max f0' f1) (by omega))
    simpa using this
  cases e4
  rcases hc with ⟨r, hr, he2, -⟩ | ⟨-, popped, ⟨ops, k1, k2, k3⟩, k4, k5⟩
  · rw [he] at he2
    cases he2
    exact absurd rfl hr
  · have hm := w3 _ _ k4 k5 ops e.cmp file k1 (k3 false) (k3 true) k2 hd
    exact ⟨Call.made_serves hm, Par.made_serves hm, fun skip tail acts => w2 _ _ k4 k5 ops e.cmp file k1 (k3 false) (k3 true) k2 hd skip tail acts⟩

theorem original_raw (dw : Nat → Nat → Nat → List UInt8) : ∀ cs : List RawCmd.Cmd,
    original dw (cs.map item) = RawCmd.bytesOf cs := by
  have key : ∀ (cs : List RawCmd.Cmd) (h : List UInt8),
      Recode.expand h ((cs.map item).map (Item.ringCmd dw)) = h ++ RawCmd.bytesOf cs := by
    intro cs
    induction cs with
    | nil => intro h; simp [Recode.expand, RawCmd.bytesOf]
    | cons c cs ih =>
      intro h
      cases c with
      | pm =>
        have := ih h
        simpa [item, Item.ringCmd, Recode.expand, RawCmd.bytesOf, Recode.applyCmd] using this
      | lit off d =>
        have := ih (h ++ d)
        simpa [item, Item.ringCmd, Recode.expand, RawCmd.bytesOf, Recode.applyCmd] using this
  intro cs
  have := key cs []
  simpa [original, Recode.lz77] using this

theorem inHistory_raw (dw : Nat → Nat → Nat → List UInt8) : ∀ (cs : List RawCmd.Cmd) (n : Nat),
    Recode.InHistory n ((cs.map item).map (Item.ringCmd dw))
  | [], _ => trivial
  | .pm :: cs, n => inHistory_raw dw cs _
  | .lit _ _ :: cs, n => inHistory_raw dw cs _

end Divans.Compressor

namespace Divans.RawCmd

/-- A literal is not empty and not longer than the ring. -/
def Fits (L : Nat) : Cmd → Prop
  | .pm => True
  | .lit _ d => 1 ≤ d.length ∧ d.length ≤ L

theorem Lies.fits {ring : List UInt8} {c : Cmd} (h : Lies ring c) : Fits ring.length c := by
  cases c with
  | pm => trivial
  | lit off d =>
    obtain ⟨h1, h2⟩ := h
    refine ⟨h2, ?_⟩
    unfold piece at h1
    split at h1
    · omega
    · cases h1

theorem stream_lies {s s' : St} {inp : List UInt8} {room n : Nat} {cs : List Cmd} {r : Res}
    (e : stream s inp room = some (s', n, cs, r)) : ∀ c ∈ cs, Lies s'.ring c := by
  unfold stream at e
  split at e
  · cases e
  · split at e
    · cases e
    · split at e
      · cases e
      · rename_i hf
        cases e
        unfold finish at hf
        split at hf
        · split at hf
          · cases hf
          · rename_i hq
            cases hf
            exact (flush_lies hq).2
          · rename_i hq
            cases hf
            exact (flush_lies hq).2
        · split at hf
          · cases hf; simp
          · split at hf
            · cases hf; simp
            · cases hf

theorem run_fits : ∀ {ops : List Op} {s s' : St} {i : List UInt8} {cs : List Cmd}, Inv s →
    run s ops = some (s', i, cs) → s'.ring.length = s.ring.length ∧ ∀ c ∈ cs, Fits s.ring.length c
  | [], s, s', i, cs, _, h => by cases h; exact ⟨rfl, by simp⟩
  | op :: ops, s, s', i, cs, hi, h => by
    obtain ⟨s1, i1, c1, e1, a1, l1, -⟩ := step_spec hi op
    rw [run, e1] at h
    simp only [Option.map_eq_some_iff] at h
    obtain ⟨⟨y1, y2, y3⟩, hy, he⟩ := h
    cases he
    obtain ⟨q1, q2⟩ := run_fits a1 hy
    refine ⟨q1.trans l1, fun c hc => ?_⟩
    rcases List.mem_append.1 hc with hc | hc
    · rw [← l1]
      have hl : ∀ c ∈ c1, Lies s1.ring c := by
        cases op with
        | stream inp room =>
          simp only [step, Option.map_eq_some_iff] at e1
          obtain ⟨⟨z1, z2, z3, z4⟩, hz, he⟩ := e1
          cases he
          exact stream_lies hz
        | flush room =>
          simp only [step, Option.map_eq_some_iff] at e1
          obtain ⟨⟨z1, z2, z3⟩, hz, he⟩ := e1
          cases he
          exact (flush_lies hz).2
      exact (hl c hc).fits
    · rw [← l1]; exact q2 c hc

theorem complete_fits {ring : List UInt8} {ops : List Op} {inp : List UInt8} {cs : List Cmd}
    (h : Complete ring ops inp cs) : ∀ c ∈ cs, Fits ring.length c := by
  obtain ⟨s, cs1, room, s', cs2, h1, h2, rfl⟩ := h
  obtain ⟨q1, q2⟩ := run_fits (inv_new ring) h1
  obtain ⟨l1, l2⟩ := flush_lies h2
  intro c hc
  rcases List.mem_append.1 hc with hc | hc
  · exact q2 c hc
  · have := (l2 c hc).fits
    rw [l1, q1] at this
    exact this

end Divans.RawCmd

namespace Divans.Compressor
open Divans.Adaptive Divans.Pipe Divans.Frame Divans.Eng

theorem fits_valid {g : Cfg} (hpm : (Item.pm rawPm).Valid g.o g.dw g.ring) {x : RawCmd.Cmd}
    (h : RawCmd.Fits g.ring x) : (item x).Valid g.o g.dw g.ring := by
  cases x with
  | pm => exact hpm
  | lit off d =>
    obtain ⟨h1, h2⟩ := h
    have := ring_le g
    exact ⟨⟨h1, by omega⟩, trivial, fun p hp => by cases hp⟩

/-! ## Raw input -/

theorem pushing_new (g : Cfg) : Pushing g (.new g.window) [] [] [] [] [] := by
  refine ⟨⟨rfl, ?_, by simp, by simp, engOk_new g, fun y r h => by cases h⟩, rfl, fun op h => by simp at h,
    RawCmd.inv_new _, fun _ => ⟨rfl, rfl, rfl⟩, .inl ?_⟩
  · simp [Comp.new, RawCmd.new, Cfg.ring]
  · simp [Comp.new, RawCmd.new, RawCmd.content]

theorem encodes_spec {g : Cfg} (hpm : (Item.pm rawPm).Valid g.o g.dw g.ring) : ∀ (calls : List (Nat × Nat))
    {c : Comp} {out : List UInt8} {ops : List RawCmd.Op} {taken : List UInt8} {done fr : List RawCmd.Cmd},
    Pushing g c out ops taken done fr → (taken.length ≤ 2 * g.ring - 2 → Once g ops) → ∀ (inp : List UInt8),
    ∃ f0 c' n o codes, (∀ fuel, f0 ≤ fuel → encodes g.o g.dw fuel calls c inp = some (c', n, o, codes)) ∧
      n ≤ inp.length ∧ (∀ code ∈ codes, code = .needsInput ∨ code = .needsOutput) ∧
      ∃ ops' done' fr', Pushing g c' (out ++ o) ops' (taken ++ inp.take n) done' fr' ∧
        ((taken ++ inp.take n).length ≤ 2 * g.ring - 2 → Once g ops') := by
  intro calls
  induction calls with
  | nil =>
    intro c out ops taken done fr h hcl inp
    exact ⟨0, c, 0, [], [], fun _ _ => rfl, by omega, by simp, ops, done, fr, by simpa using h, by simpa using hcl⟩
  | cons call calls ih =>
    obtain ⟨k, room⟩ := call
    intro c out ops taken done fr h hcl inp
    obtain ⟨f1, c1, n1, o1, code, k1, k2⟩ := encode_spec hpm h (inp.take k) room
    obtain ⟨ops1, d1, fr1, hp1, hch⟩ := k2.how
    obtain ⟨f2, c2, n2, o2, codes, l1, l2, l3, ops2, d2, fr2, hp2⟩ := ih hp1 (fun hl => by
      rw [List.length_append, List.length_take, Nat.min_eq_left k2.le] at hl
      exact h.few (hcl (by omega)) hch (.inl hl)) (inp.drop n1)
    have hle := k2.le
    rw [List.length_take] at hle
    rw [List.length_drop] at l2
    refine ⟨max f1 f2, c2, n1 + n2, o1 ++ o2, code :: codes, fun fuel hf => ?_, by omega, ?_, ops2, d2, fr2, ?_⟩
    · rw [encodes, k1 fuel (by omega)]
      simp only [l1 fuel (by omega), Option.map_some]
    · intro x hx
      rcases List.mem_cons.1 hx with rfl | hx
      · rcases k2.cases with ⟨h, -⟩ | ⟨h, -⟩
        · exact .inl h
        · exact .inr h
      · exact l3 x hx
    · rw [List.take_take, Nat.min_eq_left (by omega)] at hp2
      rw [List.append_assoc, List.append_assoc, ← List.take_add] at hp2
      exact hp2

theorem Pushing.closing {g : Cfg} {c : Comp} {out : List UInt8} {ops : List RawCmd.Op} {taken : List UInt8}
    {done fr : List RawCmd.Cmd} (h : Pushing g c out ops taken done fr) :
    ∃ all, Closing g c out all ∧ RawCmd.Complete (List.replicate g.ring 0) ops taken all := by
  obtain ⟨s, cs, r, e, -, -, -, -, hr⟩ := RawCmd.flush_spec h.inv slots
  have := hr (by decide)
  subst this
  exact ⟨done ++ fr ++ cs, .inl ⟨done, fr, cs, ⟨h.work, h.inv, h.fresh, ⟨s, e⟩⟩, rfl⟩,
    ⟨c.asm, done ++ fr, slots, s, cs, h.run, e, rfl⟩⟩

theorem flushes_spec {g : Cfg} (hpm : (Item.pm rawPm).Valid g.o g.dw g.ring) : ∀ (rooms : List Nat)
    {c : Comp} {out : List UInt8} {all : List RawCmd.Cmd}, Closing g c out all →
    ∃ f0 c' o codes, (∀ fuel, f0 ≤ fuel → flushes g.o g.dw fuel rooms c = some (c', o, codes)) ∧
      (∀ code ∈ codes, code = .success ∨ code = .needsOutput) ∧ Closing g c' (out ++ o) all ∧
      (codes.getLast? = some .success →
        After g c' (out ++ o) all ∧ c'.eng.ending = some [] ∧ c'.eng.cmp.stage = .done) := by
  intro rooms
  induction rooms with
  | nil =>
    intro c out all h
    exact ⟨0, c, [], [], fun _ _ => rfl, by simp, by simpa using h, by simp⟩
  | cons room rooms ih =>
    intro c out all h
    obtain ⟨f1, c1, o1, code, k1, k2⟩ := flush_spec hpm h room
    obtain ⟨f2, c2, o2, codes, l1, l2, l3, l4⟩ := ih k2.ok
    refine ⟨max f1 f2, c2, o1 ++ o2, code :: codes, fun fuel hf => ?_, ?_, by rw [← List.append_assoc]; exact l3, ?_⟩
    · rw [flushes, k1 fuel (by omega)]
      simp only [l1 fuel (by omega), Option.map_some]
    · intro x hx
      rcases List.mem_cons.1 hx with rfl | hx
      · rcases k2.cases with ⟨h, -⟩ | ⟨h, -⟩
        · exact .inl h
        · exact .inr h
      · exact l2 x hx
    · intro hs
      cases rooms with
      | nil =>
        have hr := l1 f2 (by omega)
        simp only [flushes, Option.some.injEq, Prod.mk.injEq] at hr
        obtain ⟨rfl, rfl, rfl⟩ := hr
        simp only [List.getLast?_singleton, Option.some.injEq] at hs
        subst hs
        rcases k2.cases with ⟨-, a, b, d⟩ | ⟨h, -⟩
        · exact ⟨by simpa using a, b, d⟩
        · cases h
      | cons room2 rooms =>
        have hr := l1 f2 (by omega)
        rw [flushes] at hr
        cases hq : c1.flush g.o g.dw f2 room2 with
        | none => rw [hq] at hr; cases hr
        | some x =>
          rw [hq] at hr
          simp only [Option.map_eq_some_iff] at hr
          obtain ⟨z, -, hz⟩ := hr
          simp only [Prod.mk.injEq] at hz
          rw [← hz.2.2, List.getLast?_cons_cons] at hs
          rw [hz.2.2] at hs
          rw [← List.append_assoc]
          exact l4 hs

/-- C49 for raw input, safety.  After any calls of `encode` (offering any part of the rest of the input each
time, with output buffers of any sizes) and any calls of `flush`:

* no call panics or reports a failure;
* when `flush` reports success, the output is a file from which at least as many bytes come back as were taken; if
  there are not more, they are the bytes taken; this is so for certain as long as not more than two windows less two
  bytes were taken; and it is never so when the last two digits of their number, in base of the window, add up to
  more than the window.

Bytes that come back twice are the defect of C27 (`RawCmd.raw_lossless_iff` says exactly when it happens). -/
theorem raw_calls_partial (o : Codec.Opts) (dw : Nat → Nat → Nat → List UInt8) (window : Option Int)
    (hpm : (Item.pm rawPm).Valid o dw (2 ^ (windowOf window).toNat)) (inp : List UInt8) (calls : List (Nat × Nat))
    (rooms : List Nat) :
    ∃ f0 c n out codes c' out' codes', n ≤ inp.length ∧ .failure ∉ codes ∧ .failure ∉ codes' ∧
      (∀ fuel, f0 ≤ fuel → encodes o dw fuel calls (.new window) inp = some (c, n, out, codes) ∧
        flushes o dw fuel rooms c = some (c', out', codes')) ∧
      (codes'.getLast? = some .success →
        ∃ data, Restores dw (out ++ out') data ∧ n ≤ data.length ∧ (data.length = n → data = inp.take n) ∧
          (n ≤ 2 * 2 ^ (windowOf window).toNat - 2 → data = inp.take n) ∧
          (data = inp.take n → RawCmd.Fair (2 ^ (windowOf window).toNat) n)) := by
  obtain ⟨f1, c, n, out, codes, h1, h2, h3, ops, done, fr, h4, h4'⟩ := encodes_spec (g := ⟨o, dw, window⟩) hpm calls
    (pushing_new ⟨o, dw, window⟩) (fun _ => once_nil _) inp
  obtain ⟨all, h5, h6⟩ := h4.closing
  obtain ⟨f2, c', out', codes', k1, k2, k3, k4⟩ := flushes_spec (g := ⟨o, dw, window⟩) hpm rooms h5
  refine ⟨max f1 f2, c, n, out, codes, c', out', codes', h2, fun h => ?_, fun h => ?_,
    fun fuel hf => ⟨h1 fuel (by omega), k1 fuel (by omega)⟩, fun hs => ⟨RawCmd.bytesOf all, ?_, ?_, ?_, ?_, ?_⟩⟩
  · rcases h3 _ h with h | h <;> cases h
  · rcases k2 _ h with h | h <;> cases h
  · obtain ⟨ha, he, hd⟩ := k4 hs
    rw [← original_raw dw]
    refine finished (g := ⟨o, dw, window⟩) ha.eng he hd ?_ (inHistory_raw dw all 0)
    intro x hx
    obtain ⟨y, hy, rfl⟩ := List.mem_map.1 hx
    have := RawCmd.complete_fits h6 y hy
    rw [List.length_replicate] at this
    exact fits_valid (g := ⟨o, dw, window⟩) hpm this
  all_goals
    have hb := RawCmd.bytes_sent h6
    simp only [List.nil_append, List.length_take] at hb
  · omega
  · intro hl
    have := hb.2 (by omega)
    simpa using this
  · intro hl
    have := hb.2 (h4' (by
      rw [List.nil_append, List.length_take, Nat.min_eq_left h2]
      exact hl))
    simpa using this
  · intro he
    have := h4.fair ((RawCmd.raw_lossless_iff h6).1 (by rw [he, List.nil_append]))
    rw [List.nil_append, List.length_take, Nat.min_eq_left h2] at this
    exact this

theorem range_map_succ {α : Type} (f : Nat → α) (n : Nat) :
    (List.range (n + 1)).map f = f 0 :: (List.range n).map fun i => f (i + 1) := by
  rw [List.range_succ_eq_map, List.map_cons, List.map_map]
  rfl

theorem encodes_progress {g : Cfg} (hpm : (Item.pm rawPm).Valid g.o g.dw g.ring) :
    ∀ (m : Nat × Nat × Nat × Nat × Nat × Nat) {c : Comp} {out : List UInt8} {ops : List RawCmd.Op}
      {taken : List UInt8} {done fr : List RawCmd.Cmd} {inp : List UInt8}, (inp.length, mu c) = m →
      Pushing g c out ops taken done fr → ∀ calls : Nat → Nat × Nat, (∀ i, 0 < (calls i).1 ∧ 0 < (calls i).2) →
      ∃ N f0 c' o codes, (∀ fuel, f0 ≤ fuel →
        encodes g.o g.dw fuel ((List.range N).map calls) c inp = some (c', inp.length, o, codes)) := by
  intro m
  have wf : WellFounded (Prod.Lex (· < ·) lt5) := WellFounded.prod_lex Nat.lt_wfRel.wf lt5_wf
  induction m using wf.induction with
  | _ m ih =>
    intro c out ops taken done fr inp hm h calls hpos
    by_cases hi : inp = []
    · subst hi
      exact ⟨0, 0, c, [], [], fun _ _ => rfl⟩
    · have hil := List.length_pos_iff.2 hi
      obtain ⟨p1, p2⟩ := hpos 0
      obtain ⟨f1, c1, n1, o1, code, k1, k2⟩ := encode_spec hpm h (inp.take (calls 0).1) (calls 0).2
      obtain ⟨ops1, d1, fr1, hp1⟩ := k2.ok
      have hle := k2.le
      rw [List.length_take] at hle
      have hpr := k2.progress (by
        intro hh
        have := congrArg List.length hh
        rw [List.length_take, List.length_nil] at this
        omega) p2
      have hlt : Prod.Lex (· < ·) lt5 ((inp.drop n1).length, mu c1) m := by
        rw [← hm, Prod.lex_def]
        simp only [List.length_drop]
        by_cases hn : 1 ≤ n1
        · left; omega
        · right
          refine ⟨by omega, ?_⟩
          rcases hpr with h | h
          · omega
          · exact h
      obtain ⟨N, f2, c2, o2, codes, l1⟩ := ih _ hlt rfl hp1 (fun i => calls (i + 1)) (fun i => hpos (i + 1))
      refine ⟨N + 1, max f1 f2, c2, o1 ++ o2, code :: codes, fun fuel hf => ?_⟩
      have hc : calls 0 = ((calls 0).1, (calls 0).2) := rfl
      rw [range_map_succ, hc, encodes, k1 fuel (by omega)]
      simp only [l1 fuel (by omega), Option.map_some, List.length_drop, Option.some.injEq, Prod.mk.injEq, and_true,
        true_and]
      omega

theorem flushes_progress {g : Cfg} (hpm : (Item.pm rawPm).Valid g.o g.dw g.ring) :
    ∀ (m : Nat × Nat × Nat × Nat × Nat × Nat × Nat) {c : Comp} {out : List UInt8} {all : List RawCmd.Cmd}, rank c = m →
      Closing g c out all → ∀ rooms : Nat → Nat, (∀ i, 0 < rooms i) →
      ∃ N f0 c' o codes, (∀ fuel, f0 ≤ fuel →
        flushes g.o g.dw fuel ((List.range N).map rooms) c = some (c', o, codes)) ∧
        codes.getLast? = some .success := by
  intro m
  induction m using lt7_wf.induction with
  | _ m ih =>
    intro c out all hm h rooms hpos
    obtain ⟨f1, c1, o1, code, k1, k2⟩ := flush_spec hpm h (rooms 0)
    rcases k2.cases with ⟨rfl, -⟩ | ⟨rfl, -, hlt⟩
    · refine ⟨1, f1, c1, o1, [.success], fun fuel hf => ?_, rfl⟩
      rw [range_map_succ, flushes, k1 fuel hf]
      simp [flushes]
    · obtain ⟨N, f2, c2, o2, codes, l1, l2⟩ := ih _ (hm ▸ hlt (hpos 0)) rfl k2.ok (fun i => rooms (i + 1))
        (fun i => hpos (i + 1))
      refine ⟨N + 1, max f1 f2, c2, o1 ++ o2, .needsOutput :: codes, fun fuel hf => ?_, ?_⟩
      · rw [range_map_succ, flushes, k1 fuel (by omega)]
        simp only [l1 fuel (by omega), Option.map_some]
      · cases codes with
        | nil => cases l2
        | cons a b => rw [List.getLast?_cons_cons]; exact l2

/-- C49 for raw input, progress.  A caller who goes on offering at least one byte and a nonempty output buffer
gets all input taken after finitely many calls; and from any history, a caller who goes on calling `flush` with
nonempty output buffers gets success after finitely many calls. -/
theorem raw_calls_end (o : Codec.Opts) (dw : Nat → Nat → Nat → List UInt8) (window : Option Int)
    (hpm : (Item.pm rawPm).Valid o dw (2 ^ (windowOf window).toNat)) (inp : List UInt8) :
    (∀ calls : Nat → Nat × Nat, (∀ i, 0 < (calls i).1 ∧ 0 < (calls i).2) →
      ∃ N f0 c out codes, ∀ fuel, f0 ≤ fuel →
        encodes o dw fuel ((List.range N).map calls) (.new window) inp = some (c, inp.length, out, codes)) ∧
    (∀ (calls : List (Nat × Nat)) (rooms : Nat → Nat), (∀ i, 0 < rooms i) →
      ∃ N f0 c n out codes c' out' codes', (∀ fuel, f0 ≤ fuel →
        encodes o dw fuel calls (.new window) inp = some (c, n, out, codes) ∧
        flushes o dw fuel ((List.range N).map rooms) c = some (c', out', codes')) ∧
        codes'.getLast? = some .success) := by
  constructor
  · intro calls hpos
    exact encodes_progress (g := ⟨o, dw, window⟩) hpm _ rfl (pushing_new ⟨o, dw, window⟩) calls hpos
  · intro calls rooms hpos
    obtain ⟨f1, c, n, out, codes, h1, h2, h3, ops, done, fr, h4, -⟩ := encodes_spec (g := ⟨o, dw, window⟩) hpm calls
      (pushing_new ⟨o, dw, window⟩) (fun _ => once_nil _) inp
    obtain ⟨all, h5, -⟩ := h4.closing
    obtain ⟨N, f2, c', out', codes', k1, k2⟩ := flushes_progress (g := ⟨o, dw, window⟩) hpm _ rfl h5 rooms hpos
    exact ⟨N, max f1 f2, c, n, out, codes, c', out', codes',
      fun fuel hf => ⟨h1 fuel (by omega), k1 fuel (by omega)⟩, k2⟩

theorem wanted_zero {o : Codec.Opts} (ha : o.adaptation = none) {p : Codec.PmIn}
    (hs : p.speeds = some ⟨(0, 0), (0, 0), (0, 0), (0, 0), (0, 0), (0, 0)⟩) :
    Codec.wantedSpeeds o p = some [Codec.mud, Codec.mud, Codec.mud, Codec.mud] := by
  have h0 : Codec.wantedSpeed (0, 0) = some Codec.mud := by
    rw [Codec.wantedSpeed, if_neg (by decide)]
  generalize Codec.mud = q at h0 ⊢
  unfold Codec.wantedSpeeds
  rw [ha, hs]
  by_cases hm : o.mixing ≠ 0
  · simp only [if_pos hm, h0]; rfl
  · simp only [if_neg hm, h0]; rfl

/-- The prediction mode command of the assembler is valid with default speeds, mixing below 8 and prior depth
below 16. -/
theorem rawPm_valid {o : Codec.Opts} (ha : o.adaptation = none) (hm : o.mixing < 8) (hd : o.priorDepth < 16)
    (dw : Nat → Nat → Nat → List UInt8) (L : Nat) : (Item.pm rawPm).Valid o dw L := by
  have hw := wanted_zero ha (p := rawPm) rfl
  refine ⟨⟨_, ⟨by decide, by decide, hm, hd, hw, ?_, by decide, fun _ => ⟨List.length_replicate, ?_⟩⟩⟩, trivial, ?_⟩
  · show ((List.range 64).map UInt8.ofNat).length ≤ 16384
    rw [List.length_map, List.length_range]
    omega
  · intro v hv
    rw [List.eq_of_mem_replicate hv]
    decide
  · rintro p hp w hw' sp hsp
    cases hp
    rw [hw] at hw'
    cases hw'
    have : sp = Codec.mud := by simpa using hsp
    subst this
    have e2 : Lit.speedOf (Codec.speedArrives Codec.mud) = some Codec.mud := by decide +kernel
    exact ⟨_, e2, by unfold Cdf.SafeSpeed; decide +kernel⟩

/-! ## Commands -/

/-- The assembler is not used. -/
structure Idle (c : Comp) : Prop where
  frozen : c.frozen = []
  same : c.asm.dec = c.asm.out

theorem idle_new (window : Option Int) : Idle (.new window) := ⟨rfl, rfl⟩

theorem Idle.quiet {c : Comp} (h : Idle c) (hh : c.asm.hdr = true) :
    RawCmd.flush c.asm slots = some (c.asm, [], .success) := by
  have h1 := h.same
  unfold RawCmd.flush
  rw [if_neg (by decide), if_neg (by rw [hh]; decide)]
  unfold RawCmd.flushWrap
  rw [if_neg (by omega)]
  unfold RawCmd.flushTail
  rw [if_pos h1]

/-- What a call of `encode_commands` does. -/
theorem encodeCommands_call {g : Cfg} {c : Comp} {out : List UInt8} {done xs : List Item} (hi : Idle c)
    (hne : xs ≠ []) (h : EngOk g c.eng out done) (hv : ∀ x ∈ xs, x.Valid g.o g.dw g.ring)
    (hx : ∀ y r, c.eng.cur = some (y, r) → xs.head? = some y) (room : Nat) :
    ∃ f0 c' n o code, (∀ fuel, f0 ≤ fuel → c.encodeCommands g.o g.dw fuel xs room = some (c', n, o, code)) ∧
      Idle c' ∧ c'.asm.hdr = true ∧ EngOk g c'.eng (out ++ o) (done ++ xs.take n) ∧ n ≤ xs.length ∧
      (∀ y r, c'.eng.cur = some (y, r) → (xs.drop n).head? = some y) ∧
      (code = .success ∧ n = xs.length ∧ c'.eng.cur = none ∨ code = .needsOutput ∧ n < xs.length ∧ o.length = room) ∧
      (0 < room → 1 ≤ n ∨ lt5 (mu c') (mu c)) := by
  obtain ⟨f0, e, o, n, code, k1, k2, k3, k4, k5, k6, k7⟩ := encodeCommands_spec xs hne h hv hx room
  refine ⟨f0, ⟨e, { c.asm with hdr := true }, c.frozen⟩, n, o, code, fun fuel hf => ?_, ⟨hi.frozen, hi.same⟩, rfl, k2, k4,
    k6, ?_, fun hr => ?_⟩
  · rw [Comp.encodeCommands, k1 fuel hf]
    rfl
  · rcases k7 with ⟨a, b, d⟩ | ⟨a, k, b, -⟩
    · exact .inl ⟨a, b, d⟩
    · exact .inr ⟨a, b, k⟩
  · have hl := List.length_pos_iff.2 hne
    rcases k7 with ⟨-, b, -⟩ | ⟨-, -, -, b⟩
    · left; omega
    · by_cases hn : n = 0
      · right
        unfold mu
        rw [lt5_iff]
        rcases b hn hr with ⟨q1, q2⟩ | ⟨q1, q2⟩
        · left; simp only; omega
        · right; exact ⟨by simp only [q1], .inr ⟨rfl, less_mu q2⟩⟩
      · left; omega

theorem take_head {α : Type} {xs : List α} {k : Nat} (h : xs.take k ≠ []) : (xs.take k).head? = xs.head? := by
  cases k with
  | zero => simp at h
  | succ k => cases xs <;> simp

theorem drop_take_head {α : Type} {xs : List α} {k n : Nat} {y : α} (h : ((xs.take k).drop n).head? = some y) :
    (xs.drop n).head? = some y := by
  rw [List.drop_take] at h
  have hne : (xs.drop n).take (k - n) ≠ [] := by intro hh; rw [hh] at h; cases h
  rw [take_head hne] at h
  exact h

theorem encodesCmds_spec {g : Cfg} : ∀ (calls : List (Nat × Nat)) {c : Comp} {out : List UInt8} {done xs : List Item},
    Idle c → EngOk g c.eng out done → (∀ x ∈ xs, x.Valid g.o g.dw g.ring) →
    (∀ y r, c.eng.cur = some (y, r) → xs.head? = some y) →
    ∃ f0 c' n o codes, (∀ fuel, f0 ≤ fuel → encodesCmds g.o g.dw fuel calls c xs = some (c', n, o, codes)) ∧
      n ≤ xs.length ∧ (∀ code ∈ codes, code = .success ∨ code = .needsOutput) ∧
      Idle c' ∧ EngOk g c'.eng (out ++ o) (done ++ xs.take n) ∧
      (codes = [] → c' = c) ∧ (codes ≠ [] → c'.asm.hdr = true) ∧
      (codes.getLast? = some .success → c'.eng.cur = none) := by
  intro calls
  induction calls with
  | nil =>
    intro c out done xs hi h _ _
    exact ⟨0, c, 0, [], [], fun _ _ => rfl, by omega, by simp, hi, by simpa using h, fun _ => rfl, by simp, by simp⟩
  | cons call calls ih =>
    obtain ⟨k, room⟩ := call
    intro c out done xs hi h hv hx
    by_cases hk : xs.take k = []
    · obtain ⟨f0, c', n, o, codes, k1, k2⟩ := ih hi h hv hx
      exact ⟨f0, c', n, o, codes, fun fuel hf => by rw [encodesCmds, if_pos hk]; exact k1 fuel hf, k2⟩
    · obtain ⟨f1, c1, n1, o1, code, k1, k2, k3, k4, k5, k6, k7, -⟩ := encodeCommands_call hi hk h
        (fun x hm => hv x (List.mem_of_mem_take hm)) (fun y r hy => by rw [take_head hk]; exact hx y r hy) room
      rw [List.length_take] at k5
      rw [List.take_take, Nat.min_eq_left (by omega)] at k4
      obtain ⟨f2, c2, n2, o2, codes, l1, l2, l3, l4, l5, l6, l7, l8⟩ := ih (xs := xs.drop n1) k2 k4
        (fun x hm => hv x (List.mem_of_mem_drop hm)) (fun y r hy => drop_take_head (k6 y r hy))
      rw [List.length_drop] at l2
      refine ⟨max f1 f2, c2, n1 + n2, o1 ++ o2, code :: codes, fun fuel hf => ?_, by omega, ?_, l4, ?_, by simp, ?_, ?_⟩
      · rw [encodesCmds, if_neg hk, k1 fuel (by omega)]
        simp only [l1 fuel (by omega), Option.map_some]
      · intro x hm
        rcases List.mem_cons.1 hm with rfl | hm
        · rcases k7 with ⟨h, -⟩ | ⟨h, -⟩
          · exact .inl h
          · exact .inr h
        · exact l3 x hm
      · rw [List.take_add, ← List.append_assoc, ← List.append_assoc]
        exact l5
      · intro _
        by_cases hc : codes = []
        · rw [l6 hc]; exact k3
        · exact l7 hc
      · intro hs
        cases codes with
        | nil =>
          rw [l6 rfl]
          simp only [List.getLast?_singleton, Option.some.injEq] at hs
          subst hs
          rcases k7 with ⟨-, -, h⟩ | ⟨h, -⟩
          · exact h
          · cases h
        | cons a b => rw [List.getLast?_cons_cons] at hs; exact l8 hs

/-- Flushing after commands. -/
structure CmdClosing (g : Cfg) (c : Comp) (out : List UInt8) (done : List Item) : Prop where
  idle : Idle c
  hdr : c.asm.hdr = true
  eng : (EngOk g c.eng out done ∧ c.eng.cur = none) ∨ EngEnd g c.eng out done

theorem flush_call {g : Cfg} {c : Comp} {out : List UInt8} {done : List Item} (h : CmdClosing g c out done)
    (room : Nat) :
    ∃ c' o code, (∀ fuel, c.flush g.o g.dw fuel room = some (c', o, code)) ∧ CmdClosing g c' (out ++ o) done ∧
      (code = .success ∧ EngEnd g c'.eng (out ++ o) done ∧ c'.eng.ending = some [] ∧ c'.eng.cmp.stage = .done ∨
        code = .needsOutput ∧ o.length = room ∧ (0 < room → lt7 (rank c') (rank c))) := by
  have hq := h.idle.quiet h.hdr
  have hfl : ∀ fuel e w, c.eng.header room = (e, w, true) → c.flush g.o g.dw fuel room =
      (e.flush (room - w.length)).map fun z => ({ c with eng := z.1 }, w ++ z.2.1, z.2.2) := by
    intro fuel e w he
    rw [Comp.flush, he]
    simp only [Comp.unfreeze, h.idle.frozen, if_true, Comp.rest, hq, and_self, List.length_nil, Nat.sub_zero,
      List.append_nil]
  rcases h.eng with ⟨ho, hc⟩ | he
  · obtain ⟨e, w, ok, k1, k2, k3, k4, k5, k6, k7, k8, k9, k10⟩ := header_ok ho room
    cases ok with
    | false =>
      obtain ⟨q1, q2⟩ := k5 rfl
      refine ⟨{ c with eng := e }, w, .needsOutput, fun fuel => by rw [Comp.flush, k1],
        ⟨⟨h.idle.frozen, h.idle.same⟩, h.hdr, .inl ⟨k2, k6.trans hc⟩⟩,
        .inr ⟨rfl, q1, fun hr => rank_mu ho.mid.ending k2.mid.ending (.inr ⟨rfl, ?_⟩)⟩⟩
      unfold mu
      rw [lt5_iff]
      left
      simp only
      omega
    | true =>
      obtain ⟨e2, o2, code, z1, z2⟩ := flush_first k2 (k6.trans hc) (k4 rfl) (room - w.length)
      refine ⟨{ c with eng := e2 }, w ++ o2, code, fun fuel => by rw [hfl fuel e w k1, z1]; rfl, ?_, ?_⟩
      · refine ⟨⟨h.idle.frozen, h.idle.same⟩, h.hdr, ?_⟩
        rw [← List.append_assoc]
        rcases z2 with z2 | ⟨-, -, q2, q3, -, -⟩
        · exact .inr z2.end_
        · exact .inl ⟨q2, q3⟩
      · rw [← List.append_assoc]
        rcases z2 with z2 | ⟨rfl, q1, q2, q3, q4, q5⟩
        · rcases z2.code with ⟨rfl, y1, y2⟩ | ⟨rfl, y1⟩
          · exact .inl ⟨rfl, z2.end_, y1, y2⟩
          · refine .inr ⟨rfl, by rw [List.length_append, y1]; omega, fun _ => ?_⟩
            obtain ⟨_, _, _, hc⟩ := z2.end_.tr
            rcases hc with ⟨r, -, hr, -⟩ | ⟨hr, -⟩
            · exact rank_marker ho.mid.ending hr
            · exact rank_marker ho.mid.ending hr
        · refine .inr ⟨rfl, by rw [List.length_append, q1]; omega, fun _ => rank_mu ho.mid.ending q2.mid.ending (.inr ⟨rfl, ?_⟩)⟩
          refine mu_header (c1 := { c with eng := e }) k8 (k4 rfl) ?_ rfl fun hq => (k10 hq).1
          unfold mu
          rw [lt5_iff]
          right
          exact ⟨by simp only [q4, k4], .inr ⟨rfl, less_mu (.inl ⟨k6.trans hc, q3, q5⟩)⟩⟩
  · obtain ⟨e, o, code, k1, k2, k3⟩ := flush_again he room
    refine ⟨{ c with eng := e }, o, code, fun fuel => ?_, ⟨⟨h.idle.frozen, h.idle.same⟩, h.hdr, .inr k2.end_⟩, ?_⟩
    · rw [hfl fuel c.eng [] (header_noop he.prog room)]
      simp only [List.length_nil, Nat.sub_zero, k1, Option.map_some, List.nil_append]
    · rcases k2.code with ⟨rfl, q1, q2⟩ | ⟨rfl, q1⟩
      · exact .inl ⟨rfl, k2.end_, q1, q2⟩
      · refine .inr ⟨rfl, q1, fun hr => rank_end (k3 fun h0 => ?_)⟩
        rw [h0, List.length_nil] at q1
        omega

theorem flushes_cmds {g : Cfg} : ∀ (rooms : List Nat) {c : Comp} {out : List UInt8} {done : List Item},
    CmdClosing g c out done →
    ∃ c' o codes, (∀ fuel, flushes g.o g.dw fuel rooms c = some (c', o, codes)) ∧
      (∀ code ∈ codes, code = .success ∨ code = .needsOutput) ∧
      (codes.getLast? = some .success →
        EngEnd g c'.eng (out ++ o) done ∧ c'.eng.ending = some [] ∧ c'.eng.cmp.stage = .done) := by
  intro rooms
  induction rooms with
  | nil =>
    intro c out done h
    exact ⟨c, [], [], fun _ => rfl, by simp, by simp⟩
  | cons room rooms ih =>
    intro c out done h
    obtain ⟨c1, o1, code, k1, k2, k3⟩ := flush_call h room
    obtain ⟨c2, o2, codes, l1, l2, l3⟩ := ih k2
    refine ⟨c2, o1 ++ o2, code :: codes, fun fuel => by rw [flushes, k1]; simp only [l1, Option.map_some], ?_, ?_⟩
    · intro x hm
      rcases List.mem_cons.1 hm with rfl | hm
      · rcases k3 with ⟨h, -⟩ | ⟨h, -⟩
        · exact .inl h
        · exact .inr h
      · exact l2 x hm
    · intro hs
      cases rooms with
      | nil =>
        have hr := l1 0
        simp only [flushes, Option.some.injEq, Prod.mk.injEq] at hr
        obtain ⟨rfl, rfl, rfl⟩ := hr
        simp only [List.getLast?_singleton, Option.some.injEq] at hs
        subst hs
        rcases k3 with ⟨-, a, b, d⟩ | ⟨h, -⟩
        · exact ⟨by simpa using a, b, d⟩
        · cases h
      | cons room2 rooms =>
        have hr := l1 0
        rw [flushes] at hr
        cases hq : c1.flush g.o g.dw 0 room2 with
        | none => rw [hq] at hr; cases hr
        | some x =>
          rw [hq] at hr
          simp only [Option.map_eq_some_iff] at hr
          obtain ⟨z, -, hz⟩ := hr
          simp only [Prod.mk.injEq] at hz
          rw [← hz.2.2, List.getLast?_cons_cons] at hs
          rw [hz.2.2] at hs
          rw [← List.append_assoc]
          exact l3 hs

theorem inHistory_take : ∀ (cs : List Recode.Cmd) (m n : Nat), Recode.InHistory n cs → Recode.InHistory n (cs.take m)
  | [], m, n, _ => by simp [Recode.InHistory]
  | c :: cs, 0, n, _ => by simp [Recode.InHistory]
  | .copy d k :: cs, m + 1, n, h => ⟨h.1, h.2.1, inHistory_take cs m _ h.2.2⟩
  | .lit d :: cs, m + 1, n, h => inHistory_take cs m _ h
  | .dict w f :: cs, m + 1, n, h => inHistory_take cs m _ h
  | .other :: cs, m + 1, n, h => inHistory_take cs m _ h

/-- C49 for commands, safety.  A list of valid commands whose copies refer to data already there, offered to
`encode_commands` in any pieces and with output buffers of any sizes: no call panics or fails, and if the
last one reported success, then no call of `flush` afterwards, with buffers of any sizes, panics or fails, and
when `flush` reports success, the output is a file that decompresses to the data of the commands taken. -/
theorem command_calls (o : Codec.Opts) (dw : Nat → Nat → Nat → List UInt8) (window : Option Int) (xs : List Item)
    (hv : ∀ x ∈ xs, x.Valid o dw (2 ^ (windowOf window).toNat))
    (hh : Recode.InHistory 0 (xs.map (Item.ringCmd dw))) (calls : List (Nat × Nat)) (rooms : List Nat) :
    ∃ f0 c n out codes, n ≤ xs.length ∧ .failure ∉ codes ∧
      (∀ fuel, f0 ≤ fuel → encodesCmds o dw fuel calls (.new window) xs = some (c, n, out, codes)) ∧
      (codes.getLast? = some .success →
        ∃ c' out' codes', .failure ∉ codes' ∧ (∀ fuel, flushes o dw fuel rooms c = some (c', out', codes')) ∧
          (codes'.getLast? = some .success → Restores dw (out ++ out') (original dw (xs.take n)))) := by
  obtain ⟨f1, c, n, out, codes, h1, h2, h3, h4, h5, -, h7, h8⟩ := encodesCmds_spec (g := ⟨o, dw, window⟩) calls (xs := xs)
    (idle_new window) (engOk_new ⟨o, dw, window⟩) hv (fun y r h => by cases h)
  refine ⟨f1, c, n, out, codes, h2, fun h => ?_, h1, fun hs => ?_⟩
  · rcases h3 _ h with h | h <;> cases h
  · obtain ⟨c', out', codes', k1, k2, k3⟩ := flushes_cmds (g := ⟨o, dw, window⟩) rooms
      ⟨h4, h7 (by rintro rfl; cases hs), .inl ⟨h5, h8 hs⟩⟩
    refine ⟨c', out', codes', fun h => ?_, k1, fun hs' => ?_⟩
    · rcases k2 _ h with h | h <;> cases h
    · obtain ⟨a, b, d⟩ := k3 hs'
      refine finished (g := ⟨o, dw, window⟩) (by simpa using a) b d (fun x hx => hv x (List.mem_of_mem_take hx)) ?_
      rw [List.map_take]
      exact inHistory_take _ n 0 hh

theorem encodesCmds_progress {g : Cfg} :
    ∀ (m : Nat × Nat × Nat × Nat × Nat × Nat) {c : Comp} {out : List UInt8} {done xs : List Item},
      (xs.length, mu c) = m → Idle c → EngOk g c.eng out done → (∀ x ∈ xs, x.Valid g.o g.dw g.ring) →
      (∀ y r, c.eng.cur = some (y, r) → xs.head? = some y) → ∀ calls : Nat → Nat × Nat,
      (∀ i, 0 < (calls i).1 ∧ 0 < (calls i).2) →
      ∃ N f0 c' o codes, (∀ fuel, f0 ≤ fuel →
        encodesCmds g.o g.dw fuel ((List.range N).map calls) c xs = some (c', xs.length, o, codes)) ∧
        (xs ≠ [] → codes.getLast? = some .success) := by
  intro m
  have wf : WellFounded (Prod.Lex (· < ·) lt5) := WellFounded.prod_lex Nat.lt_wfRel.wf lt5_wf
  induction m using wf.induction with
  | _ m ih =>
    intro c out done xs hm hi h hv hx calls hpos
    by_cases hne : xs = []
    · subst hne
      exact ⟨0, 0, c, [], [], fun _ _ => rfl, fun h => absurd rfl h⟩
    · have hil := List.length_pos_iff.2 hne
      obtain ⟨p1, p2⟩ := hpos 0
      have hk : xs.take (calls 0).1 ≠ [] := by
        intro hh
        have := congrArg List.length hh
        rw [List.length_take, List.length_nil] at this
        omega
      obtain ⟨f1, c1, n1, o1, code, k1, k2, k3, k4, k5, k6, k7, k8⟩ := encodeCommands_call hi hk h
        (fun x hm => hv x (List.mem_of_mem_take hm)) (fun y r hy => by rw [take_head hk]; exact hx y r hy) (calls 0).2
      rw [List.length_take] at k5
      have hlt : Prod.Lex (· < ·) lt5 ((xs.drop n1).length, mu c1) m := by
        rw [← hm, Prod.lex_def]
        simp only [List.length_drop]
        by_cases hn : 1 ≤ n1
        · left; omega
        · right
          refine ⟨by omega, ?_⟩
          rcases k8 p2 with h | h
          · omega
          · exact h
      obtain ⟨N, f2, c2, o2, codes, l1, l2⟩ := ih _ hlt rfl k2 k4 (fun x hm => hv x (List.mem_of_mem_drop hm))
        (fun y r hy => drop_take_head (k6 y r hy)) (fun i => calls (i + 1)) (fun i => hpos (i + 1))
      have hc : calls 0 = ((calls 0).1, (calls 0).2) := rfl
      by_cases hd : xs.drop n1 = []
      · refine ⟨1, f1, c1, o1, [code], fun fuel hf => ?_, fun _ => ?_⟩
        · rw [range_map_succ, hc, encodesCmds, if_neg hk, k1 fuel hf]
          have := congrArg List.length hd
          rw [List.length_drop, List.length_nil] at this
          simp only [List.range_zero, List.map_nil, encodesCmds, Option.map_some, Option.some.injEq, Prod.mk.injEq,
            List.append_nil, and_true, true_and]
          omega
        · have := congrArg List.length hd
          rw [List.length_drop, List.length_nil] at this
          rw [List.length_take] at k7
          rcases k7 with ⟨rfl, -⟩ | ⟨-, h⟩
          · rfl
          · omega
      · refine ⟨N + 1, max f1 f2, c2, o1 ++ o2, code :: codes, fun fuel hf => ?_, fun _ => ?_⟩
        · rw [range_map_succ, hc, encodesCmds, if_neg hk, k1 fuel (by omega)]
          simp only [l1 fuel (by omega), Option.map_some, List.length_drop, Option.some.injEq, Prod.mk.injEq, and_true,
            true_and]
          omega
        · have := l2 hd
          cases codes with
          | nil => cases this
          | cons a b => rw [List.getLast?_cons_cons]; exact this

theorem flushes_cmds_progress {g : Cfg} :
    ∀ (m : Nat × Nat × Nat × Nat × Nat × Nat × Nat) {c : Comp} {out : List UInt8} {done : List Item}, rank c = m →
      CmdClosing g c out done → ∀ rooms : Nat → Nat, (∀ i, 0 < rooms i) →
      ∃ N c' o codes, (∀ fuel, flushes g.o g.dw fuel ((List.range N).map rooms) c = some (c', o, codes)) ∧
        codes.getLast? = some .success := by
  intro m
  induction m using lt7_wf.induction with
  | _ m ih =>
    intro c out done hm h rooms hpos
    obtain ⟨c1, o1, code, k1, k2, k3⟩ := flush_call h (rooms 0)
    rcases k3 with ⟨rfl, -⟩ | ⟨rfl, -, hlt⟩
    · refine ⟨1, c1, o1, [.success], fun fuel => ?_, rfl⟩
      rw [range_map_succ, flushes, k1]
      simp [flushes]
    · obtain ⟨N, c2, o2, codes, l1, l2⟩ := ih _ (hm ▸ hlt (hpos 0)) rfl k2 (fun i => rooms (i + 1))
        (fun i => hpos (i + 1))
      refine ⟨N + 1, c2, o1 ++ o2, .needsOutput :: codes, fun fuel => ?_, ?_⟩
      · rw [range_map_succ, flushes, k1]
        simp only [l1, Option.map_some]
      · cases codes with
        | nil => cases l2
        | cons a b => rw [List.getLast?_cons_cons]; exact l2

/-- C49 for commands, progress.  A caller who goes on offering commands with nonempty output buffers gets all of
them taken after finitely many calls, and then success from `flush` after finitely many more; the file
decompresses to the data of the commands. -/
theorem command_calls_end (o : Codec.Opts) (dw : Nat → Nat → Nat → List UInt8) (window : Option Int) (xs : List Item)
    (hne : xs ≠ []) (hv : ∀ x ∈ xs, x.Valid o dw (2 ^ (windowOf window).toNat))
    (hh : Recode.InHistory 0 (xs.map (Item.ringCmd dw))) (calls : Nat → Nat × Nat)
    (hc : ∀ i, 0 < (calls i).1 ∧ 0 < (calls i).2) (rooms : Nat → Nat) (hr : ∀ i, 0 < rooms i) :
    ∃ N M f0 c out codes c' out' codes', (∀ fuel, f0 ≤ fuel →
        encodesCmds o dw fuel ((List.range N).map calls) (.new window) xs = some (c, xs.length, out, codes) ∧
        flushes o dw fuel ((List.range M).map rooms) c = some (c', out', codes')) ∧
      codes.getLast? = some .success ∧ codes'.getLast? = some .success ∧
      Restores dw (out ++ out') (original dw xs) := by
  obtain ⟨N, f1, c, out, codes, h1, h2⟩ := encodesCmds_progress (g := ⟨o, dw, window⟩) _ (xs := xs) rfl (idle_new window)
    (engOk_new ⟨o, dw, window⟩) hv (fun y r h => by cases h) calls hc
  have hs := h2 hne
  obtain ⟨f2, c2, n2, out2, codes2, k1, k2, k3, k4, k5, -, k7, k8⟩ := encodesCmds_spec (g := ⟨o, dw, window⟩)
    ((List.range N).map calls) (xs := xs)
    (idle_new window) (engOk_new ⟨o, dw, window⟩) hv (fun y r h => by cases h)
  have e := (k1 (max f1 f2) (by omega)).symm.trans (h1 (max f1 f2) (by omega))
  simp only [Option.some.injEq, Prod.mk.injEq] at e
  obtain ⟨rfl, rfl, rfl, rfl⟩ := e
  have hcl : CmdClosing ⟨o, dw, window⟩ c2 ([] ++ out2) ([] ++ xs.take xs.length) :=
    ⟨k4, k7 (by rintro rfl; cases hs), .inl ⟨k5, k8 hs⟩⟩
  obtain ⟨M, c', out', codes', l1, l2⟩ := flushes_cmds_progress (g := ⟨o, dw, window⟩) _ rfl hcl rooms hr
  obtain ⟨c3, out3, codes3, m1, m2, m3⟩ := flushes_cmds ((List.range M).map rooms) hcl
  have e := (m1 0).symm.trans (l1 0)
  simp only [Option.some.injEq, Prod.mk.injEq] at e
  obtain ⟨rfl, rfl, rfl⟩ := e
  obtain ⟨a, b, d⟩ := m3 l2
  refine ⟨N, M, f1, c2, out2, codes2, c3, out3, codes3, fun fuel hf => ⟨h1 fuel hf, l1 fuel⟩, hs, l2, ?_⟩
  rw [List.take_length] at a
  exact finished (g := ⟨o, dw, window⟩) (by simpa using a) b d hv hh

/-- The condition on the last call cannot be dropped: with a command begun and not finished, `flush` reports a
failure (`/repo/src/codec/mod.rs:556-557`). -/
theorem flush_in_command (o : Codec.Opts) (dw : Nat → Nat → Nat → List UInt8) (fuel : Nat) {c : Comp} (hi : Idle c)
    (hh : c.asm.hdr = true) (hp : c.eng.cmp.progress = 16) (he : c.eng.ending = none) (hc : c.eng.cur ≠ none)
    (room : Nat) : c.flush o dw fuel room = some (c, [], .failure) := by
  rw [Comp.flush, header_noop hp]
  simp only [Comp.unfreeze, hi.frozen, if_true, Comp.rest, hi.quiet hh, and_self, List.length_nil, Nat.sub_zero,
    List.append_nil]
  have hf : c.eng.flush room = some (c.eng, [], .failure) := by
    rw [Eng.flush, he]
    cases hq : c.eng.cur with
    | none => exact absurd hq hc
    | some y => rfl
  rw [hf, Option.map_some, ← hi.frozen]
  rfl

/-! ## Instances -/

/-- The hypotheses of the raw theorems are met by the options of the other examples. -/
example : (Item.pm rawPm).Valid Codec.demoOpts demoWords (2 ^ (windowOf (some 12)).toNat) :=
  rawPm_valid rfl (by decide) (by decide) _ _

/-- And those of the theorems about commands by a list with all kinds of commands. -/
example : demoItems ≠ [] ∧
    (∀ x ∈ demoItems, x.Valid Codec.demoOpts demoWords (2 ^ (windowOf (some 3)).toNat)) ∧
    Recode.InHistory 0 (demoItems.map (Item.ringCmd demoWords)) := by
  refine ⟨by simp [demoItems], ?_, by simp [demoItems, Item.ringCmd, Recode.InHistory, Recode.Cmd.size, demoWords]⟩
  have : 2 ^ (windowOf (some 3)).toNat = 1024 := by decide
  rw [this]
  exact demoItems_valid

end Divans.Compressor
