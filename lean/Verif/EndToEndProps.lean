import Verif.AnsProps
import Verif.MuxProps

/-!
# C38: two symbol streams through two entropy coders and one multiplexed stream
-/

namespace Divans.EndToEnd
open Divans.Ans Divans.Mux

/-- A symbol stream with its models: `slot` is the encoder's side, `lookup` the decoder's. -/
structure Source where
  σ : Type
  slot : List σ → σ → Slot
  lookup : List σ → Nat → σ × Slot
  syms : List σ

/-- `out` is everything an entropy encoder gave out for the stream: the symbols were put in order, it
was closed once, and its output was taken at any times until nothing was left. -/
def Source.Coded (s : Source) (out : List UInt8) : Prop :=
  ∃ ops e, putsOf ops = slotsFrom s.slot [] s.syms ∧ ClosedOnce ops ∧ Enc.init.run ops = some (out, e) ∧ e.q = []

/-- **C38.**  Two symbol streams (`src false`, `src true`) are coded by two entropy coders.  Their bytes
are handed to one multiplexer by any legal history that ends it.  What it wrote is offered to a
demultiplexer in any pieces, with any reading in between.  Then what each stream has delivered,
given to an entropy decoder in any pieces, decodes to the symbols of that stream, and nothing is left
over. -/
theorem coder_and_mux (src : Bool → Source) (hown : ∀ i, Owns (src i).slot (src i).lookup (src i).syms)
    (coded : Bool → List UInt8) (hcoded : ∀ i, (src i).Coded (coded i))
    (ops : List MOp) (hl : legal Mux.new ops = true) (hp : ∀ i, pushed ops i = coded i) :
    ∃ m out, runOps Mux.new ops = some (m, out) ∧ (m.isEof = true →
      ∀ dops, dlegal .new dops = true → offered dops = out →
        ∃ d, runD .new dops = some d ∧ d.m.sawEof = true ∧
          ∀ i pieces, pieces.flatten = d.received i →
            ∃ dec cur more, Dec.decode (src i).lookup (src i).syms.length [] Dec.init [] pieces =
              some ((src i).syms, dec, cur, more) ∧ cur ++ more.flatten = []) := by
  obtain ⟨m, out, e, hd⟩ := mux_round_trip ops hl
  refine ⟨m, out, e, fun heof dops h1 h2 => ?_⟩
  obtain ⟨d, e1, -, -, h3, h4⟩ := hd dops h1 h2
  refine ⟨d, e1, h3.trans heof, fun i pieces hpc => ?_⟩
  obtain ⟨eops, en, k1, k2, k3, k4⟩ := hcoded i
  refine ans_round_trip_split (src i).slot (src i).lookup (src i).syms (hown i) eops k1 k2 (coded i) en k3 k4 pieces []
    ?_
  rw [List.append_nil, hpc, h4 heof i, hp]

/-! ## The hypotheses can be met -/

/-- Two streams over the example model of `Verif.AnsProps`. -/
def demoSource (i : Bool) : Source :=
  ⟨Fin 3, demoSlot, demoLookup, if i then [0, 0, 0, 2, 0, 0, 0, 1] else []⟩

/-- What the coder gives for them. -/
def demoCoded (i : Bool) : List UInt8 :=
  if i then [0, 0, 0, 0, 0, 0, 0, 8, 0, 0, 26, 128, 251, 236, 2, 0, 0, 0, 0, 0, 0, 128, 1, 128] else []

/-- Handed over in two pieces, with two calls that write. -/
def demoOps : List MOp := [.push true ((demoCoded true).take 5), .serialize 6, .push true ((demoCoded true).drop 5), .close 9, .close 90]

example : ∀ i, Owns (demoSource i).slot (demoSource i).lookup (demoSource i).syms := fun _ => demo_owns _

example : (demoSource true).Coded (demoCoded true) := by
  refine ⟨(slotsFrom demoSlot [] [0, 0, 0, 2, 0, 0, 0, 1]).map .put ++ [.close, .pop 7, .pop 100], ⟨[], []⟩, rfl, ?_, ?_, rfl⟩
  · simp only [slotsFrom, List.map_cons, List.map_nil, List.cons_append, List.nil_append, ClosedOnce, List.mem_cons,
      List.not_mem_nil, or_false]
    rintro op (rfl | rfl)
    · exact ⟨7, rfl⟩
    · exact ⟨100, rfl⟩
  · have h : ((Enc.init.run ((slotsFrom demoSlot [] [0, 0, 0, 2, 0, 0, 0, 1]).map .put ++
        [.close, .pop 7, .pop 100])).map fun r => (r.1, r.2.q, r.2.startFreq)) = some (demoCoded true, [], []) := by
      decide +kernel
    show Enc.init.run _ = _
    obtain ⟨r, h1, h2⟩ := Option.map_eq_some_iff.mp h
    rw [h1]
    obtain ⟨a, b, c⟩ := r
    simp only [Prod.mk.injEq] at h2
    obtain ⟨rfl, rfl, rfl⟩ := h2
    rfl

example : legal Mux.new demoOps = true ∧ ((runOps Mux.new demoOps).map fun x => x.1.isEof) = some true ∧
    pushed demoOps true = demoCoded true := by
  decide +kernel

end Divans.EndToEnd
