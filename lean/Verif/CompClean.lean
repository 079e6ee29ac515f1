import Verif.CompRun

/-!
# Which lengths of raw input the compressor keeps: the assembler in the compressor
-/

namespace Divans.Compressor
open Divans.Adaptive Divans.Pipe Divans.Frame Divans.Eng

/-- No byte was sent twice so far. -/
def Once (g : Cfg) (ops : List RawCmd.Op) : Prop := RawCmd.deficits (RawCmd.new (List.replicate g.ring 0)) ops = 0

theorem ring_two' (g : Cfg) : 2 ≤ g.ring := by have := Cfg.ring_ge g; omega

theorem once_nil (g : Cfg) : Once g [] := rfl

section
variable {g : Cfg} {c : Comp} {out : List UInt8} {ops : List RawCmd.Op} {taken : List UInt8} {done fr : List RawCmd.Cmd}

theorem Pushing.place (h : Pushing g c out ops taken done fr) :
    RawCmd.At g.ring (taken.length + RawCmd.deficits (RawCmd.new (List.replicate g.ring 0)) ops) c.asm := by
  have h2 := ring_two' g
  have h0 := RawCmd.at_new (ring := List.replicate g.ring 0) (by rw [List.length_replicate]; exact h2)
  rw [List.length_replicate] at h0
  have := (RawCmd.at_run h2 ops h.only (RawCmd.inv_new _) h0 h.run).1
  rwa [Nat.zero_add] at this

theorem Pushing.fair (h : Pushing g c out ops taken done fr) (hc : Once g ops) : RawCmd.Fair g.ring taken.length := by
  have := h.place
  rw [show RawCmd.deficits _ ops = 0 from hc, Nat.add_zero] at this
  exact (RawCmd.at_owed (ring_two' g) this [] 0).2

theorem once_append (h : Pushing g c out ops taken done fr) (hc : Once g ops) {ops' : List RawCmd.Op}
    (h' : RawCmd.deficits c.asm ops' = 0) : Once g (ops ++ ops') := by
  unfold Once at hc ⊢
  rw [RawCmd.deficits_append ops' h.run, hc, h']

theorem Pushing.ample (h : Pushing g c out ops taken done fr) (hc : Once g ops) {inp : List UInt8} {ops' : List RawCmd.Op} {n : Nat}
    {s : RawCmd.St} (k : RawCmd.Chain c.asm inp ops' n s) (ha : RawCmd.Ample g.ring taken.length inp.length) : Once g (ops ++ ops') := by
  have := h.place
  rw [show RawCmd.deficits _ ops = 0 from hc, Nat.add_zero] at this
  exact once_append h hc (RawCmd.chain_good (ring_two' g) k h.inv this ha).1

theorem Pushing.few (h : Pushing g c out ops taken done fr) (hc : Once g ops) {inp : List UInt8} {ops' : List RawCmd.Op} {n : Nat}
    {s : RawCmd.St} (k : RawCmd.Chain c.asm inp ops' n s)
    (ha : taken.length + n ≤ 2 * g.ring - 2 ∨ inp ≠ [] ∧ taken.length + n ≤ 3 * g.ring - 2) : Once g (ops ++ ops') := by
  have := h.place
  rw [show RawCmd.deficits _ ops = 0 from hc, Nat.add_zero] at this
  exact once_append h hc (RawCmd.chain_few (ring_two' g) k h.inv this ha)

end

end Divans.Compressor
