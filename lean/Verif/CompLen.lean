import Verif.RoundTripProps

/-!
# Which lengths of raw input the compressor keeps: lemmas
-/

namespace Divans.Compressor
open Divans.Adaptive Divans.Pipe Divans.Frame Divans.Eng

/-- A file restores one thing at most. -/
theorem restores_inj {dw : Nat → Nat → Nat → List UInt8} {file a b : List UInt8} (ha : Restores dw file a) (hb : Restores dw file b) :
    a = b := by
  obtain ⟨n, hn⟩ := (ha.2.2 false [] [.more file]).2 (by simp [File.fed])
  obtain ⟨m, hm⟩ := (hb.2.2 false [] [.more file]).2 (by simp [File.fed])
  obtain ⟨d, e, -⟩ := hn (List.replicate (n + m) 1) (by simp) (by simp)
  obtain ⟨d', e', -⟩ := hm (List.replicate (n + m) 1) (by simp) (by simp)
  rw [e] at e'
  cases e'
  rfl

section
variable {g : Cfg} {c : Comp} {out : List UInt8} {ops : List RawCmd.Op} {taken : List UInt8} {done fr : List RawCmd.Cmd}

/-- What a finished file of raw input gives back. -/
theorem raw_gives (hpm : (Item.pm rawPm).Valid g.o g.dw g.ring) {all : List RawCmd.Cmd}
    (h6 : RawCmd.Complete (List.replicate g.ring 0) ops taken all) {c' : Comp} {file : List UInt8}
    (ha : After g c' file all) (he : c'.eng.ending = some []) (hd : c'.eng.cmp.stage = .done) :
    Restores g.dw file (RawCmd.bytesOf all) := by
  rw [← original_raw g.dw]
  refine finished ha.eng he hd ?_ (inHistory_raw g.dw all 0)
  intro x hx
  obtain ⟨y, hy, rfl⟩ := List.mem_map.1 hx
  have := RawCmd.complete_fits h6 y hy
  rw [List.length_replicate] at this
  exact fits_valid hpm this

/-- A finished file of raw input gives back what was taken exactly if no byte was sent twice. -/
theorem raw_restores_iff (hpm : (Item.pm rawPm).Valid g.o g.dw g.ring) {all : List RawCmd.Cmd}
    (h6 : RawCmd.Complete (List.replicate g.ring 0) ops taken all) {c' : Comp} {file : List UInt8}
    (ha : After g c' file all) (he : c'.eng.ending = some []) (hd : c'.eng.cmp.stage = .done) :
    Restores g.dw file taken ↔ Once g ops := by
  have h := raw_gives hpm h6 ha he hd
  unfold Once
  rw [← RawCmd.raw_lossless_iff h6]
  exact ⟨fun h' => restores_inj h h', fun e => e ▸ h⟩

end

end Divans.Compressor
