import Verif.Adaptive

/-!
# One entropy coded stream, nibble by nibble

A receiver that is handed the bytes of a stream piece by piece and asks for one nibble at a time, as
the decoder does: `drain_or_fill` and then `get_or_put_nibble`.
-/

namespace Divans.Adaptive

/-- The nibbles of a stream with the way each is coded. -/
abbrev Trace (κ ι : Type) := List (Choice κ ι × Nat)

/-- The slots the sender hands to the entropy coder for a trace: `get_or_put_nibble`,
`/repo/src/ans.rs:270-281, 488-502`, with the model updates around it. -/
def slotsOf {κ ι : Type} [DecidableEq κ] [DecidableEq ι] : Session κ ι → Trace κ ι → List Ans.Slot
  | _, [] => []
  | s, (ch, n) :: t => ((s.coding ch).symRange n).toSlot :: slotsOf (s.after ch n) t

/-- The sender's models after a trace. -/
def sessionAfter {κ ι : Type} [DecidableEq κ] [DecidableEq ι] : Session κ ι → Trace κ ι → Session κ ι
  | s, [] => s
  | s, (ch, n) :: t => sessionAfter (s.after ch n) t

/-- The receiving side of a stream: models, entropy decoder, and the bytes received but not used. -/
structure Rx (κ ι : Type) where
  ses : Session κ ι
  dec : Ans.Dec
  buf : List UInt8

/-- Before the first byte. -/
def Rx.init {κ ι : Type} : Rx κ ι := ⟨Session.init, Ans.Dec.init, []⟩

/-- Ask for a nibble coded as `ch` says: fill the decoder from the buffer (`drain_or_fill`,
`/repo/src/arithmetic_coder.rs:190-200`); when it is still short of bytes there is no nibble yet,
otherwise decode one and adapt the models. -/
def Rx.step {κ ι : Type} [DecidableEq κ] [DecidableEq ι] (r : Rx κ ι) (ch : Choice κ ι) :
    Rx κ ι × Option Nat :=
  let p := r.dec.pushData r.buf
  if p.1.numPushAvail ≠ 0 then (⟨r.ses, p.1, r.buf.drop p.2⟩, none)
  else
    let x := (r.ses.coding ch).lookup p.1.offset
    (⟨r.ses.after ch x.1, p.1.advance x.2.toSlot, r.buf.drop p.2⟩, some x.1)

/-- More bytes arrive. -/
def Rx.push {κ ι : Type} (r : Rx κ ι) (bytes : List UInt8) : Rx κ ι := { r with buf := r.buf ++ bytes }

end Divans.Adaptive
