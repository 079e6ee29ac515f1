import Verif.Ans
import Verif.Cdf
import Verif.Weights
import Mathlib.Logic.Function.Basic

/-
Model of adaptive nibble coding: what `get_or_put_nibble` (/repo/src/ans.rs:270-281, 488-502;
/repo/src/arithmetic_coder.rs) does together with the model selection, mixing and adaptation around it
in /repo/src/codec/*.rs.  The tables of distributions are indexed by an arbitrary type.
-/
namespace Divans.Adaptive
open Divans.Cdf Divans.Weights

/-- How the next nibble is coded. -/
inductive Choice (κ ι : Type) where
  /-- With the unadapted default distribution (`mm_opts == 2`, /repo/src/codec/literal.rs:213-216). -/
  | fixed
  /-- With one distribution, then adapting it (e.g. /repo/src/codec/copy.rs:70-75); `none`: not
  adapted (`adapt_cdf` false). -/
  | plain (k : κ) (sp : Option Speed)
  /-- With the mixture of two distributions (/repo/src/codec/literal.rs:219-244, 318-322). -/
  | mixed (cm nib : κ) (w : ι) (spCm spNib : Option Speed)

/-- The adaptive state both sides keep, and the nibbles coded so far (oldest first). -/
structure Session (κ ι : Type) where
  models : κ → Opt
  weights : ι → Weights
  hist : List Nat

/-- All models fresh. -/
def Session.init {κ ι : Type} : Session κ ι := ⟨fun _ => Opt.default, fun _ => Weights.new, []⟩

/-- The distribution handed to the coder. -/
def Session.coding {κ ι : Type} (s : Session κ ι) : Choice κ ι → Opt
  | .fixed => Opt.default
  | .plain k _ => s.models k
  | .mixed cm nib w _ _ => (s.models cm).average (s.models nib) (s.weights w).mixRate

/-- Optional adaptation. -/
def blendIf (o : Opt) (sym : Nat) : Option Speed → Opt
  | none => o
  | some sp => o.blend sym sp

/-- State after nibble `sym` was coded. -/
def Session.after {κ ι : Type} [DecidableEq κ] [DecidableEq ι] (s : Session κ ι) (ch : Choice κ ι)
    (sym : Nat) : Session κ ι :=
  match ch with
  | .fixed => { s with hist := s.hist ++ [sym] }
  | .plain k sp =>
    { s with models := Function.update s.models k (blendIf (s.models k) sym sp),
             hist := s.hist ++ [sym] }
  | .mixed cm nib w spCm spNib =>
    let range := (s.coding ch).symRange sym
    let p0 := ((s.models cm).symRange sym).freq
    let p1 := ((s.models nib).symRange sym).freq
    let ws := Function.update s.weights w ((s.weights w).update (p0, p1) range.freq)
    let m1 := Function.update s.models cm (blendIf (s.models cm) sym spCm)
    let m2 := Function.update m1 nib (blendIf (m1 nib) sym spNib)
    ⟨m2, ws, s.hist ++ [sym]⟩

/-- The sender: slots handed to the entropy coder, and the final state.  `rule` picks the choice for
the next nibble from the nibbles coded so far. -/
def encodeNibbles {κ ι : Type} [DecidableEq κ] [DecidableEq ι] (rule : List Nat → Choice κ ι) :
    Session κ ι → List Nat → List Ans.Slot × Session κ ι
  | s, [] => ([], s)
  | s, n :: t =>
    let ch := rule s.hist
    let r := encodeNibbles rule (s.after ch n) t
    (((s.coding ch).symRange n).toSlot :: r.1, r.2)

/-- The receiver: decodes `n` nibbles from the pieces of input. -/
def decodeNibbles {κ ι : Type} [DecidableEq κ] [DecidableEq ι] (rule : List Nat → Choice κ ι) :
    Nat → Session κ ι → Ans.Dec → List UInt8 → List (List UInt8) →
      Option (Session κ ι × Ans.Dec × List UInt8 × List (List UInt8))
  | 0, s, d, cur, more => some (s, d, cur, more)
  | n + 1, s, d, cur, more =>
    match d.fill cur more with
    | none => none
    | some (d', cur', more') =>
      let ch := rule s.hist
      let r := (s.coding ch).lookup d'.offset
      decodeNibbles rule n (s.after ch r.1) (d'.advance r.2.toSlot) cur' more'

end Divans.Adaptive
