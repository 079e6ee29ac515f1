import Verif.Adaptive

/-!
# Builds that measure

Three features of the build wrap a part of the codec in one that takes measurements.

* `findspeed`: every distribution is a `VariantSpeedCDF` (`/repo/src/probability/variant_speed_cdf.rs`), which
  also adapts 15 copies at other speeds and adds up what each would have cost.
* `debug_entropy`: every distribution is a `DebugWrapperCDF16` (`/repo/src/probability/interface.rs:446-540`),
  which counts the symbols and adds up costs.
* `billing`: every entropy coder is a `BillingArithmeticCoder` (`/repo/src/billing.rs`), which keeps an account
  of the bits for each purpose and reports it when it is dropped.

Costs are floating point numbers; here they are of any type `F` with any operations.
-/

namespace Divans.Meter
open Divans.Cdf Divans.Weights Divans.Adaptive

/-- A kind of distribution over nibbles: what the codec uses of the traits `BaseCDF` and `CDF16`,
`/repo/src/probability/interface.rs:54-215, 296-299`. -/
structure Dist (M : Type) where
  fresh : M
  blend : M → Nat → Speed → M
  average : M → M → Int → M
  symRange : M → Nat → Range
  lookup : M → Int → Nat × Range

/-- The production type. -/
def optDist : Dist Opt := ⟨Opt.default, Opt.blend, Opt.average, Opt.symRange, Opt.lookup⟩

/-! ## The adaptive coder over any kind of distribution

`Verif/Adaptive.lean` once more, with the distributions a parameter, as in the code. -/

/-- The adaptive state of a side. -/
structure Sess (κ ι M : Type) where
  models : κ → M
  weights : ι → Weights
  hist : List Nat

/-- All models fresh. -/
def Sess.init {κ ι M : Type} (d : Dist M) : Sess κ ι M := ⟨fun _ => d.fresh, fun _ => Weights.new, []⟩

/-- The distribution handed to the coder. -/
def Sess.coding {κ ι M : Type} (d : Dist M) (s : Sess κ ι M) : Choice κ ι → M
  | .fixed => d.fresh
  | .plain k _ => s.models k
  | .mixed cm nib w _ _ => d.average (s.models cm) (s.models nib) (s.weights w).mixRate

/-- Optional adaptation. -/
def blendOpt {M : Type} (d : Dist M) (m : M) (sym : Nat) : Option Speed → M
  | none => m
  | some sp => d.blend m sym sp

/-- State after nibble `sym` was coded. -/
def Sess.after {κ ι M : Type} [DecidableEq κ] [DecidableEq ι] (d : Dist M) (s : Sess κ ι M)
    (ch : Choice κ ι) (sym : Nat) : Sess κ ι M :=
  match ch with
  | .fixed => { s with hist := s.hist ++ [sym] }
  | .plain k sp =>
    { s with models := Function.update s.models k (blendOpt d (s.models k) sym sp),
             hist := s.hist ++ [sym] }
  | .mixed cm nib w spCm spNib =>
    let range := d.symRange (s.coding d ch) sym
    let p0 := (d.symRange (s.models cm) sym).freq
    let p1 := (d.symRange (s.models nib) sym).freq
    let ws := Function.update s.weights w ((s.weights w).update (p0, p1) range.freq)
    let m1 := Function.update s.models cm (blendOpt d (s.models cm) sym spCm)
    let m2 := Function.update m1 nib (blendOpt d (m1 nib) sym spNib)
    ⟨m2, ws, s.hist ++ [sym]⟩

/-- The sender: the slots for the entropy coder, and the final state. -/
def encode {κ ι M : Type} [DecidableEq κ] [DecidableEq ι] (d : Dist M) (rule : List Nat → Choice κ ι) :
    Sess κ ι M → List Nat → List Ans.Slot × Sess κ ι M
  | s, [] => ([], s)
  | s, n :: t =>
    let ch := rule s.hist
    let r := encode d rule (s.after d ch n) t
    ((d.symRange (s.coding d ch) n).toSlot :: r.1, r.2)

/-- The receiver: decodes `n` nibbles from the pieces of input. -/
def decode {κ ι M : Type} [DecidableEq κ] [DecidableEq ι] (d : Dist M) (rule : List Nat → Choice κ ι) :
    Nat → Sess κ ι M → Ans.Dec → List UInt8 → List (List UInt8) →
      Option (Sess κ ι M × Ans.Dec × List UInt8 × List (List UInt8))
  | 0, s, c, cur, more => some (s, c, cur, more)
  | n + 1, s, c, cur, more =>
    match c.fill cur more with
    | none => none
    | some (c', cur', more') =>
      let ch := rule s.hist
      let r := d.lookup (s.coding d ch) c'.offset
      decode d rule n (s.after d ch r.1) (c'.advance r.2.toSlot) cur' more'

/-! ## `findspeed` -/

/-- `Speed::ENCODER_DEFAULT_PALETTE`, `/repo/src/probability/interface.rs:303-320`. -/
def palette : Fin 15 → Speed
  | 0 => ⟨0, 1024⟩
  | 1 => ⟨2, 1024⟩
  | 2 => ⟨1, 128⟩
  | 3 => ⟨1, 16384⟩
  | 4 => ⟨2, 2048⟩
  | 5 => ⟨4, 1024⟩
  | 6 => ⟨8, 8192⟩
  | 7 => ⟨16, 48⟩
  | 8 => ⟨16, 8192⟩
  | 9 => ⟨32, 4096⟩
  | 10 => ⟨64, 16384⟩
  | 11 => ⟨128, 256⟩
  | 12 => ⟨128, 16384⟩
  | 13 => ⟨512, 16384⟩
  | 14 => ⟨1664, 16384⟩

/-- Arithmetic of costs: a start, addition, subtraction and the logarithm (`FastLog2u16` of the brotli
crate for `findspeed`). -/
structure Cost (F : Type) where
  zero : F
  add : F → F → F
  sub : F → F → F
  log : Int → F

/-- `VariantSpeedCDF`, `/repo/src/probability/variant_speed_cdf.rs:5-9`. -/
structure Variant (F : Type) where
  cdf : Fin 16 → Opt
  cost : Fin 16 → F

/-- `default`, `/repo/src/probability/variant_speed_cdf.rs:11-18`. -/
def Variant.fresh {F : Type} (f : Cost F) : Variant F := ⟨fun _ => Opt.default, fun _ => f.zero⟩

/-- The speed of each copy in `blend`, `/repo/src/probability/variant_speed_cdf.rs:26`. -/
def speedAt (dyn : Speed) (i : Fin 16) : Speed := Fin.cases dyn palette i

/-- `pdf`, `/repo/src/probability/interface.rs:63-70`. -/
def pdfOf (c : Cdf) (s : Nat) : Int := if s = 0 then get c s else get c s - get c (s - 1)

/-- What coding a symbol costs, `/repo/src/probability/variant_speed_cdf.rs:23-25`. -/
def price {F : Type} (f : Cost F) (o : Opt) (sym : Nat) : F :=
  f.sub (f.log (max o.cdf)) (f.log (pdfOf o.cdf sym))

/-- `blend`, `/repo/src/probability/variant_speed_cdf.rs:21-28`. -/
def Variant.blend {F : Type} (f : Cost F) (v : Variant F) (sym : Nat) (dyn : Speed) : Variant F :=
  ⟨fun i => (v.cdf i).blend sym (speedAt dyn i), fun i => f.add (v.cost i) (price f (v.cdf i) sym)⟩

/-- `average`, `/repo/src/probability/variant_speed_cdf.rs:29-33`. -/
def Variant.average {F : Type} (v w : Variant F) (mixRate : Int) : Variant F :=
  ⟨Function.update v.cdf 0 ((v.cdf 0).average (w.cdf 0) mixRate), v.cost⟩

/-- The rest is that of the first copy, `/repo/src/probability/variant_speed_cdf.rs:36-79`. -/
def variantDist {F : Type} (f : Cost F) : Dist (Variant F) :=
  ⟨Variant.fresh f, Variant.blend f, Variant.average, fun v => (v.cdf 0).symRange, fun v => (v.cdf 0).lookup⟩

/-- `variant_cost` and `base_variant_cost`, `/repo/src/probability/variant_speed_cdf.rs:98-103`. -/
def Variant.variantCost {F : Type} (v : Variant F) (i : Fin 15) : F := v.cost i.succ

/-! ## `debug_entropy` -/

/-- `DebugWrapperCDF16`, `/repo/src/probability/interface.rs:448-453`.  The counts are of 32 bits and wrap
around, as without overflow checks. -/
structure Debug (F : Type) where
  cdf : Opt
  counts : Fin 16 → Nat
  cost : F
  rolling : F

/-- `new` of the default distribution, `/repo/src/probability/interface.rs:531-540`. -/
def Debug.fresh {F : Type} (f : Cost F) : Debug F := ⟨Opt.default, fun _ => 0, f.zero, f.zero⟩

/-- `num_samples`, `/repo/src/probability/interface.rs:497-503`. -/
def Debug.samples {F : Type} (v : Debug F) : Nat := ((List.finRange 16).map v.counts).sum % 2 ^ 32

/-- `used`, `/repo/src/probability/interface.rs:493-495`. -/
def Debug.used {F : Type} (v : Debug F) : Bool := decide (0 < v.samples)

/-- `blend`, `/repo/src/probability/interface.rs:457-466`; `entropy` stands for `true_entropy` of the counts
(lines 504-518), which is given after the first symbol. -/
def Debug.blend {F : Type} (f : Cost F) (entropy : (Fin 16 → Nat) → F) (v : Debug F) (sym : Nat) (sp : Speed) :
    Debug F :=
  let counts : Fin 16 → Nat := fun i => if i.val = sym then (v.counts i + 1) % 2 ^ 32 else v.counts i
  let w : Debug F := ⟨v.cdf, counts, f.add v.cost (price f v.cdf sym), v.rolling⟩
  ⟨v.cdf.blend sym sp, counts, w.cost, if 0 < w.samples then f.add v.rolling (entropy counts) else v.rolling⟩

/-- `average`, `/repo/src/probability/interface.rs:467-480`. -/
def Debug.average {F : Type} (f : Cost F) (v w : Debug F) (mixRate : Int) : Debug F :=
  ⟨v.cdf.average w.cdf mixRate, fun i => (v.counts i + w.counts i) % 2 ^ 32, f.add v.cost w.cost,
    f.add v.rolling w.rolling⟩

/-- The rest is that of the distribution inside; the provided methods of the trait are used, with its
`cdf`, `max` and `div_by_max`, `/repo/src/probability/interface.rs:94-130, 484-492`. -/
def debugDist {F : Type} (f : Cost F) (entropy : (Fin 16 → Nat) → F) : Dist (Debug F) :=
  ⟨Debug.fresh f, Debug.blend f entropy, Debug.average f,
    fun v => Cdf.symRange v.cdf.divByMax v.cdf.cdf, fun v => Cdf.lookup v.cdf.divByMax v.cdf.cdf⟩

/-! ## `billing` -/

/-- What is asked of an entropy coder, `/repo/src/interface.rs:367-418`: code a bit or a nibble (when decoding
the value is not looked at), move bytes in or out, close. -/
inductive Req (D : Type) where
  | bit (value : Bool) (prob : UInt8)
  | nibble (value : Nat) (dist : D)
  | drain (input : List UInt8) (room : Nat)
  | close

/-- An entropy coder.  The answer to a request says, for bits and nibbles, which value was coded (that given, or
that decoded).  `mov` gives the coder and what it leaves behind. -/
structure Coder (C D A : Type) where
  ask : C → Req D → C × A
  bitOf : A → Bool
  nibbleOf : A → Nat
  mov : C → C × C

/-- An account: for each purpose bits and virtual bits, `/repo/src/billing.rs:43`.  The virtual bits are added up
as floating point numbers, exactly up to 2^53. -/
abbrev Account (B F : Type) := List (B × F × Nat)

/-- `counter.entry(billing).or_insert((0.0, 0.0))` and the two additions, e.g.
`/repo/src/billing.rs:144-146`. -/
def bill {B F : Type} [DecidableEq B] (f : Cost F) (b : B) (bits : F) (v : Nat) : Account B F → Account B F
  | [] => [(b, f.add f.zero bits, v)]
  | (k, x, n) :: rest => if k = b then (k, f.add x bits, n + v) :: rest else (k, x, n) :: bill f b bits v rest

/-- `BillingArithmeticCoder`, `/repo/src/billing.rs:40-46`. -/
structure Billed (C B F : Type) where
  coder : C
  counter : Account B F
  movd : Bool

/-- The costs of a bit and of a nibble, `/repo/src/billing.rs:140-143, 160-161`. -/
structure Rates (D F : Type) where
  bit : Bool → UInt8 → F
  nibble : Nat → D → F

variable {C D A B F : Type} [DecidableEq B]

/-- A request with a purpose, or without (`get_or_put_…_without_billing`, which bills it as `Unknown`),
`/repo/src/billing.rs:120-168`. -/
def Billed.ask (c : Coder C D A) (f : Cost F) (rates : Rates D F) (unknown : B) (x : Billed C B F)
    (why : Option B) (r : Req D) : Billed C B F × A :=
  let a := c.ask x.coder r
  match r with
  | .bit _ p =>
    (⟨a.1, bill f (why.getD unknown) (rates.bit (c.bitOf a.2) p) 1 x.counter, x.movd⟩, a.2)
  | .nibble _ d =>
    (⟨a.1, bill f (why.getD unknown) (rates.nibble (c.nibbleOf a.2) d) 4 x.counter, x.movd⟩, a.2)
  | .drain _ _ => (⟨a.1, x.counter, x.movd⟩, a.2)
  | .close => (⟨a.1, x.counter, x.movd⟩, a.2)

/-- `mov`, `/repo/src/billing.rs:111-119`: the new coder and what is left of the old. -/
def Billed.mov (c : Coder C D A) (x : Billed C B F) : Billed C B F × Billed C B F :=
  let m := c.mov x.coder
  (⟨m.1, x.counter, false⟩, ⟨m.2, [], true⟩)

/-- `drop`, `/repo/src/billing.rs:82-104`: the account that is printed, if any. -/
def Billed.drop (x : Billed C B F) : Option (Account B F) := if x.movd then none else some x.counter

/-- The virtual bits of a purpose in an account. -/
def vbits (b : B) : Account B F → Nat
  | [] => 0
  | (k, _, n) :: rest => (if k = b then n else 0) + vbits b rest

/-- The virtual bits of `get_total`, `/repo/src/billing.rs:65-73`. -/
def totalVbits : Account B F → Nat
  | [] => 0
  | (_, _, n) :: rest => n + totalVbits rest

/-- What happens to a coder: requests, and moves, after which the new coder is used and the old one dropped. -/
inductive Event (B D : Type) where
  | ask (why : Option B) (r : Req D)
  | mov

/-- The life of a plain coder: the answers, and the coder at the end. -/
def plainLife (c : Coder C D A) : C → List (Event B D) → List A × C
  | x, [] => ([], x)
  | x, .ask _ r :: es => let a := c.ask x r; let l := plainLife c a.1 es; (a.2 :: l.1, l.2)
  | x, .mov :: es => plainLife c (c.mov x).1 es

/-- The life of a coder with an account: the answers, the accounts printed, and the coder at the end. -/
def billedLife (c : Coder C D A) (f : Cost F) (rates : Rates D F) (unknown : B) :
    Billed C B F → List (Event B D) → List A × List (Account B F) × C
  | x, [] => ([], x.drop.toList, x.coder)
  | x, .ask why r :: es =>
    let a := x.ask c f rates unknown why r
    let l := billedLife c f rates unknown a.1 es
    (a.2 :: l.1, l.2)
  | x, .mov :: es =>
    let m := x.mov c
    let l := billedLife c f rates unknown m.1 es
    (l.1, m.2.drop.toList ++ l.2.1, l.2.2)

end Divans.Meter
