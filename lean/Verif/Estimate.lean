import Verif.CdfProps
import Verif.Args

/-!
# The example program that estimates costs

`/repo/examples/util_prior_stream_cost.rs`: reads lines with a number (the prior) and a byte, and prints how many bits the bytes
would cost if each prior had its own adaptive distributions.  Floating point numbers are an arbitrary type `F`; the theorems
choose the real numbers.
-/

namespace Divans.Estimate
open Divans.Cdf

/-- What the program needs from `f64`. -/
structure Arith (F : Type) where
  /-- `0.0` -/
  zero : F
  /-- `+` -/
  add : F → F → F
  /-- `>` -/
  gt : F → F → Bool
  /-- `-((pdf as f64) / (max as f64)).log2()` -/
  bits : Int → Int → F

/-- The result of `eval_stream`, or a panic. -/
inductive Res (α : Type) where
  | ok (a : α)
  | err
  | panic
deriving DecidableEq, Repr

/-- What a `read_line` does; a line contains its end, and is in ASCII (others are not modelled). -/
inductive Get where
  | line (s : List UInt8)
  | interrupted
  | fail
deriving DecidableEq, Repr

/-- A digit in hexadecimal notation. -/
def hexDigit (b : UInt8) : Option Nat :=
  if 48 ≤ b ∧ b ≤ 57 then some (b.toNat - 48)
  else if 97 ≤ b ∧ b ≤ 102 then some (b.toNat - 87)
  else if 65 ≤ b ∧ b ≤ 70 then some (b.toNat - 55)
  else none

/-- The digits in `from_str_radix(…, 16)`. -/
def hexDigits (bound : Nat) : Nat → List UInt8 → Option Nat
  | acc, [] => some acc
  | acc, b :: t =>
    match hexDigit b with
    | none => none
    | some d => if acc * 16 + d < bound then hexDigits bound (acc * 16 + d) t else none

/-- `from_str_radix(…, 16)` for `bound = 2 ^ 64` and `2 ^ 8`: an optional `+` and at least one digit. -/
def parseHex (bound : Nat) (s : List UInt8) : Option Nat :=
  let ds := if s.headD 0 = 43 then s.tail else s
  if ds = [] then none else hexDigits bound 0 ds

/-- Numbers as the program reads them, `/repo/examples/util_prior_stream_cost.rs:39-48, 51-60`. -/
def number (isHex : Bool) (bound : Nat) (s : List UInt8) : Option Nat :=
  if isHex then parseHex bound s else Text.parseNat bound s

/-- White space in ASCII. -/
def isSpace (b : UInt8) : Bool := decide (9 ≤ b ∧ b ≤ 13) || b == 32

/-- `trim`. -/
def trim (s : List UInt8) : List UInt8 := ((s.dropWhile isSpace).reverse.dropWhile isSpace).reverse

/-- A line, `/repo/examples/util_prior_stream_cost.rs:33-60`: split at commas if there is one, otherwise at spaces; the first two
parts are numbers.  Without a second part the index is out of bounds. -/
def parseLine (isHex : Bool) (s : List UInt8) : Res (Nat × Nat) :=
  let line := trim s
  let sep : UInt8 := if 44 ∈ line then 44 else 32
  match number isHex (2 ^ 64) (line.takeWhile (· != sep)) with
  | none => .err
  | some prior =>
    if sep ∈ line then
      match number isHex (2 ^ 8) ((line.dropWhile (· != sep)).tail.takeWhile (· != sep)) with
      | none => .err
      | some val => .ok (prior, val)
    else .panic

/-- The loop over the lines, `/repo/examples/util_prior_stream_cost.rs:23-65`, with the records in the order they come.  A line of
one byte ends it as the end of file does. -/
def records (isHex : Bool) : List Get → Res (List (Nat × Nat))
  | [] => .ok []
  | .interrupted :: t => records isHex t
  | .fail :: _ => .err
  | .line s :: t =>
    if s.length ≤ 1 then .ok []
    else
      match parseLine isHex s with
      | .err => .err
      | .panic => .panic
      | .ok r =>
        match records isHex t with
        | .ok rs => .ok (r :: rs)
        | x => x

/-- `sub_streams.entry(prior).or_insert(…).push(val)`, `/repo/examples/util_prior_stream_cost.rs:61-62`. -/
def push (gs : List (Nat × List Nat)) (r : Nat × Nat) : List (Nat × List Nat) :=
  if r.1 ∈ gs.map Prod.fst then gs.map fun g => if g.1 = r.1 then (g.1, g.2 ++ [r.2]) else g
  else gs ++ [(r.1, [r.2])]

/-- The map after the loop.  Its order in the model is that of the first appearance; the program goes through it in any order. -/
def groups (rs : List (Nat × Nat)) : List (Nat × List Nat) := rs.foldl push []

variable {F : Type}

/-- The variables of the loop over a stream, `/repo/examples/util_prior_stream_cost.rs:84-92`. -/
structure Track (F : Type) where
  highCost : F
  lowCost : F
  /-- `cdf0` -/
  high : Cdf
  /-- `cdf1a` -/
  low : Nat → Cdf

/-- One value, `/repo/examples/util_prior_stream_cost.rs:93-103`.  The counts of `DefaultCDF16` are those of the plain distribution
(C07). -/
def step (a : Arith F) (sp : Speed) (t : Track F) (v : Nat) : Track F :=
  { highCost := a.add t.highCost (a.bits (pdf t.high (v / 16)) (max t.high))
    lowCost := a.add t.lowCost (a.bits (pdf (t.low (v / 16)) (v % 16)) (max (t.low (v / 16))))
    high := blend t.high (v / 16) sp
    low := fun i => if i = v / 16 then blend (t.low i) (v % 16) sp else t.low i }

/-- The loop over a stream. -/
def track (a : Arith F) (sp : Speed) (vs : List Nat) : Track F :=
  vs.foldl (step a sp) ⟨a.zero, a.zero, Cdf.default, fun _ => Cdf.default⟩

/-- `/repo/examples/util_prior_stream_cost.rs:104-111`. -/
def better (a : Arith F) (best : Option F) (cur : F) : Option F :=
  match best with
  | none => some cur
  | some b => some (if a.gt b cur then cur else b)

/-- The loop over the speeds, `/repo/examples/util_prior_stream_cost.rs:81-112`. -/
def bests (a : Arith F) (speeds : List Speed) (vs : List Nat) : Option F × Option F :=
  speeds.foldl (fun b sp => (better a b.1 (track a sp vs).highCost, better a b.2 (track a sp vs).lowCost)) (none, none)

/-- The loop over the streams, `/repo/examples/util_prior_stream_cost.rs:80-115`; `none`: `unwrap` panics. -/
def total (a : Arith F) (speeds : List Speed) : List (Nat × List Nat) → F → Option F
  | [], cost => some cost
  | g :: gs, cost =>
    match bests a speeds g.2 with
    | (some h, some l) => total a speeds gs (a.add (a.add cost h) l)
    | _ => none

/-- `speed_choice`, `/repo/examples/util_prior_stream_cost.rs:69-79`. -/
def choice : Option Speed → List Speed
  | some s => [s]
  | none => Args.named.map Prod.snd

/-- The speed from the arguments of the program, `/repo/examples/util_prior_stream_cost.rs:124-128`: the last one; each has to be a
speed, otherwise `unwrap` panics (`none`). -/
def speedArg : List (List UInt8) → Option (Option Speed)
  | [] => some none
  | [s] => (Args.parseSpeed s).map some
  | s :: t => (Args.parseSpeed s).bind fun _ => speedArg t

/-- `eval_stream`, `/repo/examples/util_prior_stream_cost.rs:15-117`, going through the map in the order that `order` gives. -/
def evalStream (a : Arith F) (order : List (Nat × List Nat) → List (Nat × List Nat)) (speed : Option Speed) (isHex : Bool)
    (src : List Get) : Res F :=
  match records isHex src with
  | .err => .err
  | .panic => .panic
  | .ok rs =>
    match total a (choice speed) (order (groups rs)) a.zero with
    | some c => .ok c
    | none => .panic

end Divans.Estimate
