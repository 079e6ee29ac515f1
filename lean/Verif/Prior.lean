import Mathlib.Data.List.Basic
import Mathlib.Algebra.BigOperators.Group.List.Basic

/-!
# Tables of models

`/repo/src/priors.rs`: the macro `define_prior_struct!` makes a table out of a list of types of models,
each with its dimensions.  All models of all types lie in one array; `get` finds the place of the model of a
type with a tuple of numbers.

A table is here the list given to the macro.  There are two builds: with `debug_assert!` (`dbg = true`) and
without.  A failed assertion, or a place outside the array, is `none`.
-/

namespace Divans.Prior

/-- The arguments of `define_prior_struct!`: types of models with their dimensions,
`/repo/src/priors.rs:75-81`. -/
abbrev Table (B : Type) := List (B × List Nat)

section
variable {B : Type} [DecidableEq B]

/-- `NUM_ALL_PRIORS`, `sum_product_cdr!`, `/repo/src/priors.rs:91, 245-248`.  (The code multiplies in `u32`;
the tables it makes have fewer than 2^18 models.) -/
def total : Table B → Nat
  | [] => 0
  | (_, dims) :: rest => dims.prod + total rest

/-- `define_prior_struct_unary_helper!`, `/repo/src/priors.rs:200-209`: the dimensions of a type; the last
entry is taken without looking at the type. -/
def dimsOf (b : B) : Table B → List Nat
  | [] => []
  | [(_, dims)] => dims
  | (k, dims) :: e :: rest => if b ≠ k then dimsOf b (e :: rest) else dims

/-- `num_prior`, `/repo/src/priors.rs:125-127`. -/
def numPrior (t : Table B) (b : B) : Nat := (dimsOf b t).prod

/-- `num_dimensions`, `/repo/src/priors.rs:128-130`. -/
def numDims (t : Table B) (b : B) : Nat := (dimsOf b t).length

/-- `index_to_billing_type`, `/repo/src/priors.rs:131-133`. -/
def typeAt (t : Table B) (i : Nat) : Option B := (t.map Prod.fst)[i]?

/-- `define_prior_struct_helper_offset!`, `/repo/src/priors.rs:189-198`. -/
def offset (dbg : Bool) (b : B) : Table B → Option Nat
  | [] => none
  | [(k, _)] => if dbg && b ≠ k then none else some 0
  | (k, dims) :: e :: rest =>
    if b = k then some 0 else (offset dbg b (e :: rest)).map (dims.prod + ·)

/-- `car` of an index, `/repo/src/priors.rs:27-57`.  (A dimension the index does not have is 1, as `cdr`
fills up with ones.) -/
def car (idx : List Nat) : Nat := idx.headD 1

/-- `linearize_index!`, `/repo/src/priors.rs:211-224`. -/
def linear (dbg : Bool) : List Nat → List Nat → Option Nat
  | [], _ => none
  | [d], idx => if dbg && ¬ car idx < d then none else some (car idx)
  | d :: e :: ds, idx =>
    if dbg && ¬ car idx < d then none
    else (linear dbg (e :: ds) idx.tail).map fun r => car idx + d * r

/-- `define_prior_struct_helper_collapse_index!`, `/repo/src/priors.rs:226-237`: again the last entry is
taken without looking at the type. -/
def collapse (dbg : Bool) (b : B) (idx : List Nat) : Table B → Option Nat
  | [] => none
  | [(_, dims)] => linear dbg dims idx
  | (k, dims) :: e :: rest =>
    if b = k then linear dbg dims idx else (collapse dbg b idx (e :: rest)).map (dims.prod + ·)

/-- `get`, `/repo/src/priors.rs:113-123`: the place in an array of `NUM_ALL_PRIORS` models. -/
def get (dbg : Bool) (t : Table B) (b : B) (idx : List Nat) : Option Nat :=
  if dbg && idx.length ≠ numDims t b then none
  else (collapse dbg b idx t).bind fun i => if i < total t then some i else none

/-- `get_with_raw_index` and `get_with_raw_index_mut`, `/repo/src/priors.rs:98-111`. -/
def getRaw (dbg : Bool) (t : Table B) (b : B) (i : Nat) : Option Nat :=
  if dbg && ¬ i < numPrior t b then none
  else (offset dbg b t).bind fun o => if i + o < total t then some (i + o) else none

/-- A use of a table: the model of a type with an index is changed (`get` returns a mutable reference). -/
structure Use (B T : Type) where
  type : B
  idx : List Nat
  change : T → T

/-- Change one model; `none` when the look-up panics. -/
def touch {T : Type} (dbg : Bool) (t : Table B) (mem : List T) (u : Use B T) : Option (List T) :=
  (get dbg t u.type u.idx).map fun i => mem.modify i u.change

/-- A history of uses of a fresh table, whose models are all in the default state `d`
(`alloc_cell(NUM_ALL_PRIORS)`, `/repo/src/codec/interface.rs:725-740`). -/
def after {T : Type} (dbg : Bool) (t : Table B) : List T → List (Use B T) → Option (List T)
  | mem, [] => some mem
  | mem, u :: us => (touch dbg t mem u).bind fun m => after dbg t m us

end

end Divans.Prior
