import Verif.CVec
import Verif.Ffi

/-!
# The example program of the C interface

`main` of `/repo/c/example.c` with its command line, `/repo/c/arg.h`.  What `compress` and `decompress` collect is the concatenation of
what they push: that the buffers hold exactly that is C95.  File names and arguments are bytes without the zero at the end.
-/

namespace Divans.ExMain

open Divans.Ffi Divans.CVec

/-- A decimal digit. -/
def isDigit (b : UInt8) : Bool := decide (48 ≤ b.toNat ∧ b.toNat ≤ 57)

/-- White space for `atoi`: blank, and tab to carriage return. -/
def isSpace (b : UInt8) : Bool := decide (b.toNat = 32 ∨ (9 ≤ b.toNat ∧ b.toNat ≤ 13))

/-- `atoi` of the C library, converted to the `uint32_t` that `divans_set_option` takes.  Numbers that do not fit an `int` are undefined
in C; here it is what glibc does: limited to 64 bits, then cut.  Used in `/repo/c/arg.h:16,20,28,32,40,60,68`. -/
def num (t : List UInt8) : Nat :=
  let t := t.dropWhile isSpace
  let neg := t.head? = some 45
  let t := if t.head? = some 45 ∨ t.head? = some 43 then t.drop 1 else t
  let n := (t.takeWhile isDigit).foldl (fun a b => 10 * a + (b.toNat - 48)) 0
  ((if neg then - (Int.ofNat (min n (2 ^ 63))) else Int.ofNat (min n (2 ^ 63 - 1))) % 2 ^ 32).toNat

/-- `strstr(arg, p) == arg`. -/
def starts (p a : List UInt8) : Bool := p.isPrefixOf a

/-- One round of the first loop of `set_options`: selectors and values, `/repo/c/arg.h:15-51`.  `argv[i] + 3 != '\0'` compares a pointer
with 0 and always holds. -/
def pass1 (a : List UInt8) : List (Nat × Nat) :=
  (if starts [45, 113] a then [(1, num (a.drop 2))] else []) ++
  (if starts [45, 112] a then [(17, num (a.drop 2))] else []) ++
  (if starts [45, 108] a then [(5, 0)] else []) ++
  (if starts [45, 119] a then [(2, num (a.drop 2))] else []) ++
  (if starts [45, 97] a then [(8, num (a.drop 2))] else []) ++
  (if starts [45, 99, 109] a then [(7, 1), (19, num (a.drop 3))] else []) ++
  (if starts [45, 98, 115] a then [(10, 1)] else []) ++
  (if starts [45, 97, 115] a then [(10, 2)] else [])

/-- One round of the second loop, `/repo/c/arg.h:54-63`. -/
def pass2 (usedCm : Bool) (a : List UInt8) : List (Nat × Nat) :=
  if starts [45, 115] a then
    (if usedCm then [(4, 1)] else []) ++ (if a ≠ [45, 115] then [(9, num (a.drop 2))] else [])
  else []

/-- One round of the third loop, `/repo/c/arg.h:66-73`. -/
def pass3 (a : List UInt8) : List (Nat × Nat) :=
  if starts [45, 109] a then (if a ≠ [45, 109] then [(4, num (a.drop 2))] else [(4, 2)]) else []

/-- `set_options`: what is set, in order; each setting is asserted to be accepted, `/repo/c/arg.h:10-75`. -/
def settings (args : List (List UInt8)) : List (Nat × Nat) :=
  args.flatMap pass1 ++ args.flatMap (pass2 (args.any (starts [45, 99, 109]))) ++ args.flatMap pass3

/-- `find_first_arg`, `/repo/c/arg.h:1-9`. -/
def firstArg (args : List (List UInt8)) : Option (List UInt8) := args.find? fun a => decide (a.head? ≠ some 45)

/-- `example`, with the zero byte that `sizeof` counts, `/repo/c/example.c:12-19`. -/
def text : List UInt8 :=
  [77, 97, 114, 121, 32, 104, 97, 100, 32, 97, 32, 108, 105, 116, 116, 108, 101, 32, 108, 97, 109, 98, 46, 32, 73, 116, 115,
    32, 102, 108, 101, 101, 99, 101, 32, 119, 97, 115, 32, 119, 104, 105, 116, 101, 32, 97, 115, 32, 115, 110, 111, 119, 46,
    10, 65, 110, 100, 32, 101, 118, 101, 114, 121, 32, 119, 104, 101, 114, 101, 32, 116, 104, 97, 116, 32, 77, 97, 114, 121,
    32, 119, 101, 110, 116, 44, 32, 116, 104, 101, 32, 108, 97, 109, 98, 32, 119, 97, 115, 32, 115, 117, 114, 101, 32, 116,
    111, 32, 103, 111, 46, 10, 73, 116, 32, 102, 111, 108, 108, 111, 119, 101, 100, 32, 104, 101, 114, 32, 116, 111, 32,
    115, 99, 104, 111, 111, 108, 32, 111, 110, 101, 32, 100, 97, 121, 32, 119, 104, 105, 99, 104, 32, 119, 97, 115, 32, 97,
    103, 97, 105, 110, 115, 116, 32, 116, 104, 101, 32, 114, 117, 108, 101, 46, 10, 73, 116, 32, 109, 97, 100, 101, 32, 116,
    104, 101, 32, 99, 104, 105, 108, 100, 114, 101, 110, 32, 108, 97, 117, 103, 104, 32, 97, 110, 100, 32, 112, 108, 97,
    121, 32, 116, 111, 32, 115, 101, 101, 32, 97, 32, 108, 97, 109, 98, 32, 97, 116, 32, 115, 99, 104, 48, 48, 108, 33, 10,
    10, 10, 10, 48, 32, 49, 32, 49, 32, 50, 32, 51, 32, 53, 32, 56, 32, 49, 51, 32, 50, 49, 32, 51, 52, 32, 53, 53, 32, 56,
    57, 32, 49, 52, 52, 32, 50, 51, 51, 32, 51, 55, 55, 32, 54, 49, 48, 32, 57, 56, 55, 32, 49, 53, 57, 55, 32, 50, 53, 56,
    52, 32, 52, 49, 56, 49, 32, 54, 55, 54, 53, 10, 17, 153, 47, 252, 254, 239, 255, 216, 253, 156, 67, 65, 100, 100, 105,
    116, 105, 111, 110, 97, 108, 32, 116, 101, 115, 116, 105, 110, 103, 32, 99, 104, 97, 114, 97, 99, 116, 101, 114, 115,
    32, 104, 101, 114, 101, 0]

/-- What is compressed; `fs` is what the file of a name contains, or that it cannot be opened.  `none`: `main` returns -1.
`/repo/c/example.c:92-110`.  Only files that can be read as a whole are modelled. -/
def input (fs : List UInt8 → Option (List UInt8)) (args : List (List UInt8)) : Option (List UInt8) :=
  match firstArg args with
  | none => some text
  | some name =>
    match fs name with
    | none => some text
    | some content => if content = [] then none else some content

/-- How `main` ends: it returns -1 for an empty file; an assertion of `set_options` fails; it aborts because of a result that is not
success, because of sizes that differ, because of contents that differ; or it has printed its line and returns 0. -/
inductive Outcome
  | empty
  | refused
  | failed (code : Nat)
  | sizes (back len : Nat)
  | contents
  | line (numbers : List (List UInt8))
  deriving DecidableEq, Repr

/-- The comparison and the report, `/repo/c/example.c:124-186`. -/
def compare (data file back : List UInt8) : Outcome :=
  if back.length ≠ data.length then .sizes back.length data.length
  else if back ≠ data then .contents
  else .line (report data.length file.length)

/-- `main`, `/repo/c/example.c:82-195`; `buf` and `buf'` are the buffers of `compress` and `decompress` (65536 bytes that are not
initialised), `skip` is what the constructor of the decompressor is given for its missing argument.  Writing to the standard output is
taken to succeed.  `none`: a panic, or not ended within `fuel`. -/
def main (b : Other) (dw : Nat → Nat → Nat → List UInt8) (fuel : Nat) (buf buf' : List UInt8) (skip : Bool)
    (fs : List UInt8 → Option (List UInt8)) (args : List (List UInt8)) : Option Outcome :=
  match input fs args with
  | none => some .empty
  | some data =>
    match setAll .default (settings args) with
    | none => some .refused
    | some o =>
      match compress dw fuel buf (.options o : State b) data with
      | none => none
      | some (file, code) =>
        if code ≠ 0 then some (.failed code)
        else
          match decompress dw fuel buf' skip file with
          | none => none
          | some (back, code) => if code ≠ 0 then some (.failed code) else some (compare data file back)

end Divans.ExMain
