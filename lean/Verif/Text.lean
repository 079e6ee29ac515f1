/-!
# The textual command format

Models /repo/src/bin/util.rs:166-286 and `command_parse`, /repo/src/bin/divans.rs:191-483.  A line is the
list of its UTF-8 bytes, already trimmed.  Cutting it at spaces is the same for bytes as for characters,
because the byte 32 occurs in UTF-8 only as a space.
-/

namespace Divans.Text

/-- Result: a value, an error, or a panic. -/
inductive Out (α : Type) where
  | ok (a : α)
  | err
  | panic
  deriving DecidableEq, Repr

/-- `try!`. -/
def Out.bind {α β : Type} (x : Out α) (f : α → Out β) : Out β :=
  match x with
  | .ok a => f a
  | .err => .err
  | .panic => .panic

/-- A missing value becomes an error. -/
def orErr {α : Type} : Option α → Out α
  | some a => .ok a
  | none => .err

/-- A continuation byte of UTF-8. -/
def isCont (b : UInt8) : Bool := 0x80 ≤ b && b ≤ 0xBF

/-- May `c` follow the first byte `b` of a character of three bytes? -/
def second3 (b c : UInt8) : Bool :=
  if b = 0xE0 then 0xA0 ≤ c && c ≤ 0xBF else if b = 0xED then 0x80 ≤ c && c ≤ 0x9F else isCont c

/-- May `c` follow the first byte `b` of a character of four bytes? -/
def second4 (b c : UInt8) : Bool :=
  if b = 0xF0 then 0x90 ≤ c && c ≤ 0xBF else if b = 0xF4 then 0x80 ≤ c && c ≤ 0x8F else isCont c

/-- `core::str::from_utf8(s).is_ok()`, as the standard library defines it. -/
def validUtf8 : List UInt8 → Bool
  | [] => true
  | b :: t =>
    if b < 0x80 then validUtf8 t
    else if 0xC2 ≤ b ∧ b ≤ 0xDF then
      match t with
      | c :: t' => isCont c && validUtf8 t'
      | _ => false
    else if 0xE0 ≤ b ∧ b ≤ 0xEF then
      match t with
      | c :: d :: t' => second3 b c && isCont d && validUtf8 t'
      | _ => false
    else if 0xF0 ≤ b ∧ b ≤ 0xF4 then
      match t with
      | c :: d :: e :: t' => second4 b c && isCont d && isCont e && validUtf8 t'
      | _ => false
    else false

/-- `io::Error::new(io::ErrorKind::InvalidInput, core::str::from_utf8(s).unwrap())`. -/
def complain {α : Type} (s : List UInt8) : Out α := if validUtf8 s then .err else .panic

/-- `hex_to_nibble`, /repo/src/bin/util.rs:166-176. -/
def hexToNibble (b : UInt8) : Option UInt8 :=
  if 65 ≤ b ∧ b ≤ 70 then some (b - 65 + 10)
  else if 97 ≤ b ∧ b ≤ 102 then some (b - 97 + 10)
  else if 48 ≤ b ∧ b ≤ 57 then some (b - 48)
  else none

/-- The loop of `hex_slice_to_vec`, /repo/src/bin/util.rs:265-280; `none` is the error in it. -/
def hexLoop : List UInt8 → Nat → UInt8 → List UInt8 → Option (Nat × List UInt8)
  | [], rem, _, out => some (rem, out)
  | b :: t, rem, buf, out =>
    match hexToNibble b with
    | some x =>
      if rem + 1 = 2 then hexLoop t 0 ((buf <<< 4) ||| x) (out ++ [(buf <<< 4) ||| x])
      else hexLoop t (rem + 1) ((buf <<< 4) ||| x) out
    | none => if b = 10 ∨ b = 9 ∨ b = 13 then hexLoop t rem buf out else none

/-- `hex_slice_to_vec`, /repo/src/bin/util.rs:261-286. -/
def hexSlice (s : List UInt8) : Out (List UInt8) :=
  match hexLoop s 0 0 [] with
  | none => complain s
  | some (rem, out) => if rem ≠ 0 then .err else .ok out

/-- The variables of the loop of `quoted_slice_to_vec`, /repo/src/bin/util.rs:181-185. -/
structure Q where
  out : List UInt8
  mustEnd : Bool
  escaped : Bool
  hexed : Bool
  upper : Option UInt8
  deriving DecidableEq, Repr

/-- The character a single-letter escape stands for, /repo/src/bin/util.rs:217-241. -/
def escape (b : UInt8) : Option UInt8 :=
  if b = 110 then some 10
  else if b = 114 then some 13
  else if b = 116 then some 9
  else if b = 92 then some 92
  else if b = 39 then some 39
  else if b = 34 then some 34
  else if b = 63 then some 63
  else none

/-- The body of the loop, /repo/src/bin/util.rs:187-245; `none` is an error. -/
def qStep (q : Q) (b : UInt8) : Option Q :=
  if q.mustEnd then none
  else if b = 34 ∧ q.escaped = false then some { q with mustEnd := true }
  else if b = 92 ∧ q.escaped = false then some { q with escaped := true }
  else if q.escaped then
    if q.hexed then
      match hexToNibble b with
      | some nib =>
        match q.upper with
        | some u =>
          some { q with out := q.out ++ [(u <<< 4) ||| nib], hexed := false, escaped := false, upper := none }
        | none => some { q with upper := some nib }
      | none => none
    else if b = 120 then some { q with hexed := true }
    else
      match escape b with
      | some x => some { q with out := q.out ++ [x], escaped := false }
      | none => none
  else some { q with out := q.out ++ [b] }

/-- The loop. -/
def qLoop : Q → List UInt8 → Option Q
  | q, [] => some q
  | q, b :: t => (qStep q b).bind fun q' => qLoop q' t

/-- `quoted_slice_to_vec`, /repo/src/bin/util.rs:177-249. -/
def quotedSlice (s : List UInt8) : Out (List UInt8) :=
  if s.length < 2 then complain s
  else
    match qLoop ⟨[], false, false, false, none⟩ s.tail with
    | none => complain s
    | some q => if q.hexed || q.escaped || !q.mustEnd then complain s else .ok q.out

/-- `literal_slice_to_vec`, /repo/src/bin/util.rs:251-260. -/
def literalSlice (s : List UInt8) : Out (List UInt8) :=
  match s with
  | [] => .ok []
  | b :: _ => if b = 34 then quotedSlice s else hexSlice s

/-! ## Numbers -/

/-- Digits of an unsigned number, `from_str_radix` of the standard library: every intermediate value must
be below `bound`. -/
def digits (bound : Nat) : Nat → List UInt8 → Option Nat
  | acc, [] => some acc
  | acc, b :: t =>
    if 48 ≤ b ∧ b ≤ 57 ∧ acc * 10 + (b.toNat - 48) < bound then digits bound (acc * 10 + (b.toNat - 48)) t
    else none

/-- `parse::<u32>()` for `bound = 2 ^ 32` and so on: an optional `+` and at least one digit. -/
def parseNat (bound : Nat) (s : List UInt8) : Option Nat :=
  let ds := if s.headD 0 = 43 then s.tail else s
  if ds = [] then none else digits bound 0 ds

/-- `parse::<i64>()`. -/
def parseInt (s : List UInt8) : Option Int :=
  if s.headD 0 = 45 then
    if s.tail = [] then none else (digits (2 ^ 63 + 1) 0 s.tail).map fun n => -(n : Int)
  else (parseNat (2 ^ 63) s).map fun n => (n : Int)

/-! ## Commands -/

/-- "window" -/
def kw_window : List UInt8 := [119, 105, 110, 100, 111, 119]
/-- "prediction" -/
def kw_prediction : List UInt8 := [112, 114, 101, 100, 105, 99, 116, 105, 111, 110]
/-- "ctype" -/
def kw_ctype : List UInt8 := [99, 116, 121, 112, 101]
/-- "ltype" -/
def kw_ltype : List UInt8 := [108, 116, 121, 112, 101]
/-- "dtype" -/
def kw_dtype : List UInt8 := [100, 116, 121, 112, 101]
/-- "copy" -/
def kw_copy : List UInt8 := [99, 111, 112, 121]
/-- "from" -/
def kw_from : List UInt8 := [102, 114, 111, 109]
/-- "dict" -/
def kw_dict : List UInt8 := [100, 105, 99, 116]
/-- "word" -/
def kw_word : List UInt8 := [119, 111, 114, 100]
/-- "func" -/
def kw_func : List UInt8 := [102, 117, 110, 99]
/-- "insert" -/
def kw_insert : List UInt8 := [105, 110, 115, 101, 114, 116]
/-- "rndins" -/
def kw_rndins : List UInt8 := [114, 110, 100, 105, 110, 115]
/-- "utf8" -/
def kw_utf8 : List UInt8 := [117, 116, 102, 56]
/-- "sign" -/
def kw_sign : List UInt8 := [115, 105, 103, 110]
/-- "lsb6" -/
def kw_lsb6 : List UInt8 := [108, 115, 98, 54]
/-- "msb6" -/
def kw_msb6 : List UInt8 := [109, 115, 98, 54]
/-- "lcontextmap" -/
def kw_lcontextmap : List UInt8 := [108, 99, 111, 110, 116, 101, 120, 116, 109, 97, 112]
/-- "dcontextmap" -/
def kw_dcontextmap : List UInt8 := [100, 99, 111, 110, 116, 101, 120, 116, 109, 97, 112]
/-- "mixingvalues" -/
def kw_mixingvalues : List UInt8 := [109, 105, 120, 105, 110, 103, 118, 97, 108, 117, 101, 115]
/-- "cmspeedinc" -/
def kw_cmspeedinc : List UInt8 := [99, 109, 115, 112, 101, 101, 100, 105, 110, 99]
/-- "cmspeedmax" -/
def kw_cmspeedmax : List UInt8 := [99, 109, 115, 112, 101, 101, 100, 109, 97, 120]
/-- "stspeedinc" -/
def kw_stspeedinc : List UInt8 := [115, 116, 115, 112, 101, 101, 100, 105, 110, 99]
/-- "stspeedmax" -/
def kw_stspeedmax : List UInt8 := [115, 116, 115, 112, 101, 101, 100, 109, 97, 120]
/-- "mxspeedinc" -/
def kw_mxspeedinc : List UInt8 := [109, 120, 115, 112, 101, 101, 100, 105, 110, 99]
/-- "mxspeedmax" -/
def kw_mxspeedmax : List UInt8 := [109, 120, 115, 112, 101, 101, 100, 109, 97, 120]

/-- `s.split(' ')`. -/
def split (sep : UInt8) : List UInt8 → List (List UInt8)
  | [] => [[]]
  | b :: t =>
    if b = sep then [] :: split sep t
    else
      match split sep t with
      | [] => [[b]]
      | x :: xs => (b :: x) :: xs

/-- `PredictionModeContextMap` as far as `command_parse` fills it: how the brotli crate packs the values
is not modelled. -/
structure Pred where
  mode : Nat
  litMap : List Nat
  distMap : List Nat
  mixing : List Nat
  /-- for each of the three speeds, two pairs of increment and maximum -/
  speeds : List (List (Nat × Nat))
  deriving DecidableEq, Repr

/-- Commands. -/
inductive Cmd where
  | pred (p : Pred)
  | switchLit (block stride : Nat)
  | switchCmd (block : Nat)
  | switchDist (block : Nat)
  | copy (num distance : Nat)
  | dict (finalSize wordSize wordId transform : Nat)
  | lit (data : List UInt8) (highEntropy : Bool)
  deriving DecidableEq, Repr

/-- The tokens after the first occurrence of a key, `find` and `split_at`, for instance
/repo/src/bin/divans.rs:218-219. -/
def afterKey (key : List UInt8) (toks : List (List UInt8)) : List (List UInt8) :=
  (toks.dropWhile (· ≠ key)).tail

/-- Numbers from 0 to `limit` up to the first token that is not a number; at most `most` of them,
/repo/src/bin/divans.rs:219-233, 238-253, 258-279. `none` is an error. -/
def numbers (limit most : Nat) : List (List UInt8) → Option (List Nat)
  | [] => some []
  | t :: ts =>
    match parseInt t with
    | none => some []
    | some v =>
      if most = 0 then none
      else if 0 ≤ v ∧ v ≤ limit then (numbers limit (most - 1) ts).map (v.toNat :: ·)
      else none

/-- One or two speeds, /repo/src/bin/divans.rs:290-315; `none` is an error. -/
def speedVals : Nat → List (List UInt8) → Option (List Nat)
  | 0, _ => some []
  | _, [] => some []
  | k + 1, t :: ts =>
    match parseNat (2 ^ 16) t with
    | none => some []
    | some v => if v ≤ 16384 then (speedVals k ts).map (v :: ·) else none

/-- Both values of one kind of speed, missing ones are 0. -/
def speedPair (incKey maxKey : List UInt8) (toks : List (List UInt8)) : Option (List (Nat × Nat)) :=
  (speedVals 2 (afterKey incKey toks)).bind fun a =>
    (speedVals 2 (afterKey maxKey toks)).map fun b =>
      [(a.getD 0 0, b.getD 0 0), (a.getD 1 0, b.getD 1 0)]

/-- The prediction mode, /repo/src/bin/divans.rs:205-212. -/
def parseMode (t : List UInt8) : Option Nat :=
  if t = kw_utf8 then some 2
  else if t = kw_sign then some 3
  else if t = kw_lsb6 then some 0
  else if t = kw_msb6 then some 1
  else none

/-- The arm `prediction`, /repo/src/bin/divans.rs:200-322. -/
def parsePred (toks : List (List UInt8)) : Out (Option Cmd) :=
  match toks[1]? with
  | none => .err
  | some m =>
    (orErr (parseMode m)).bind fun mode =>
    (orErr (numbers 255 toks.length (afterKey kw_lcontextmap toks))).bind fun lm =>
    (orErr (numbers 255 toks.length (afterKey kw_dcontextmap toks))).bind fun dm =>
    (orErr (numbers 8 8192 (afterKey kw_mixingvalues toks))).bind fun mix =>
    (orErr (speedPair kw_cmspeedinc kw_cmspeedmax toks)).bind fun cm =>
    (orErr (speedPair kw_stspeedinc kw_stspeedmax toks)).bind fun st =>
    (orErr (speedPair kw_mxspeedinc kw_mxspeedmax toks)).bind fun mx =>
      .ok (some (.pred ⟨mode, lm, dm, mix ++ List.replicate (8192 - mix.length) 0, [cm, st, mx]⟩))

/-- The arm for the three block switches, /repo/src/bin/divans.rs:323-359.  The test `len() < 2` before
`command_vec[2]` is true to the code. -/
def parseSwitch (cmd : List UInt8) (toks : List (List UInt8)) : Out (Option Cmd) :=
  if toks.length ≠ 2 ∧ (toks.length ≠ 3 ∨ cmd ≠ kw_ltype) then .err
  else
    (orErr ((toks[1]?).bind (parseNat (2 ^ 32)))).bind fun n =>
      if cmd = kw_ctype then .ok (some (.switchCmd (n % 256)))
      else if cmd = kw_dtype then .ok (some (.switchDist (n % 256)))
      else if toks.length < 2 then .ok (some (.switchLit (n % 256) 0))
      else
        match toks[2]? with
        | none => .panic
        | some t =>
          (orErr (parseNat (2 ^ 32) t)).bind fun stride =>
            if stride > 8 then .err else .ok (some (.switchLit (n % 256) stride))

/-- The arm `copy`, /repo/src/bin/divans.rs:360-388. -/
def parseCopy (toks : List (List UInt8)) : Out (Option Cmd) :=
  match toks with
  | _ :: n :: f :: d :: _ =>
    (orErr (parseNat (2 ^ 32) n)).bind fun len =>
      if f ≠ kw_from then .err
      else
        (orErr (parseNat (2 ^ 32) d)).bind fun dist =>
          if len = 0 then .ok none else .ok (some (.copy len dist))
  | _ => .err

/-- The search for `func` among the tokens from the fifth on, /repo/src/bin/divans.rs:418-436. -/
def findFunc : List (List UInt8) → Option (List UInt8)
  | a :: b :: t => if a = kw_func then some b else findFunc (b :: t)
  | _ => none

/-- The arm `dict`, /repo/src/bin/divans.rs:389-436. -/
def parseDict (toks : List (List UInt8)) : Out (Option Cmd) :=
  match toks with
  | _ :: n :: w :: id :: r :: r2 :: rest =>
    (orErr (parseNat (2 ^ 32) n)).bind fun len =>
      if w ≠ kw_word then .err
      else
        match split 44 id with
        | [a, b] =>
          (orErr (parseNat (2 ^ 32) a)).bind fun wlen =>
          (orErr (parseNat (2 ^ 32) b)).bind fun widx =>
            match findFunc (r :: r2 :: rest) with
            | none => .err
            | some t =>
              (orErr (parseNat (2 ^ 32) t)).bind fun tr =>
                .ok (some (.dict (len % 256) (wlen % 256) widx (tr % 256)))
        | _ => .err
  | _ => .err

/-- The arm `insert` and `rndins`, /repo/src/bin/divans.rs:437-480, built without external
probabilities. -/
def parseInsert (s cmd : List UInt8) (toks : List (List UInt8)) : Out (Option Cmd) :=
  match toks with
  | t0 :: t1 :: t2 :: rest =>
    (orErr (parseNat (2 ^ 64) t1)).bind fun len =>
      if len = 0 then .ok none
      else
        (literalSlice (s.drop (t0.length + t1.length + 2))).bind fun data =>
          (match rest with
            | t3 :: _ =>
              if t2 ≠ [] ∧ t2.headD 0 ≠ 34 then
                (hexSlice t3).bind fun prob => if prob.length = len * 8 then .ok prob else .panic
              else .ok []
            | [] => .ok []).bind fun probs =>
          if data.length ≠ len then .err
          else if probs ≠ [] then .err
          else .ok (some (.lit data (cmd == kw_rndins)))
  | [_, t1] => if t1 = [48] then .ok none else .err
  | _ => .err

/-- `command_parse`, /repo/src/bin/divans.rs:191-483; `none` when there is no command on the line. -/
def parse (s : List UInt8) : Out (Option Cmd) :=
  match split 32 s with
  | [] => .panic
  | cmd :: ts =>
    if cmd = kw_window then .ok none
    else if cmd = kw_prediction then parsePred (cmd :: ts)
    else if cmd = kw_ctype ∨ cmd = kw_ltype ∨ cmd = kw_dtype then parseSwitch cmd (cmd :: ts)
    else if cmd = kw_copy then parseCopy (cmd :: ts)
    else if cmd = kw_dict then parseDict (cmd :: ts)
    else if cmd = kw_insert ∨ cmd = kw_rndins then parseInsert s cmd (cmd :: ts)
    else .err

/-- `window_parse`, /repo/src/bin/divans.rs:153-174; the number as `i32`. -/
def parseWindow (s : List UInt8) : Out Int :=
  match split 32 s with
  | [] => .panic
  | [_] => .err
  | w :: n :: _ =>
    if w ≠ kw_window then .err
    else
      (orErr (parseInt n)).bind fun v => if -2147483648 ≤ v ∧ v < 2147483648 then .ok v else .err

end Divans.Text
