import Verif.Ffi
import Verif.Text

/-!
# The arguments of the command line program

`/repo/src/bin/divans.rs:1197-1591`: the loop of `main` over its arguments.  An argument is the list of its bytes; `env::args`
panics when an argument is not valid text, before the loop, so arguments are valid UTF-8 here.  All characters the loop looks
for are ASCII, so that characters and bytes are the same for it.
-/

namespace Divans.Args
open Divans.Cdf (Speed)

/-- The bytes of a text. -/
macro:max "b!" s:str : term => do
  let bs := s.getString.toUTF8.toList.map fun b => Lean.Syntax.mkNumLit (toString b.toNat)
  `(([$(bs.toArray),*] : List UInt8))

/-! ## Words -/

/-- `str::trim_matches` for one character. -/
def trimByte (s : List UInt8) (c : UInt8) : List UInt8 :=
  ((s.dropWhile (· == c)).reverse.dropWhile (· == c)).reverse

/-- A chain of `trim_matches`, one for each character of the name of the option,
e.g. `/repo/src/bin/divans.rs:1250-1261`. -/
def strip (name s : List UInt8) : List UInt8 := name.foldl trimByte s

/-- `parse::<i32>()`. -/
def parseI32 (s : List UInt8) : Option Int :=
  if s.headD 0 = 45 then
    if s.tail = [] then none else (Text.digits (2 ^ 31 + 1) 0 s.tail).map fun n => -(n : Int)
  else (Text.parseNat (2 ^ 31) s).map fun n => (n : Int)

/-- The speeds that have a name, `/repo/src/probability/interface.rs:321-328, 379-387`. -/
def named : List (List UInt8 × Speed) :=
  [(b!"GEOLOGIC", ⟨1, 0x4000⟩), (b!"GLACIAL", ⟨4, 0xa00⟩), (b!"MUD", ⟨0x10, 0x2000⟩), (b!"SLOW", ⟨0x20, 0x1000⟩),
    (b!"MED", ⟨0x30, 0x4000⟩), (b!"FAST", ⟨0x60, 0x4000⟩), (b!"PLANE", ⟨0x80, 0x4000⟩), (b!"ROCKET", ⟨0x180, 0x4000⟩)]

/-- `Speed::from_str(…).unwrap()`, `/repo/src/probability/interface.rs:376-419`; `none` is a panic.  Without a comma the code
looks for a number in the empty text and fails.  It counts characters up to the comma and cuts at that many bytes: if they
differ, what it cuts off is no number, and neither is what is before the comma. -/
def parseSpeed (s : List UInt8) : Option Speed :=
  match named.find? (fun p => p.1 == s) with
  | some p => some p.2
  | none =>
    if 44 ∈ s then
      match Text.parseNat (2 ^ 16) (s.takeWhile (· != 44)), Text.parseNat (2 ^ 16) ((s.dropWhile (· != 44)).tail) with
      | some inc, some lim => if lim ≤ 16384 ∧ inc < 16384 then some ⟨inc, lim⟩ else none
      | _, _ => none
    else none

/-! ## Options -/

/-- What is asked of an argument. -/
inductive Test where
  | exact (s : List UInt8)
  | starts (s : List UInt8)

/-- Whether an argument is of that form. -/
def Test.holds : Test → List UInt8 → Bool
  | .exact s, a => a == s
  | .starts s, a => s.isPrefixOf a

/-- The options. -/
inductive Key where
  | d | serial | nocrc | dashes | bytescore | utf8 | msb | lsb | sign | bs | benchmark | recode | lgwin | q95x | q95 | quality
  | prior | window | brotlistride | advbrotlistride | expbrotlistride | nostride | strideNum | stride | cm | nocm | i | O0 | O | c
  | nobrotli | findprior | defaultprior | mixing | findspeed | speed | speedlow | cmspeed | cmspeedlow | help | version
  deriving DecidableEq, Repr

/-- The tests in the order of the loop, `/repo/src/bin/divans.rs:1228-1578`. -/
def rules : List (Test × Key) :=
  [(.exact b!"-d", .d), (.exact b!"-serial", .serial), (.exact b!"-skipcrc", .nocrc), (.exact b!"-nocrc", .nocrc),
    (.exact b!"--", .dashes), (.starts b!"-bytescore", .bytescore), (.exact b!"-utf8", .utf8), (.exact b!"-msb", .msb),
    (.exact b!"-lsb", .lsb), (.starts b!"-sign", .sign), (.starts b!"-bs", .bs), (.starts b!"-benchmark", .benchmark),
    (.exact b!"--recode", .recode), (.starts b!"-lgwin", .lgwin), (.exact b!"-q9.5x", .q95x), (.starts b!"-q9.5", .q95),
    (.starts b!"-q", .quality), (.starts b!"-p", .prior), (.starts b!"-w", .window),
    (.exact b!"-brotlistride", .brotlistride), (.exact b!"-advbrotlistride", .advbrotlistride),
    (.exact b!"-expbrotlistride", .expbrotlistride), (.starts b!"-nostride", .nostride), (.starts b!"-stride=", .strideNum),
    (.starts b!"-stride", .stride), (.exact b!"-s", .stride), (.exact b!"-cm", .cm), (.exact b!"-contextmap", .cm),
    (.exact b!"-nocm", .nocm), (.exact b!"-nocontextmap", .nocm), (.exact b!"-i", .i), (.exact b!"-O0", .O0),
    (.starts b!"-O", .O), (.exact b!"-c", .c), (.exact b!"-nobrotli", .nobrotli), (.exact b!"-findprior", .findprior),
    (.exact b!"-defaultprior", .defaultprior), (.starts b!"-mixing=", .mixing), (.exact b!"-findspeed", .findspeed),
    (.starts b!"-speed=", .speed), (.starts b!"-speedlow=", .speedlow), (.starts b!"-cmspeed=", .cmspeed),
    (.starts b!"-cmspeedlow=", .cmspeedlow), (.exact b!"-h", .help), (.exact b!"-help", .help), (.exact b!"--help", .help),
    (.exact b!"-v", .version), (.exact b!"-version", .version), (.exact b!"--version", .version)]

/-- The first test that holds. -/
def classify (a : List UInt8) : Option Key := (rules.find? fun r => r.1.holds a).map (·.2)

/-- The variables of `main`, `/repo/src/bin/divans.rs:1198-1225`.  Those that go into `DivansCompressorOptions`
(`/repo/src/bin/divans.rs:1592-1614`) are together in `opts`. -/
structure Conf where
  opts : Ffi.Options
  force : Bool
  doCompress : Bool
  raw : Bool
  recode : Bool
  file0 : List UInt8
  file1 : List UInt8
  benchmarks : Nat
  buffer : Nat
  low : Bool
  dashes : Bool
  skipCrc : Bool
  parallel : Bool
  deriving DecidableEq, Repr

/-- How they begin. -/
def Conf.default : Conf :=
  { opts := .default, force := false, doCompress := true, raw := true, recode := false, file0 := [], file1 := [], benchmarks := 1
    buffer := 65536, low := false, dashes := false, skipCrc := false, parallel := true }

/-- What an argument does. -/
inductive Step where
  | go (c : Conf)
  /-- help or version: `main` returns -/
  | quit
  | crash
  deriving DecidableEq, Repr

/-- `unwrap`. -/
def orCrash {α : Type} (x : Option α) (f : α → Step) : Step :=
  match x with
  | some v => f v
  | none => .crash

/-- One of the four speeds is set to `sp`. -/
def put (i : Nat) (sp : Speed) (a : Speed × Speed × Speed × Speed) : Speed × Speed × Speed × Speed :=
  if i = 0 then (sp, a.2.1, a.2.2.1, a.2.2.2)
  else if i = 1 then (a.1, sp, a.2.2.1, a.2.2.2)
  else if i = 2 then (a.1, a.2.1, sp, a.2.2.2)
  else (a.1, a.2.1, a.2.2.1, sp)

/-- A speed: the first one that is given sets all four; later ones set the `i`th, and the `j`th as long as no low speed was
given.  `/repo/src/bin/divans.rs:1486-1496, 1511-1521, 1536-1546, 1563-1573`. -/
def Conf.setSpeed (c : Conf) (i j : Nat) (low : Bool) (sp : Speed) : Conf :=
  { c with
    opts := { c.opts with
      adaptation :=
        match c.opts.adaptation with
        | none => some (sp, sp, sp, sp)
        | some a => some (if c.low then put i sp a else put j sp (put i sp a)) }
    low := c.low || low }

/-- What an option does, `/repo/src/bin/divans.rs:1229-1578`. -/
def apply (c : Conf) (a : List UInt8) : Key → Step
  | .d => .go { c with doCompress := false }
  | .serial => .go { c with parallel := false }
  | .nocrc => .go { c with skipCrc := true }
  | .dashes => .go { c with dashes := true }
  | .bytescore => orCrash (Text.parseNat (2 ^ 32) (strip b!"-bytescore=" a)) fun n => .go { c with opts := { c.opts with byteScore := some n } }
  | .utf8 => .go { c with opts := { c.opts with contextMode := some 2 } }
  | .msb => .go { c with opts := { c.opts with contextMode := some 1 } }
  | .lsb => .go { c with opts := { c.opts with contextMode := some 0 } }
  | .sign => .go { c with opts := { c.opts with contextMode := some 3 } }
  | .bs => orCrash (Text.parseNat (2 ^ 64) (strip b!"-bs" a)) fun n => .go { c with buffer := n }
  | .benchmark => orCrash (Text.parseNat (2 ^ 64) (strip b!"-benchmark=" a)) fun n => .go { c with benchmarks := n }
  | .recode => .go { c with recode := true }
  | .lgwin => orCrash (Text.parseNat (2 ^ 32) (strip b!"-lgwin=" a)) fun n => .go { c with opts := { c.opts with lgblock := some n } }
  | .q95x => .go { c with opts := { c.opts with q95 := true, quality := some 11 } }
  | .q95 => .go { c with opts := { c.opts with q95 := true, quality := some 10 } }
  | .quality => orCrash (Text.parseNat (2 ^ 16) (strip b!"-quality=" a)) fun n => .go { c with opts := { c.opts with quality := some n } }
  | .prior => orCrash (parseI32 (strip b!"-priordepth=" a)) fun n => .go { c with opts := { c.opts with priorDepth := some (n % 256).toNat } }
  | .window => orCrash (parseI32 (strip b!"-window=" a)) fun n => .go { c with opts := { c.opts with window := some n } }
  | .brotlistride => .go { c with opts := { c.opts with stride := 9, strideQuality := some 1 } }
  | .advbrotlistride => .go { c with opts := { c.opts with stride := 9, strideQuality := some 2 } }
  | .expbrotlistride => .go { c with opts := { c.opts with stride := 9, strideQuality := some 3 } }
  | .nostride => .go { c with opts := { c.opts with stride := 0 } }
  | .strideNum => orCrash (Text.parseNat (2 ^ 32) (strip b!"-stride=" a)) fun n =>
      if 1 ≤ n ∧ n ≤ 8 then .go { c with opts := { c.opts with stride := n } } else .crash
  | .stride => .go { c with opts := { c.opts with stride := if c.opts.stride = 0 then 9 else c.opts.stride } }
  | .cm => .go { c with opts := { c.opts with contextMap := true } }
  | .nocm => .go { c with opts := { c.opts with contextMap := false } }
  | .i => .go { c with doCompress := true, raw := false }
  | .O0 => .go c
  | .O => .go { c with opts := { c.opts with optimizer := 1 } }
  | .c => .go { c with doCompress := true, raw := true, force := true }
  | .nobrotli => .go { c with doCompress := true, raw := true, opts := { c.opts with select := .internal } }
  | .findprior => .go { c with opts := { c.opts with bitmask := 1 } }
  | .defaultprior => .go { c with opts := { c.opts with bitmask := 0 } }
  | .mixing => orCrash (parseI32 (strip b!"-mixing=" a)) fun n => .go { c with opts := { c.opts with mixing := some (n % 256).toNat } }
  | .findspeed => .go { c with opts := { c.opts with speedQuality := some 1 } }
  | .speed => orCrash (parseSpeed (strip b!"-speed=" a)) fun sp => .go (c.setSpeed 1 0 false sp)
  | .speedlow => orCrash (parseSpeed (strip b!"-speedlow=" a)) fun sp => .go (c.setSpeed 0 2 true sp)
  | .cmspeed => orCrash (parseSpeed (strip b!"-cmspeed=" a)) fun sp => .go (c.setSpeed 3 2 false sp)
  | .cmspeedlow => orCrash (parseSpeed (strip b!"-cmspeedlow=" a)) fun sp => .go (c.setSpeed 2 0 true sp)
  | .help => .quit
  | .version => .quit

/-- A file name: an empty one is as good as none.  `/repo/src/bin/divans.rs:1581-1589`. -/
def Conf.file (c : Conf) (a : List UInt8) : Step :=
  if c.file0 = [] then .go { c with file0 := a }
  else if c.file1 = [] then .go { c with file1 := a }
  else .crash

/-- One argument. -/
def arg (c : Conf) (a : List UInt8) : Step :=
  if c.dashes then c.file a
  else
    match classify a with
    | some k => apply c a k
    | none => c.file a

/-- All arguments. -/
def args : Conf → List (List UInt8) → Step
  | c, [] => .go c
  | c, a :: as =>
    match arg c a with
    | .go c' => args c' as
    | .quit => .quit
    | .crash => .crash

end Divans.Args
