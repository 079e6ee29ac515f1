import Verif.Args
import Verif.TextProps
import Mathlib.Data.List.Induction

/-!
# C78: the arguments mean what they say
-/

namespace Divans.Args
open Divans.Cdf (Speed)
open Divans.Text (dec)

/-! ## Specification: settings, how they are written and what they set -/

/-- A speed as a user writes it. -/
inductive Pace where
  | name (i : Fin 8)
  | pair (inc lim : Nat)

/-- Its text. -/
def Pace.text : Pace → List UInt8
  | .name i => [b!"GEOLOGIC", b!"GLACIAL", b!"MUD", b!"SLOW", b!"MED", b!"FAST", b!"PLANE", b!"ROCKET"][i]
  | .pair inc lim => dec inc ++ 44 :: dec lim

/-- The speed. -/
def Pace.speed : Pace → Speed
  | .name i => ([⟨1, 16384⟩, ⟨4, 2560⟩, ⟨16, 8192⟩, ⟨32, 4096⟩, ⟨48, 16384⟩, ⟨96, 16384⟩, ⟨128, 16384⟩, ⟨384, 16384⟩] : List Speed)[i]
  | .pair inc lim => ⟨inc, lim⟩

/-- Which pairs are speeds. -/
def Pace.Valid : Pace → Prop
  | .name _ => True
  | .pair inc lim => inc < 16384 ∧ lim ≤ 16384

/-- The settings. -/
inductive Setting where
  | decompress | ofText | forced | internal | recode
  | serial | noCrc
  | byteScore (n : Nat) | context (m : Fin 4) | buffer (n : Nat) | benchmark (n : Nat) | lgwin (n : Nat)
  | quality (n : Nat) | halfQuality (more : Bool) | depth (n : Nat) | window (n : Nat)
  | brotliStride (k : Fin 3) | noStride | someStride | theStride (n : Nat)
  | contextMap (on : Bool) | optimise (on : Bool) | findPrior (on : Bool) | mixing (n : Nat) | findSpeed
  | pace (which : Fin 4) (p : Pace)

/-- How they are written. -/
def Setting.text : Setting → List UInt8
  | .decompress => b!"-d"
  | .ofText => b!"-i"
  | .forced => b!"-c"
  | .internal => b!"-nobrotli"
  | .recode => b!"--recode"
  | .serial => b!"-serial"
  | .noCrc => b!"-skipcrc"
  | .byteScore n => b!"-bytescore=" ++ dec n
  | .context m => [b!"-lsb", b!"-msb", b!"-utf8", b!"-sign"][m]
  | .buffer n => b!"-bs" ++ dec n
  | .benchmark n => b!"-benchmark=" ++ dec n
  | .lgwin n => b!"-lgwin=" ++ dec n
  | .quality n => b!"-quality=" ++ dec n
  | .halfQuality more => if more then b!"-q9.5x" else b!"-q9.5"
  | .depth n => b!"-priordepth=" ++ dec n
  | .window n => b!"-window=" ++ dec n
  | .brotliStride k => [b!"-brotlistride", b!"-advbrotlistride", b!"-expbrotlistride"][k]
  | .noStride => b!"-nostride"
  | .someStride => b!"-stride"
  | .theStride n => b!"-stride=" ++ dec n
  | .contextMap on => if on then b!"-contextmap" else b!"-nocontextmap"
  | .optimise on => if on then b!"-O2" else b!"-O0"
  | .findPrior on => if on then b!"-findprior" else b!"-defaultprior"
  | .mixing n => b!"-mixing=" ++ dec n
  | .findSpeed => b!"-findspeed"
  | .pace w p => [b!"-speedlow=", b!"-speed=", b!"-cmspeedlow=", b!"-cmspeed="][w] ++ p.text

/-- Which values they take. -/
def Setting.Valid : Setting → Prop
  | .byteScore n | .lgwin n => n < 2 ^ 32
  | .buffer n | .benchmark n => n < 2 ^ 64
  | .quality n => n < 2 ^ 16
  | .depth n | .window n | .mixing n => n < 2 ^ 31
  | .theStride n => 1 ≤ n ∧ n ≤ 8
  | .pace _ p => p.Valid
  | _ => True

/-- What they set. -/
def Setting.effect (c : Conf) : Setting → Conf
  | .decompress => { c with doCompress := false }
  | .ofText => { c with doCompress := true, raw := false }
  | .forced => { c with doCompress := true, raw := true, force := true }
  | .internal => { c with doCompress := true, raw := true, opts := { c.opts with select := .internal } }
  | .recode => { c with recode := true }
  | .serial => { c with parallel := false }
  | .noCrc => { c with skipCrc := true }
  | .byteScore n => { c with opts := { c.opts with byteScore := some n } }
  | .context m => { c with opts := { c.opts with contextMode := some m } }
  | .buffer n => { c with buffer := n }
  | .benchmark n => { c with benchmarks := n }
  | .lgwin n => { c with opts := { c.opts with lgblock := some n } }
  | .quality n => { c with opts := { c.opts with quality := some n } }
  | .halfQuality more => { c with opts := { c.opts with q95 := true, quality := some (if more then 11 else 10) } }
  | .depth n => { c with opts := { c.opts with priorDepth := some (n % 256) } }
  | .window n => { c with opts := { c.opts with window := some (n : Int) } }
  | .brotliStride k => { c with opts := { c.opts with stride := 9, strideQuality := some (k + 1) } }
  | .noStride => { c with opts := { c.opts with stride := 0 } }
  | .someStride => { c with opts := { c.opts with stride := if c.opts.stride = 0 then 9 else c.opts.stride } }
  | .theStride n => { c with opts := { c.opts with stride := n } }
  | .contextMap on => { c with opts := { c.opts with contextMap := on } }
  | .optimise on => { c with opts := { c.opts with optimizer := if on then 1 else c.opts.optimizer } }
  | .findPrior on => { c with opts := { c.opts with bitmask := if on then 1 else 0 } }
  | .mixing n => { c with opts := { c.opts with mixing := some (n % 256) } }
  | .findSpeed => { c with opts := { c.opts with speedQuality := some 1 } }
  | .pace w p => c.setSpeed w ([2, 0, 0, 2][w]) (w == 0 || w == 2) p.speed

/-! ## Lemmas: words -/

/-- The front half of a chain of `trim_matches`. -/
def front (name s : List UInt8) : List UInt8 := name.foldl (fun s c => s.dropWhile (· == c)) s

theorem getLast?_tail (a : List UInt8) (y : UInt8) (l : List UInt8) : (a ++ y :: l).getLast? = (y :: l).getLast? := by
  rw [List.getLast?_append, List.getLast?_eq_some_getLast (l := y :: l) (by simp)]
  rfl

theorem trimByte_front {s : List UInt8} {c : UInt8} (h : ∀ x, s.getLast? = some x → x ≠ c) :
    trimByte s c = s.dropWhile (· == c) := by
  unfold trimByte
  cases hd : s.dropWhile (· == c) with
  | nil => rfl
  | cons y l =>
    have e : (y :: l).getLast? = s.getLast? := by
      obtain ⟨p, hp⟩ := List.dropWhile_suffix (p := (· == c)) (l := s)
      conv_rhs => rw [← hp, hd, getLast?_tail]
    obtain ⟨x, hx⟩ : ∃ x, (y :: l).getLast? = some x := ⟨_, List.getLast?_eq_some_getLast (by simp)⟩
    have hx' : (y :: l).reverse = x :: (y :: l).reverse.tail := by
      have : (y :: l).reverse.head? = some x := by rw [List.head?_reverse, hx]
      cases hr : (y :: l).reverse with
      | nil => simp at hr
      | cons z r => rw [hr] at this; simp at this; subst this; rfl
    rw [hx', List.dropWhile_cons, if_neg (by have := h x (e ▸ hx); simpa using this), ← hx', List.reverse_reverse]

theorem dropWhile_stop (c : UInt8) : ∀ (s : List UInt8) (h : UInt8) (t : List UInt8), h ≠ c →
    (s ++ h :: t).dropWhile (· == c) = s.dropWhile (· == c) ++ h :: t := by
  intro s
  induction s with
  | nil => intro h t hc; simp [List.dropWhile_cons, hc]
  | cons a s ih =>
    intro h t hc
    rw [List.cons_append, List.dropWhile_cons, List.dropWhile_cons]
    split
    · exact ih h t hc
    · rfl

/-- The chain of `trim_matches` takes off the name and leaves the value. -/
theorem strip_value : ∀ (name pre t : List UInt8), t ≠ [] → (∀ x, t.head? = some x → x ∉ name) → (∀ x, t.getLast? = some x → x ∉ name) →
    strip name (pre ++ t) = front name pre ++ t := by
  intro name
  induction name with
  | nil => intro pre t _ _ _; rfl
  | cons c name ih =>
    intro pre t h0 h1 h2
    obtain ⟨y, l, rfl⟩ := List.exists_cons_of_ne_nil h0
    unfold strip front
    rw [List.foldl_cons, List.foldl_cons, trimByte_front, dropWhile_stop _ _ _ _ (by have := h1 y rfl; simp at this; exact this.1)]
    · exact ih _ _ h0 (fun x hx hm => h1 x hx (List.mem_cons_of_mem _ hm)) (fun x hx hm => h2 x hx (List.mem_cons_of_mem _ hm))
    · intro x hx hc
      rw [getLast?_tail] at hx
      exact h2 x hx (by simp [hc])

theorem head_mem {t : List UInt8} {x : UInt8} (h : t.head? = some x) : x ∈ t := by
  cases t with
  | nil => cases h
  | cons y l => simp at h; simp [h]

theorem last_mem {t : List UInt8} {x : UInt8} (h : t.getLast? = some x) : x ∈ t := List.mem_of_getLast? h

/-- No digit. -/
abbrev NoDigit (name : List UInt8) : Prop := ∀ c ∈ name, c < 48 ∨ 57 < c

theorem strip_dec {name pre : List UInt8} (h1 : NoDigit name) (h2 : front name pre = []) (n : Nat) : strip name (pre ++ dec n) = dec n := by
  rw [strip_value name pre _ (Text.dec_ne_nil n) (fun x hx hm => Text.dec_no (h1 x hm) n (head_mem hx))
    (fun x hx hm => Text.dec_no (h1 x hm) n (last_mem hx)), h2]
  rfl

theorem number {name pre : List UInt8} (h1 : NoDigit name) (h2 : front name pre = []) {bound n : Nat} (h : n < bound) :
    Text.parseNat bound (strip name (pre ++ dec n)) = some n := by
  rw [strip_dec h1 h2, Text.parseNat_dec h]

theorem number32 {name pre : List UInt8} (h1 : NoDigit name) (h2 : front name pre = []) {n : Nat} (h : n < 2 ^ 31) :
    parseI32 (strip name (pre ++ dec n)) = some (n : Int) := by
  rw [strip_dec h1 h2]
  unfold parseI32
  rw [if_neg (Text.dec_head_ne n (by decide)), Text.parseNat_dec h]
  rfl

theorem Pace.ends (p : Pace) : p.text ≠ [] ∧ (∀ x, p.text.head? = some x → (48 ≤ x ∧ x ≤ 57) ∨ (65 ≤ x ∧ x ≤ 90)) ∧
    ∀ x, p.text.getLast? = some x → (48 ≤ x ∧ x ≤ 57) ∨ (65 ≤ x ∧ x ≤ 90) := by
  cases p with
  | name i =>
    have : ∀ i : Fin 8, (Pace.name i).text ≠ [] ∧
        ((Pace.name i).text.head?.all fun x => decide ((48 ≤ x ∧ x ≤ 57) ∨ (65 ≤ x ∧ x ≤ 90))) = true ∧
        ((Pace.name i).text.getLast?.all fun x => decide ((48 ≤ x ∧ x ≤ 57) ∨ (65 ≤ x ∧ x ≤ 90))) = true := by decide +kernel
    obtain ⟨k1, k2, k3⟩ := this i
    exact ⟨k1, fun x hx => by rw [hx] at k2; simpa using k2, fun x hx => by rw [hx] at k3; simpa using k3⟩
  | pair a b =>
    refine ⟨by simp [Pace.text], fun x hx => .inl ?_, fun x hx => .inl ?_⟩
    · obtain ⟨y, l, e⟩ := List.exists_cons_of_ne_nil (Text.dec_ne_nil a)
      simp only [Pace.text, e, List.cons_append, List.head?_cons, Option.some.injEq] at hx
      subst hx
      exact Text.dec_bytes a y (by rw [e]; simp)
    · obtain ⟨y, l, e⟩ := List.exists_cons_of_ne_nil (Text.dec_ne_nil b)
      simp only [Pace.text] at hx
      rw [show dec a ++ 44 :: dec b = (dec a ++ [44]) ++ dec b by simp, e, getLast?_tail, ← e] at hx
      exact Text.dec_bytes b x (last_mem hx)

theorem pace_parse (p : Pace) (h : p.Valid) : parseSpeed p.text = some p.speed := by
  cases p with
  | name i =>
    have : ∀ i : Fin 8, parseSpeed (Pace.name i).text = some (Pace.name i).speed := by decide +kernel
    exact this i
  | pair a b =>
    obtain ⟨h1, h2⟩ := h
    have hc : ∀ n, (44 : UInt8) ∉ dec n := fun n => Text.dec_no (by decide) n
    have hn : named.find? (fun p => p.1 == dec a ++ 44 :: dec b) = none := by
      rw [List.find?_eq_none]
      intro x hx he
      have hx' : (44 : UInt8) ∈ x.1 := by
        rw [beq_iff_eq] at he
        rw [he]
        simp
      have : ∀ x ∈ named, (44 : UInt8) ∉ x.1 := by decide
      exact this x hx hx'
    have t1 : (dec a ++ 44 :: dec b).takeWhile (· != 44) = dec a := by
      rw [List.takeWhile_append_of_pos (fun x hx => by have := hc a; simp; rintro rfl; exact this hx)]
      simp
    have t2 : (dec a ++ 44 :: dec b).dropWhile (· != 44) = 44 :: dec b := by
      rw [List.dropWhile_append_of_pos (fun x hx => by have := hc a; simp; rintro rfl; exact this hx)]
      simp
    unfold parseSpeed
    simp only [Pace.text, hn, t1, t2]
    rw [if_pos (by simp), List.tail_cons, Text.parseNat_dec (n := a) (by omega), Text.parseNat_dec (n := b) (by omega)]
    simp only
    rw [if_pos ⟨h2, h1⟩]
    rfl

theorem pace_value {name pre : List UInt8} (h1 : ∀ c ∈ name, ¬ ((48 ≤ c ∧ c ≤ 57) ∨ (65 ≤ c ∧ c ≤ 90))) (h2 : front name pre = []) (p : Pace)
    (h : p.Valid) : parseSpeed (strip name (pre ++ p.text)) = some p.speed := by
  obtain ⟨k1, k2, k3⟩ := p.ends
  rw [strip_value name pre _ k1 (fun x hx hm => h1 x hm (k2 x hx)) (fun x hx hm => h1 x hm (k3 x hx)), h2]
  exact pace_parse p h

/-! ## One setting -/

/-- **C78, one setting.**  Every setting with every value in its range, written as it should be, sets what it should and
nothing else. -/
theorem setting_understood (s : Setting) (h : s.Valid) (c : Conf) (hd : c.dashes = false) : arg c s.text = .go (s.effect c) := by
  have key : ∀ (a : List UInt8) (k : Key), classify a = some k → arg c a = apply c a k := by
    intro a k hk
    unfold arg
    rw [hd, hk]
    rfl
  cases s with
  | decompress => exact key _ .d rfl
  | ofText => exact key _ .i rfl
  | forced => exact key _ .c rfl
  | internal => exact key _ .nobrotli rfl
  | recode => exact key _ .recode rfl
  | serial => exact key _ .serial rfl
  | noCrc => exact key _ .nocrc rfl
  | byteScore n =>
    rw [show (Setting.byteScore n).text = b!"-bytescore=" ++ dec n from rfl, key _ .bytescore rfl]
    simp only [apply]
    rw [number (by decide) (by decide) h]
    rfl
  | context m =>
    match m with
    | 0 => exact key _ .lsb rfl
    | 1 => exact key _ .msb rfl
    | 2 => exact key _ .utf8 rfl
    | 3 => exact key _ .sign rfl
  | buffer n =>
    rw [show (Setting.buffer n).text = b!"-bs" ++ dec n from rfl, key _ .bs rfl]
    simp only [apply]
    rw [number (by decide) (by decide) h]
    rfl
  | benchmark n =>
    rw [show (Setting.benchmark n).text = b!"-benchmark=" ++ dec n from rfl, key _ .benchmark rfl]
    simp only [apply]
    rw [number (by decide) (by decide) h]
    rfl
  | lgwin n =>
    rw [show (Setting.lgwin n).text = b!"-lgwin=" ++ dec n from rfl, key _ .lgwin rfl]
    simp only [apply]
    rw [number (by decide) (by decide) h]
    rfl
  | quality n =>
    rw [show (Setting.quality n).text = b!"-quality=" ++ dec n from rfl, key _ .quality rfl]
    simp only [apply]
    rw [number (by decide) (by decide) h]
    rfl
  | halfQuality more =>
    cases more
    · exact key _ .q95 rfl
    · exact key _ .q95x rfl
  | depth n =>
    rw [show (Setting.depth n).text = b!"-priordepth=" ++ dec n from rfl, key _ .prior rfl]
    simp only [apply]
    rw [number32 (by decide) (by decide) h]
    rfl
  | window n =>
    rw [show (Setting.window n).text = b!"-window=" ++ dec n from rfl, key _ .window rfl]
    simp only [apply]
    rw [number32 (by decide) (by decide) h]
    rfl
  | brotliStride k =>
    match k with
    | 0 => exact key _ .brotlistride rfl
    | 1 => exact key _ .advbrotlistride rfl
    | 2 => exact key _ .expbrotlistride rfl
  | noStride => exact key _ .nostride rfl
  | someStride => exact key _ .stride rfl
  | theStride n =>
    rw [show (Setting.theStride n).text = b!"-stride=" ++ dec n from rfl, key _ .strideNum rfl]
    simp only [apply]
    rw [number (by decide) (by decide) (show n < 2 ^ 32 by have := h.2; omega)]
    simp only [orCrash]
    rw [if_pos (show 1 ≤ n ∧ n ≤ 8 from h)]
    rfl
  | contextMap on =>
    cases on
    · exact key _ .nocm rfl
    · exact key _ .cm rfl
  | optimise on =>
    cases on
    · exact key _ .O0 rfl
    · exact key _ .O rfl
  | findPrior on =>
    cases on
    · exact key _ .defaultprior rfl
    · exact key _ .findprior rfl
  | mixing n =>
    rw [show (Setting.mixing n).text = b!"-mixing=" ++ dec n from rfl, key _ .mixing rfl]
    simp only [apply]
    rw [number32 (by decide) (by decide) h]
    rfl
  | findSpeed => exact key _ .findspeed rfl
  | pace w p =>
    match w with
    | 0 =>
      rw [show (Setting.pace 0 p).text = b!"-speedlow=" ++ p.text from rfl, key _ .speedlow rfl]
      simp only [apply]
      rw [pace_value (by decide) (by decide) p h]
      rfl
    | 1 =>
      rw [show (Setting.pace 1 p).text = b!"-speed=" ++ p.text from rfl, key _ .speed rfl]
      simp only [apply]
      rw [pace_value (by decide) (by decide) p h]
      rfl
    | 2 =>
      rw [show (Setting.pace 2 p).text = b!"-cmspeedlow=" ++ p.text from rfl, key _ .cmspeedlow rfl]
      simp only [apply]
      rw [pace_value (by decide) (by decide) p h]
      rfl
    | 3 =>
      rw [show (Setting.pace 3 p).text = b!"-cmspeed=" ++ p.text from rfl, key _ .cmspeed rfl]
      simp only [apply]
      rw [pace_value (by decide) (by decide) p h]
      rfl

/-! ## Many arguments -/

/-- A setting or the name of a file. -/
inductive Word where
  | setting (s : Setting)
  | file (name : List UInt8)

/-- How it is written. -/
def Word.text : Word → List UInt8
  | .setting s => s.text
  | .file name => name

/-- Values in range, names that are not empty and not options. -/
def Word.Valid : Word → Prop
  | .setting s => s.Valid
  | .file name => name ≠ [] ∧ classify name = none

/-- The settings among them. -/
def settings : List Word → List Setting
  | [] => []
  | .setting s :: t => s :: settings t
  | .file _ :: t => settings t

/-- The names among them. -/
def names : List Word → List (List UInt8)
  | [] => []
  | .setting _ :: t => names t
  | .file n :: t => n :: names t

theorem effect_files (c : Conf) (x y : List UInt8) (s : Setting) :
    s.effect { c with file0 := x, file1 := y } = { s.effect c with file0 := x, file1 := y } := by
  cases s <;> rfl

theorem effect_keeps (c : Conf) (s : Setting) : (s.effect c).dashes = c.dashes ∧ (s.effect c).file0 = c.file0 ∧ (s.effect c).file1 = c.file1 := by
  cases s <;> exact ⟨rfl, rfl, rfl⟩

theorem all_keeps (ss : List Setting) : ∀ c : Conf, (ss.foldl Setting.effect c).dashes = c.dashes ∧
    (ss.foldl Setting.effect c).file0 = c.file0 ∧ (ss.foldl Setting.effect c).file1 = c.file1 := by
  induction ss with
  | nil => intro c; exact ⟨rfl, rfl, rfl⟩
  | cons s t ih =>
    intro c
    obtain ⟨a, b, d⟩ := ih (s.effect c)
    obtain ⟨a', b', d'⟩ := effect_keeps c s
    exact ⟨a.trans a', b.trans b', d.trans d'⟩

theorem all_files (ss : List Setting) : ∀ (c : Conf) (x y : List UInt8),
    ss.foldl Setting.effect { c with file0 := x, file1 := y } = { ss.foldl Setting.effect c with file0 := x, file1 := y } := by
  induction ss with
  | nil => intro c x y; rfl
  | cons s t ih =>
    intro c x y
    rw [List.foldl_cons, List.foldl_cons, effect_files, ih]

theorem args_words : ∀ (ws : List Word) (c : Conf), (∀ w ∈ ws, w.Valid) → c.dashes = false →
    (c.file0 = [] → c.file1 = [] ∧ (names ws).length ≤ 2) → (c.file0 ≠ [] → c.file1 = [] → (names ws).length ≤ 1) →
    (c.file0 ≠ [] → c.file1 ≠ [] → names ws = []) →
    args c (ws.map Word.text) = .go { (settings ws).foldl Setting.effect c with
      file0 := if c.file0 = [] then (names ws).headD [] else c.file0
      file1 := if c.file0 = [] then (names ws).tail.headD [] else if c.file1 = [] then (names ws).headD [] else c.file1 } := by
  intro ws
  induction ws with
  | nil =>
    intro c _ _ h1 h2 h3
    simp only [List.map_nil, args, settings, names, List.foldl_nil, List.headD_nil, List.tail_nil]
    congr 1
    cases c with
    | mk o a b d e f0 f1 g h i j k l =>
      by_cases h0 : f0 = []
      · subst h0
        have := (h1 rfl).1
        simp only at this
        subst this
        rfl
      · by_cases h4 : f1 = []
        · subst h4; simp [h0]
        · simp [h0, h4]
  | cons w t ih =>
    intro c hv hd h1 h2 h3
    have hv' : ∀ w ∈ t, w.Valid := fun x hx => hv x (by simp [hx])
    cases w with
    | setting s =>
      rw [List.map_cons, args, show (Word.setting s).text = s.text from rfl,
        setting_understood s (hv (.setting s) (by simp)) c hd]
      simp only [settings, names, List.foldl_cons]
      obtain ⟨k1, k2, k3⟩ := effect_keeps c s
      rw [ih (s.effect c) hv' (k1.trans hd) (by rw [k2, k3]; exact h1) (by rw [k2, k3]; exact h2) (by rw [k2, k3]; exact h3), k2, k3]
    | file n =>
      obtain ⟨hn, hc⟩ := hv (.file n) (by simp)
      have ha : arg c n = c.file n := by
        unfold arg
        rw [hd, hc]
        rfl
      simp only [names] at h1 h2 h3
      rw [List.map_cons, args, show (Word.file n).text = n from rfl, ha]
      simp only [settings, names, List.headD_cons, List.tail_cons]
      by_cases f0 : c.file0 = []
      · obtain ⟨f1, hl⟩ := h1 f0
        simp only [List.length_cons] at hl
        have : c.file n = .go { c with file0 := n } := by unfold Conf.file; rw [if_pos f0]
        rw [this]
        simp only
        rw [ih { c with file0 := n } hv' hd (fun h => absurd h hn) (fun _ _ => by omega) (fun _ h => absurd f1 h)]
        simp only [f0, if_true, f1, if_neg hn]
        congr 1
        rw [all_files (settings t) c n []]
      · by_cases f1 : c.file1 = []
        · have hl := h2 f0 f1
          simp only [List.length_cons] at hl
          have hnil : names t = [] := List.eq_nil_of_length_eq_zero (by omega)
          have : c.file n = .go { c with file1 := n } := by unfold Conf.file; rw [if_neg f0, if_pos f1]
          rw [this]
          simp only
          rw [ih { c with file1 := n } hv' hd (fun h => absurd h f0) (fun _ h => absurd h hn) (fun _ _ => hnil)]
          simp only [if_neg f0, f1, if_true, if_neg hn]
          congr 1
          have e := all_files (settings t) c c.file0 n
          have e2 : ({ c with file0 := c.file0, file1 := n } : Conf) = { c with file1 := n } := rfl
          rw [e2] at e
          rw [e]
        · exact absurd (h3 f0 f1) (by simp)

/-- **C78, all arguments.**  Settings and up to two names in any order: the settings take effect one after the other, the
first name is the input, the second the output. -/
theorem arguments_understood (ws : List Word) (hv : ∀ w ∈ ws, w.Valid) (hn : (names ws).length ≤ 2) :
    args .default (ws.map Word.text) = .go { (settings ws).foldl Setting.effect .default with
      file0 := (names ws).headD [], file1 := (names ws).tail.headD [] } := by
  rw [args_words ws .default hv rfl (fun _ => ⟨rfl, hn⟩) (fun h => absurd rfl h) (fun h => absurd rfl h)]
  rfl

/-- **C78, a third name** is not accepted. -/
theorem third_name_crashes (ws : List Word) (hv : ∀ w ∈ ws, w.Valid) (hn : (names ws).length = 2) (n : List UInt8) (hc : classify n = none)
    (more : List (List UInt8)) : args .default (ws.map Word.text ++ n :: more) = .crash := by
  have app : ∀ (xs ys : List (List UInt8)) (c c' : Conf), args c xs = .go c' → args c (xs ++ ys) = args c' ys := by
    intro xs
    induction xs with
    | nil => intro ys c c' h; simp only [args, Step.go.injEq] at h; rw [h]; rfl
    | cons x xs ih =>
      intro ys c c' h
      rw [args] at h
      rw [List.cons_append, args]
      cases hx : arg c x with
      | go c2 => rw [hx] at h; exact ih ys c2 c' h
      | quit => rw [hx] at h; cases h
      | crash => rw [hx] at h; cases h
  rw [app _ _ _ _ (arguments_understood ws hv (by omega)), args]
  have hv2 : ∀ ws : List Word, (∀ w ∈ ws, w.Valid) → ∀ x ∈ names ws, x ≠ [] := by
    intro ws
    induction ws with
    | nil => intro _ x hx; simp [names] at hx
    | cons w t ih =>
      intro h x hx
      cases w with
      | setting s => exact ih (fun w hw => h w (by simp [hw])) x hx
      | file m =>
        rcases List.mem_cons.1 hx with rfl | hx
        · exact (h (.file x) (by simp)).1
        · exact ih (fun w hw => h w (by simp [hw])) x hx
  have hne := hv2 ws hv
  match hm : names ws, hn with
  | [a, b], _ =>
    rw [hm] at hne
    have h1 := hne a (by simp)
    have h2 := hne b (by simp)
    have : arg { (settings ws).foldl Setting.effect .default with file0 := a, file1 := b } n = .crash := by
      unfold arg
      rw [hc]
      simp only [(all_keeps (settings ws) .default).1]
      show Conf.file _ n = _
      unfold Conf.file
      simp only
      rw [if_neg h1, if_neg h2]
    simp only [List.headD_cons, List.tail_cons]
    rw [this]

/-- After `--` everything is a name, even what looks like an option. -/
theorem after_dashes (ss : List Setting) (hv : ∀ s ∈ ss, s.Valid) (a b : List UInt8) (ha : a ≠ []) :
    args .default (ss.map Setting.text ++ [b!"--", a, b]) =
      .go { ss.foldl Setting.effect .default with dashes := true, file0 := a, file1 := b } := by
  have gen : ∀ (ss : List Setting), (∀ s ∈ ss, s.Valid) → ∀ c : Conf, c.dashes = false → c.file0 = [] → c.file1 = [] →
      args c (ss.map Setting.text ++ [b!"--", a, b]) = .go { ss.foldl Setting.effect c with dashes := true, file0 := a, file1 := b } := by
    intro ss
    induction ss with
    | nil =>
      intro _ c h1 h2 h3
      have e1 : arg c b!"--" = .go { c with dashes := true } := by
        unfold arg
        rw [h1, show classify b!"--" = some .dashes from rfl]
        rfl
      simp only [List.map_nil, List.nil_append, args, e1]
      have e2 : arg { c with dashes := true } a = .go { c with dashes := true, file0 := a } := by
        unfold arg Conf.file
        simp [h2]
      have e3 : arg { c with dashes := true, file0 := a } b = .go { c with dashes := true, file0 := a, file1 := b } := by
        unfold arg Conf.file
        simp [ha, h3]
      rw [e2]
      simp only [e3]
      rfl
    | cons s t ih =>
      intro h c h1 h2 h3
      rw [List.map_cons, List.cons_append, args, setting_understood s (h s (by simp)) c h1]
      obtain ⟨k1, k2, k3⟩ := effect_keeps c s
      exact ih (fun x hx => h x (by simp [hx])) _ (k1.trans h1) (k2.trans h2) (k3.trans h3)
  exact gen ss hv .default rfl rfl rfl

/-! ## What the settings amount to -/

/-- What `main` runs. -/
inductive Program where
  | compressText | compress | recode | decompress
  deriving DecidableEq, Repr

/-- Which one, `/repo/src/bin/divans.rs:1626-1655`. -/
def Conf.program (c : Conf) : Program :=
  if c.doCompress then if c.raw then .compress else .compressText
  else if c.recode then .recode else .decompress

/-- The same without `--recode`. -/
def Conf.base (c : Conf) : Program :=
  if c.doCompress then if c.raw then .compress else .compressText else .decompress

/-- The last of some settings that says something about a matter. -/
def lastSaid {α : Type} (f : Setting → Option α) (ss : List Setting) : Option α := (ss.filterMap f).getLast?

theorem lastSaid_fold {α : Type} (f : Setting → Option α) (π : Conf → α) (h : ∀ s c, π (s.effect c) = (f s).getD (π c)) (ss : List Setting) :
    ∀ c, π (ss.foldl Setting.effect c) = (lastSaid f ss).getD (π c) := by
  induction ss using List.reverseRecOn with
  | nil => intro c; rfl
  | append_singleton ss s ih =>
    intro c
    rw [List.foldl_append, List.foldl_cons, List.foldl_nil, h, ih]
    unfold lastSaid
    rw [List.filterMap_append]
    cases hs : f s with
    | none => simp [hs]
    | some v => simp [hs, List.filterMap_cons]

/-- What settings say about the program. -/
def Setting.says : Setting → Option Program
  | .decompress => some .decompress
  | .ofText => some .compressText
  | .forced | .internal => some .compress
  | _ => none

/-- What settings say about numbers. -/
def Setting.saysWindow : Setting → Option Nat
  | .window n => some n
  | _ => none

/-- The same of the block size of brotli. -/
def Setting.saysLgwin : Setting → Option Nat
  | .lgwin n => some n
  | _ => none

/-- The same of the quality. -/
def Setting.saysQuality : Setting → Option Nat
  | .quality n => some n
  | .halfQuality more => some (if more then 11 else 10)
  | _ => none

/-- The same of mixing. -/
def Setting.saysMixing : Setting → Option Nat
  | .mixing n => some n
  | _ => none

/-- The same of the depth of priors. -/
def Setting.saysDepth : Setting → Option Nat
  | .depth n => some n
  | _ => none

/-- The same of the size of buffers. -/
def Setting.saysBuffer : Setting → Option Nat
  | .buffer n => some n
  | _ => none

/-- The same of the number of runs. -/
def Setting.saysRuns : Setting → Option Nat
  | .benchmark n => some n
  | _ => none

/-- The same of the context map. -/
def Setting.saysMap : Setting → Option Bool
  | .contextMap on => some on
  | _ => none

/-- Whether it is that setting. -/
def Setting.isRecode : Setting → Bool
  | .recode => true
  | _ => false

/-- Whether it is that setting. -/
def Setting.isForced : Setting → Bool
  | .forced => true
  | _ => false

/-- Whether it is that setting. -/
def Setting.isInternal : Setting → Bool
  | .internal => true
  | _ => false

/-- Whether it is that setting. -/
def Setting.isNoCrc : Setting → Bool
  | .noCrc => true
  | _ => false

theorem any_fold (p : Setting → Bool) (π : Conf → Bool) (h : ∀ s c, π (s.effect c) = (π c || p s)) (ss : List Setting) :
    ∀ c, π (ss.foldl Setting.effect c) = (π c || ss.any p) := by
  induction ss with
  | nil => intro c; simp
  | cons s t ih =>
    intro c
    rw [List.foldl_cons, ih, h, List.any_cons, Bool.or_assoc]

/-- The numbers a user gives are taken for what they are, the last one counts, and nothing else has an influence: the window,
the quality, the size of buffers, the number of runs, the context map.  Mixing and the depth of priors are cut to 8 bits.
`-lgwin` does not set the window, but the size of blocks. -/
theorem last_number_counts (ss : List Setting) :
    let c := ss.foldl Setting.effect .default
    c.opts.window = some (((lastSaid Setting.saysWindow ss).getD 22 : Nat) : Int) ∧
    c.opts.lgblock = some ((lastSaid Setting.saysLgwin ss).getD 22) ∧
    c.opts.quality = some ((lastSaid Setting.saysQuality ss).getD 11) ∧
    c.opts.mixing = some ((lastSaid Setting.saysMixing ss).getD 1 % 256) ∧
    c.opts.priorDepth = (lastSaid Setting.saysDepth ss).map (· % 256) ∧
    c.buffer = (lastSaid Setting.saysBuffer ss).getD 65536 ∧
    c.benchmarks = (lastSaid Setting.saysRuns ss).getD 1 ∧
    c.opts.contextMap = (lastSaid Setting.saysMap ss).getD true := by
  have lift : ∀ {α β : Type} (f : Setting → Option α) (g : α → β) (ss : List Setting),
      lastSaid (fun s => (f s).map g) ss = (lastSaid f ss).map g := by
    intro α β f g ss
    unfold lastSaid
    rw [← List.map_filterMap, List.getLast?_map]
  refine ⟨?_, ?_, ?_, ?_, ?_, ?_, ?_, ?_⟩
  · rw [lastSaid_fold (fun s => (s.saysWindow).map fun n => some ((n : Nat) : Int)) (·.opts.window) (by intro s c; cases s <;> rfl), lift]
    cases lastSaid Setting.saysWindow ss <;> rfl
  · rw [lastSaid_fold (fun s => (s.saysLgwin).map some) (·.opts.lgblock) (by intro s c; cases s <;> rfl), lift]
    cases lastSaid Setting.saysLgwin ss <;> rfl
  · rw [lastSaid_fold (fun s => (s.saysQuality).map some) (·.opts.quality) (by intro s c; cases s <;> rfl), lift]
    cases lastSaid Setting.saysQuality ss <;> rfl
  · rw [lastSaid_fold (fun s => (s.saysMixing).map fun n => some (n % 256)) (·.opts.mixing) (by intro s c; cases s <;> rfl), lift]
    cases lastSaid Setting.saysMixing ss <;> rfl
  · rw [lastSaid_fold (fun s => (s.saysDepth).map fun n => some (n % 256)) (·.opts.priorDepth) (by intro s c; cases s <;> rfl), lift]
    cases lastSaid Setting.saysDepth ss <;> rfl
  · rw [lastSaid_fold Setting.saysBuffer (·.buffer) (by intro s c; cases s <;> rfl)]
    rfl
  · rw [lastSaid_fold Setting.saysRuns (·.benchmarks) (by intro s c; cases s <;> rfl)]
    rfl
  · rw [lastSaid_fold Setting.saysMap (·.opts.contextMap) (by intro s c; cases s <;> rfl)]
    rfl

/-- **C78, the program.**  The last of `-d`, `-i`, `-c` and `-nobrotli` says what is done, and without one of them the input is
compressed.  `--recode` counts only if that is `-d`. -/
theorem last_program_counts (ss : List Setting) :
    let c := ss.foldl Setting.effect .default
    c.program = (match (lastSaid Setting.says ss).getD .compress with
      | .decompress => if ss.any Setting.isRecode then .recode else .decompress
      | p => p) ∧
    c.force = ss.any Setting.isForced ∧
    c.opts.select = (if ss.any Setting.isInternal then .internal else .commands) ∧
    c.skipCrc = ss.any Setting.isNoCrc := by
  have hr : (ss.foldl Setting.effect .default).recode = ss.any Setting.isRecode :=
    (any_fold Setting.isRecode (·.recode) (by intro s c; cases s <;> simp [Setting.effect, Setting.isRecode, Conf.setSpeed]) ss _).trans (by simp [Conf.default])
  have hp : Conf.base (ss.foldl Setting.effect .default) = (lastSaid Setting.says ss).getD .compress := by
    rw [lastSaid_fold Setting.says Conf.base (by intro s c; cases s <;> rfl)]
    rfl
  have hs : ∀ (ss : List Setting) (c : Conf),
      (ss.foldl Setting.effect c).opts.select = if ss.any Setting.isInternal then .internal else c.opts.select := by
    intro ss
    induction ss with
    | nil => intro c; rfl
    | cons s t ih =>
      intro c
      rw [List.foldl_cons, ih, List.any_cons]
      cases t.any Setting.isInternal
      · cases s <;> rfl
      · rw [Bool.or_true]
        rfl
  refine ⟨?_, ?_, ?_, ?_⟩
  · rw [← hp]
    unfold Conf.program Conf.base
    rw [hr]
    cases (ss.foldl Setting.effect .default).doCompress <;> cases (ss.foldl Setting.effect .default).raw <;> rfl
  · exact (any_fold Setting.isForced (·.force) (by intro s c; cases s <;> simp [Setting.effect, Setting.isForced, Conf.setSpeed]) ss _).trans (by simp [Conf.default])
  · exact hs ss .default
  · exact (any_fold Setting.isNoCrc (·.skipCrc) (by intro s c; cases s <;> simp [Setting.effect, Setting.isNoCrc, Conf.setSpeed]) ss _).trans (by simp [Conf.default])

/-! ## Examples and surprises -/

/-- Hypotheses of the theorems: settings with values and two names. -/
example : (∀ w ∈ [Word.file b!"in", .setting (.window 24), .setting (.pace 1 (.pair 2 1024)), .file b!"out", .setting .internal],
    w.Valid) := by
  intro w hw
  simp only [List.mem_cons, List.not_mem_nil, or_false] at hw
  rcases hw with rfl | rfl | rfl | rfl | rfl
  · exact ⟨by decide, by decide⟩
  · show 24 < 2 ^ 31; decide
  · exact ⟨by decide, by decide⟩
  · exact ⟨by decide, by decide⟩
  · trivial

/-- **C78, the negation.**  What a user asks for is not what is done: `--recode` without `-d` compresses; `-i -nobrotli`
compresses the text as it is; `-d -nobrotli` compresses; `-recode`, an option that does not exist, is the name of the input;
`-lgwin=16` leaves the window at 22; `-mixing=258` is the same as `-mixing=2`, and `-mixing=-1` as `-mixing=255`. -/
theorem surprises :
    (∃ c, args .default [b!"--recode"] = .go c ∧ c.program = .compress) ∧
    (∃ c, args .default [b!"-i", b!"-nobrotli"] = .go c ∧ c.program = .compress) ∧
    (∃ c, args .default [b!"-d", b!"-nobrotli"] = .go c ∧ c.program = .compress) ∧
    (∃ c, args .default [b!"-recode"] = .go c ∧ c.program = .compress ∧ c.file0 = b!"-recode") ∧
    (∃ c, args .default [b!"-lgwin=16"] = .go c ∧ c.opts.window = some 22) ∧
    args .default [b!"-mixing=258"] = args .default [b!"-mixing=2"] ∧
    args .default [b!"-mixing=-1"] = args .default [b!"-mixing=255"] := by
  refine ⟨⟨_, rfl, rfl⟩, ⟨_, rfl, rfl⟩, ⟨_, rfl, rfl⟩, ⟨_, rfl, rfl, rfl⟩, ⟨_, rfl, rfl⟩, ?_, ?_⟩ <;> decide +kernel

/-- **C78, speeds depend on their order.**  The first one sets all four; a low speed stops the later ones from setting two. -/
theorem speeds_in_order (a b : Pace) (hab : a.speed ≠ b.speed) :
    ([Setting.pace 0 a, .pace 1 b].foldl Setting.effect .default).opts.adaptation = some (a.speed, b.speed, a.speed, a.speed) ∧
    ([Setting.pace 1 b, .pace 0 a].foldl Setting.effect .default).opts.adaptation = some (a.speed, b.speed, a.speed, b.speed) ∧
    ([Setting.pace 0 a, .pace 1 b].foldl Setting.effect .default).opts.adaptation ≠
      ([Setting.pace 1 b, .pace 0 a].foldl Setting.effect .default).opts.adaptation := by
  have h1 : ([Setting.pace 0 a, .pace 1 b].foldl Setting.effect .default).opts.adaptation = some (a.speed, b.speed, a.speed, a.speed) := rfl
  have h2 : ([Setting.pace 1 b, .pace 0 a].foldl Setting.effect .default).opts.adaptation = some (a.speed, b.speed, a.speed, b.speed) := rfl
  refine ⟨h1, h2, ?_⟩
  rw [h1, h2]
  intro h
  simp only [Option.some.injEq, Prod.mk.injEq, true_and] at h
  exact hab h

end Divans.Args
