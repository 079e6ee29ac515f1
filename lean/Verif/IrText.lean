import Verif.IrRun
import Verif.TextLineProps

/-! # Printing commands as lines -/

namespace Divans.Ir
open Divans.Text

/-- Two hexadecimal digits for each byte. -/
def hexOf (data : List UInt8) : List UInt8 :=
  data.flatMap fun b =>
    let d (x : Nat) := ([48, 49, 50, 51, 52, 53, 54, 55, 56, 57, 97, 98, 99, 100, 101, 102] : List UInt8).getD x 0
    [d (b.toNat / 16), d (b.toNat % 16)]

/-- A line for a command, without line feed: numbers in decimal, data in hexadecimal. -/
def printed : Text.Cmd → List UInt8
  | .lit data e => unsplit 32 [if e then kw_rndins else kw_insert, dec data.length, hexOf data]
  | c => unsplit 32 (tokens [] [] c)

/-- Commands that can be printed. -/
def Printable : Text.Cmd → Prop
  | .lit data _ => data ≠ [] ∧ data.length < 2 ^ 64
  | c => c.Fits

/-- A word of visible characters. -/
def Word (s : List UInt8) : Prop := s ≠ [] ∧ ∀ b ∈ s, (33 : UInt8) ≤ b ∧ b < 128

/-- Words with single spaces between them. -/
structure Neat (s : List UInt8) : Prop where
  bytes : ∀ b ∈ s, (32 : UInt8) ≤ b ∧ b < 128
  first : ∃ b t, s = b :: t ∧ (33 : UInt8) ≤ b
  last : ∃ b t, s = t ++ [b] ∧ (33 : UInt8) ≤ b

theorem u8_le_trans {a b c : UInt8} (h1 : a ≤ b) (h2 : b ≤ c) : a ≤ c := UInt8.le_trans h1 h2

theorem Word.neat {s : List UInt8} (h : Word s) : Neat s := by
  obtain ⟨hne, hb⟩ := h
  refine ⟨fun b hm => ⟨u8_le_trans (by decide) (hb b hm).1, (hb b hm).2⟩, ?_, ?_⟩
  · obtain ⟨b, t, rfl⟩ := List.exists_cons_of_ne_nil hne
    exact ⟨b, t, rfl, (hb b (by simp)).1⟩
  · refine ⟨s.getLast hne, s.dropLast, (List.dropLast_concat_getLast hne).symm, (hb _ (List.getLast_mem hne)).1⟩

theorem Neat.join {a b : List UInt8} (ha : Neat a) (hb : Neat b) : Neat (a ++ 32 :: b) := by
  refine ⟨fun x hx => ?_, ?_, ?_⟩
  · rcases List.mem_append.1 hx with hx | hx
    · exact ha.bytes x hx
    · rcases List.mem_cons.1 hx with rfl | hx
      · exact ⟨by decide, by decide⟩
      · exact hb.bytes x hx
  · obtain ⟨c, t, rfl, h⟩ := ha.first
    exact ⟨c, t ++ 32 :: b, rfl, h⟩
  · obtain ⟨c, t, rfl, h⟩ := hb.last
    exact ⟨c, a ++ 32 :: t, by simp, h⟩

theorem unsplit_neat : ∀ (ts : List (List UInt8)), ts ≠ [] → (∀ t ∈ ts, Word t) → Neat (unsplit 32 ts) := by
  intro ts
  induction ts with
  | nil => intro h; exact absurd rfl h
  | cons a ts ih =>
    intro _ h
    cases ts with
    | nil => exact (h a (by simp)).neat
    | cons b t => exact (h a (by simp)).neat.join (ih (by simp) fun x hx => h x (List.mem_cons_of_mem _ hx))

theorem dec_word (n : Nat) : Word (dec n) :=
  ⟨dec_ne_nil n, fun b hb => ⟨u8_le_trans (by decide) (dec_bytes n b hb).1, UInt8.lt_of_le_of_lt (dec_bytes n b hb).2 (by decide)⟩⟩

theorem key_word : ∀ k ∈ [kw_copy, kw_from, kw_dict, kw_word, kw_func, kw_ltype, kw_ctype, kw_dtype, kw_prediction, kw_lcontextmap,
    kw_dcontextmap, kw_mixingvalues, kw_cmspeedinc, kw_cmspeedmax, kw_stspeedinc, kw_stspeedmax, kw_mxspeedinc, kw_mxspeedmax,
    kw_lsb6, kw_msb6, kw_utf8, kw_sign, kw_insert, kw_rndins], Word k := by
  unfold Word
  decide

theorem hex_digit : ∀ x < 16, ∃ c : UInt8, ([48, 49, 50, 51, 52, 53, 54, 55, 56, 57, 97, 98, 99, 100, 101, 102] : List UInt8)[x]? = some c ∧
    ([48, 49, 50, 51, 52, 53, 54, 55, 56, 57, 97, 98, 99, 100, 101, 102] : List UInt8).getD x 0 = c ∧ (33 : UInt8) ≤ c ∧ c < 128 := by
  intro x hx
  have : ∀ x < 16, ([48, 49, 50, 51, 52, 53, 54, 55, 56, 57, 97, 98, 99, 100, 101, 102] : List UInt8)[x]? =
      some (([48, 49, 50, 51, 52, 53, 54, 55, 56, 57, 97, 98, 99, 100, 101, 102] : List UInt8).getD x 0) ∧
      (33 : UInt8) ≤ ([48, 49, 50, 51, 52, 53, 54, 55, 56, 57, 97, 98, 99, 100, 101, 102] : List UInt8).getD x 0 ∧
      ([48, 49, 50, 51, 52, 53, 54, 55, 56, 57, 97, 98, 99, 100, 101, 102] : List UInt8).getD x 0 < 128 := by decide
  exact ⟨_, (this x hx).1, rfl, (this x hx).2.1, (this x hx).2.2⟩

theorem hexOf_spec : ∀ (data : List UInt8), HexPairs (hexOf data) data ∧ ∀ b ∈ hexOf data, (33 : UInt8) ≤ b ∧ b < 128 := by
  intro data
  induction data with
  | nil => exact ⟨.nil, by simp [hexOf]⟩
  | cons b t ih =>
    have hb := b.toNat_lt
    obtain ⟨c, c1, c2, c3, c4⟩ := hex_digit (b.toNat / 16) (by omega)
    obtain ⟨d, d1, d2, d3, d4⟩ := hex_digit (b.toNat % 16) (by omega)
    have e : hexOf (b :: t) = c :: d :: hexOf t := by
      simp only [hexOf, List.flatMap_cons, c2, d2, List.cons_append, List.nil_append]
    rw [e]
    refine ⟨?_, ?_⟩
    · have := HexPairs.cons (t := hexOf t) (o := t) (.inl c1) (.inl d1) ih.1
      rw [show 16 * (b.toNat / 16) + b.toNat % 16 = b.toNat by omega, UInt8.ofNat_toNat] at this
      exact this
    · intro x hx
      simp only [List.mem_cons] at hx
      rcases hx with rfl | rfl | hx
      · exact ⟨c3, c4⟩
      · exact ⟨d3, d4⟩
      · exact ih.2 x hx

theorem hexOf_text (data : List UInt8) : HexText (hexOf data) data := by
  unfold HexText
  rw [List.filter_eq_self.2]
  · exact (hexOf_spec data).1
  · intro b hb
    have := (hexOf_spec data).2 b hb
    simp only [isBlank, Bool.not_eq_true', decide_eq_false_iff_not, not_or]
    refine ⟨?_, ?_, ?_⟩ <;> rintro rfl <;> exact absurd this.1 (by decide)

theorem dec_number {bound n : Nat} (h : n < bound) : Number bound (dec n) n :=
  (parseNat_iff (by omega) _ _).1 (parseNat_dec h)

/-- A printed command is parsed back. -/
theorem printed_parse (c : Text.Cmd) (h : Printable c) : Text.parse (printed c) = .ok (some c) := by
  have other : c.Fits → printed c = unsplit 32 (tokens [] [] c) → Text.parse (printed c) = .ok (some c) := by
    intro hf he
    rw [he]
    exact commands_parse c hf [] [] (by simp) (by simp) (by simp)
  cases c with
  | lit data e =>
    obtain ⟨h1, h2⟩ := h
    rw [literal_line]
    exact ⟨h1, dec data.length, hexOf data, rfl, dec_number h2, .inl (hexOf_text data)⟩
  | _ => exact other h rfl

theorem hexOf_ne_nil {data : List UInt8} (h : data ≠ []) : hexOf data ≠ [] := by
  obtain ⟨b, t, rfl⟩ := List.exists_cons_of_ne_nil h
  simp [hexOf]

theorem printed_neat (c : Text.Cmd) (h : Printable c) : Neat (printed c) := by
  have kw := key_word
  cases c with
  | lit data e =>
    refine unsplit_neat _ (by simp) fun t ht => ?_
    simp only [List.mem_cons, List.not_mem_nil, or_false] at ht
    rcases ht with rfl | rfl | rfl
    · cases e <;> exact kw _ (by simp)
    · exact dec_word _
    · exact ⟨hexOf_ne_nil h.1, (hexOf_spec data).2⟩
  | copy n d =>
    refine unsplit_neat _ (by simp [tokens]) fun t ht => ?_
    simp only [tokens, List.mem_cons, List.not_mem_nil, or_false] at ht
    rcases ht with rfl | rfl | rfl | rfl
    · exact kw _ (by simp)
    · exact dec_word _
    · exact kw _ (by simp)
    · exact dec_word _
  | dict f w i t =>
    refine unsplit_neat _ (by simp [tokens]) fun t ht => ?_
    simp only [tokens, List.mem_cons, List.nil_append, List.not_mem_nil, or_false] at ht
    rcases ht with rfl | rfl | rfl | rfl | rfl | rfl
    · exact kw _ (by simp)
    · exact dec_word _
    · exact kw _ (by simp)
    · refine ⟨by simp, fun b hb => ?_⟩
      simp only [List.mem_append, List.mem_cons] at hb
      rcases hb with hb | rfl | hb
      · exact (dec_word _).2 b hb
      · exact ⟨by decide, by decide⟩
      · exact (dec_word _).2 b hb
    · exact kw _ (by simp)
    · exact dec_word _
  | switchLit b s =>
    refine unsplit_neat _ (by simp [tokens]) fun t ht => ?_
    simp only [tokens, List.mem_cons, List.not_mem_nil, or_false] at ht
    rcases ht with rfl | rfl | rfl
    · exact kw _ (by simp)
    · exact dec_word _
    · exact dec_word _
  | switchCmd b =>
    refine unsplit_neat _ (by simp [tokens]) fun t ht => ?_
    simp only [tokens, List.mem_cons, List.not_mem_nil, or_false] at ht
    rcases ht with rfl | rfl
    · exact kw _ (by simp)
    · exact dec_word _
  | switchDist b =>
    refine unsplit_neat _ (by simp [tokens]) fun t ht => ?_
    simp only [tokens, List.mem_cons, List.not_mem_nil, or_false] at ht
    rcases ht with rfl | rfl
    · exact kw _ (by simp)
    · exact dec_word _
  | pred p =>
    refine unsplit_neat _ (by simp [tokens]) fun t ht => ?_
    have hz : ∀ x ∈ [kw_cmspeedinc, kw_stspeedinc, kw_mxspeedinc].zip ([kw_cmspeedmax, kw_stspeedmax, kw_mxspeedmax].zip p.speeds),
        Word x.1 ∧ Word x.2.1 := by
      intro x hx
      obtain ⟨a, b, d⟩ := x
      have h1 := (List.of_mem_zip hx).1
      have h2 := (List.of_mem_zip (List.of_mem_zip hx).2).1
      simp only [List.mem_cons, List.not_mem_nil, or_false] at h1 h2
      exact ⟨kw _ (by simp only [List.mem_cons]; tauto), kw _ (by simp only [List.mem_cons]; tauto)⟩
    simp only [tokens, List.mem_cons, List.mem_append, List.mem_map, List.mem_flatMap] at ht
    rcases ht with rfl | rfl | rfl | ⟨n, -, rfl⟩ | rfl | ⟨n, -, rfl⟩ | rfl | ⟨n, -, rfl⟩ | ⟨x, hx, h | h⟩
    · exact kw _ (by simp)
    · have := modeName_word p.mode
      simp only [List.mem_cons, List.not_mem_nil, or_false] at this
      exact kw _ (by simp only [List.mem_cons]; tauto)
    · exact kw _ (by simp)
    · exact dec_word _
    · exact kw _ (by simp)
    · exact dec_word _
    · exact kw _ (by simp)
    · exact dec_word _
    · rcases h with rfl | ⟨y, -, rfl⟩
      · exact (hz x hx).1
      · exact dec_word _
    · rcases h with rfl | ⟨y, -, rfl⟩
      · exact (hz x hx).2
      · exact dec_word _

/-! ## Trimming -/

theorem not_blank1 {b : UInt8} (h1 : (33 : UInt8) ≤ b) (h2 : b < 128) : blank1 b = false := by
  have : ∀ n < 256, (33 : UInt8) ≤ UInt8.ofNat n → UInt8.ofNat n < 128 → blank1 (UInt8.ofNat n) = false := by decide +kernel
  exact all_bytes (P := fun b => (33 : UInt8) ≤ b → b < 128 → blank1 b = false) this b h1 h2

theorem trimStart_first {b : UInt8} (t : List UInt8) (h1 : (33 : UInt8) ≤ b) (h2 : b < 128) : trimStart (b :: t) = b :: t := by
  have e1 := not_blank1 h1 h2
  have e2 : ∀ k : UInt8, 128 ≤ k → (b == k) = false := by
    intro k hk
    rw [beq_eq_false_iff_ne]
    rintro rfl
    exact absurd (UInt8.lt_of_lt_of_le h2 hk) (UInt8.lt_irrefl _)
  rw [trimStart.eq_def]
  simp only [e1]
  cases t with
  | nil => rfl
  | cons c t =>
    have : blank2 b c = false := by simp [blank2, e2 0xC2 (by decide)]
    simp only [this]
    cases t with
    | nil => rfl
    | cons d t =>
      have : blank3 b c d = false := by
        simp [blank3, e2 0xE1 (by decide), e2 0xE2 (by decide), e2 0xE3 (by decide)]
      simp [this]

theorem trimBack_first {d : UInt8} (t : List UInt8) (h1 : (33 : UInt8) ≤ d) (h2 : d < 128) : trimBack (d :: t) = d :: t := by
  have e1 := not_blank1 h1 h2
  have e2 : ∀ k : UInt8, 128 ≤ k → (d == k) = false := by
    intro k hk
    rw [beq_eq_false_iff_ne]
    rintro rfl
    exact absurd (UInt8.lt_of_lt_of_le h2 hk) (UInt8.lt_irrefl _)
  have e3 : ∀ k : UInt8, 128 ≤ k → ¬ k ≤ d := fun k hk h => absurd (UInt8.lt_of_lt_of_le h2 (UInt8.le_trans hk h)) (UInt8.lt_irrefl _)
  rw [trimBack.eq_def]
  simp only [e1]
  cases t with
  | nil => rfl
  | cons c t =>
    have : blank2 c d = false := by simp [blank2, e2 0x85 (by decide), e2 0xA0 (by decide)]
    simp only [this]
    cases t with
    | nil => rfl
    | cons b t =>
      have : blank3 b c d = false := by
        simp [blank3, e2 0x80 (by decide), e2 0xA8 (by decide), e2 0xA9 (by decide), e2 0xAF (by decide), e2 0x9F (by decide),
          e3 0x80 (by decide)]
      simp [this]

/-- Blanks before and after a neat line do not matter. -/
theorem trim_neat {s : List UInt8} (h : Neat s) (pre post : List UInt8) (h1 : ∀ b ∈ pre, blank1 b = true)
    (h2 : ∀ b ∈ post, blank1 b = true) : trim (pre ++ s ++ post) = s := by
  have a : trimStart (pre ++ s ++ post) = s ++ post := by
    rw [List.append_assoc]
    induction pre with
    | nil =>
      obtain ⟨b, t, rfl, hb⟩ := h.first
      exact trimStart_first _ hb (h.bytes b (by simp)).2
    | cons x pre ih =>
      rw [List.cons_append, trimStart.eq_def]
      simp only [h1 x (by simp), if_true]
      exact ih fun b hb => h1 b (by simp [hb])
  have b : trimBack (s ++ post).reverse = s.reverse := by
    rw [List.reverse_append]
    have h3 : ∀ b ∈ post.reverse, blank1 b = true := fun b hb => h2 b (List.mem_reverse.1 hb)
    generalize post.reverse = q at h3
    induction q with
    | nil =>
      obtain ⟨b, t, rfl, hb⟩ := h.last
      rw [List.reverse_append]
      exact trimBack_first _ hb (h.bytes b (by simp)).2
    | cons x q ih =>
      rw [List.cons_append, trimBack.eq_def]
      simp only [h3 x (by simp), if_true]
      exact ih fun b hb => h3 b (by simp [hb])
  unfold trim
  rw [a, b, List.reverse_reverse]

theorem valid_ascii : ∀ (s : List UInt8), (∀ b ∈ s, b < 128) → validUtf8 s = true := by
  intro s
  induction s with
  | nil => intro _; rfl
  | cons b t ih =>
    intro h
    rw [validUtf8.eq_def]
    simp only
    rw [if_pos (h b (by simp))]
    exact ih fun x hx => h x (by simp [hx])

theorem Neat.no_feed {s : List UInt8} (h : Neat s) : 10 ∉ s := fun hm => absurd (h.bytes 10 hm).1 (by decide)

/-- The line for a window. -/
def windowLine (w : Nat) : List UInt8 := unsplit 32 [kw_window, dec w]

theorem windowLine_neat (w : Nat) : Neat (windowLine w) := by
  refine unsplit_neat _ (by simp) fun t ht => ?_
  simp only [List.mem_cons, List.not_mem_nil, or_false] at ht
  rcases ht with rfl | rfl
  · unfold Word; decide
  · exact dec_word _

theorem windowLine_split (w : Nat) : split 32 (windowLine w) = [kw_window, dec w] := by
  unfold windowLine
  rw [split_unsplit _ (by simp) (by
    intro t ht
    simp only [List.mem_cons, List.not_mem_nil, or_false] at ht
    rcases ht with rfl | rfl
    · decide
    · exact dec_no_space _)]

theorem parseWindow_of (n : List UInt8) (v : Int) (h : parseInt n = some v) (h1 : -2147483648 ≤ v) (h2 : v < 2147483648)
    (s : List UInt8) (hs : split 32 s = [kw_window, n]) : parseWindow s = .ok v := by
  unfold parseWindow
  rw [hs]
  simp only [ne_eq, not_true_eq_false, if_false, h, orErr, Out.bind, h1, h2, and_self, if_true]

theorem windowLine_parse {w : Nat} (h : w < 2147483648) : parseWindow (windowLine w) = .ok (w : Int) := 
  parseWindow_of _ _ (parseInt_dec (Nat.lt_trans h (by decide))) (by omega) (by omega) _ (windowLine_split w)

theorem Neat.valid_line {s : List UInt8} (h : Neat s) : validUtf8 (s ++ [10]) = true := by
  refine valid_ascii _ fun b hb => ?_
  rcases List.mem_append.1 hb with hb | hb
  · exact (h.bytes b hb).2
  · rw [List.mem_singleton.1 hb]; decide

theorem Neat.trim_line {s : List UInt8} (h : Neat s) : trim (s ++ [10]) = s := by
  have := trim_neat h [] [10] (by simp) (by decide)
  simpa using this

/-- The script of printed commands, with lines behind them. -/
theorem script_append : ∀ (cs : List Text.Cmd) (rs : List Read), (∀ c ∈ cs, Printable c) →
    script ((cs.map printed).map (fun l => .line (l ++ [10])) ++ rs) = (cs ++ (script rs).1, (script rs).2) := by
  intro cs rs
  induction cs with
  | nil => intro _; rfl
  | cons c cs ih =>
    intro h
    have hn := printed_neat c (h c (by simp))
    rw [List.map_cons, List.map_cons, List.cons_append, script, if_neg (by rw [hn.valid_line]; simp), hn.trim_line,
      printed_parse c (h c (by simp))]
    simp only
    rw [ih fun x hx => h x (by simp [hx])]
    rfl

theorem script_printed (cs : List Text.Cmd) (h : ∀ c ∈ cs, Printable c) :
    script ((cs.map printed).map fun l => .line (l ++ [10])) = (cs, .ok) := by
  have := script_append cs [] h
  simpa [script] using this

theorem script_not_codecErr : ∀ (rs : List Read), (script rs).2 ≠ .codecErr := by
  intro rs
  induction rs with
  | nil => simp [script]
  | cons r rest ih =>
    cases r with
    | fail => simp [script]
    | line l =>
      rw [script]
      split
      · simp
      · split
        · simp
        · simp
        · exact ih
        · exact ih

/-- A line with a command, or one to be skipped. -/
def GoodLine (r : Read) : Prop := ∃ l x, r = .line l ∧ validUtf8 l = true ∧ Text.parse (trim l) = .ok x

theorem script_good : ∀ (rs : List Read), (script rs).2 = .ok ↔ ∀ r ∈ rs, GoodLine r := by
  intro rs
  induction rs with
  | nil => simp [script]
  | cons r rest ih =>
    cases r with
    | fail => simp [script, GoodLine]
    | line l =>
      rw [List.forall_mem_cons, script]
      by_cases hv : validUtf8 l = false
      · rw [if_pos hv]
        simp [GoodLine, hv]
      · rw [if_neg hv]
        have hv' : validUtf8 l = true := by simpa using hv
        cases hp : Text.parse (trim l) with
        | panic => simp [GoodLine, hp]
        | err => simp [GoodLine, hp]
        | ok x =>
          have g : GoodLine (.line l) := ⟨l, x, rfl, hv', hp⟩
          cases x with
          | none => simp only; rw [ih]; exact ⟨fun h => ⟨g, h⟩, fun h => h.2⟩
          | some c => simp only; rw [ih]; exact ⟨fun h => ⟨g, h⟩, fun h => h.2⟩

/-- A text: the window and the commands, a line for each, and more lines. -/
def program (w : Nat) (cs : List Text.Cmd) (more : List (List UInt8)) : List UInt8 :=
  text (windowLine w :: (cs.map printed ++ more))

theorem program_first {w : Nat} (hw : w < 2147483648) {cs : List Text.Cmd} (h : ∀ c ∈ cs, Printable c) {more : List (List UInt8)}
    (hm : ∀ l ∈ more, 10 ∉ l) (strict : Bool) :
    firstLine strict (linesOf (program w cs more)) = .ok ((w : Int), (cs.map printed).map (fun l => .line (l ++ [10])) ++
      more.map fun l => .line (l ++ [10])) := by
  have e : linesOf (program w cs more) = .line (windowLine w ++ [10]) :: ((cs.map printed).map (fun l => .line (l ++ [10])) ++
      more.map fun l => .line (l ++ [10])) := by
    rw [program, linesOf_text]
    · simp
    · intro l hl
      rcases List.mem_cons.1 hl with rfl | hl
      · exact (windowLine_neat w).no_feed
      · rcases List.mem_append.1 hl with hl | hl
        · obtain ⟨c, hc, rfl⟩ := List.mem_map.1 hl
          exact (printed_neat c (h c hc)).no_feed
        · exact hm l hl
  rw [e, firstLine, if_neg (by rw [(windowLine_neat w).valid_line]; simp), (windowLine_neat w).trim_line, windowLine_parse hw]

end Divans.Ir
