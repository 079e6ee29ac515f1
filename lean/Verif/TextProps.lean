import Verif.Text
import Mathlib.Tactic.SplitIfs
import Mathlib.Tactic.ByContra
import Mathlib.Tactic.Tauto

/-!
# Properties of the textual command format

C37: literal data in hexadecimal and in quotes, and whole commands, are parsed back; malformed text is
rejected without a crash, except for one line.
-/

namespace Divans.Text

/-! ## Specification -/

/-- `c` is the hexadecimal digit, of either case, with the value `x`. -/
def HexDigit (c : UInt8) (x : Nat) : Prop :=
  ([48, 49, 50, 51, 52, 53, 54, 55, 56, 57, 97, 98, 99, 100, 101, 102] : List UInt8)[x]? = some c ∨
  ([48, 49, 50, 51, 52, 53, 54, 55, 56, 57, 65, 66, 67, 68, 69, 70] : List UInt8)[x]? = some c

/-- Two digits for each byte. -/
inductive HexPairs : List UInt8 → List UInt8 → Prop where
  | nil : HexPairs [] []
  | cons {h l : UInt8} {x y : Nat} {t o : List UInt8} (hx : HexDigit h x) (hy : HexDigit l y)
      (ht : HexPairs t o) : HexPairs (h :: l :: t) (UInt8.ofNat (16 * x + y) :: o)

/-- Tab, line feed, carriage return. -/
def isBlank (b : UInt8) : Bool := b = 10 ∨ b = 9 ∨ b = 13

/-- Hexadecimal text for bytes: two digits for each byte, with blanks anywhere. -/
def HexText (s out : List UInt8) : Prop := HexPairs (s.filter fun b => !isBlank b) out

/-- The text between quotes for bytes: every byte except quote and backslash stands for itself; `\n`,
`\r`, `\t`, `\\`, `\'`, `\"`, `\?`; and `\x` with two digits for any byte. -/
inductive Quoted : List UInt8 → List UInt8 → Prop where
  | nil : Quoted [] []
  | plain {b : UInt8} {t o : List UInt8} (h1 : b ≠ 34) (h2 : b ≠ 92) (ht : Quoted t o) :
      Quoted (b :: t) (b :: o)
  | letter {c x : UInt8} {t o : List UInt8}
      (h : (c, x) ∈ [((110 : UInt8), (10 : UInt8)), (114, 13), (116, 9), (92, 92), (39, 39), (34, 34),
        (63, 63)]) (ht : Quoted t o) : Quoted (92 :: c :: t) (x :: o)
  | hex {h l : UInt8} {x y : Nat} {t o : List UInt8} (hx : HexDigit h x) (hy : HexDigit l y)
      (ht : Quoted t o) : Quoted (92 :: 120 :: h :: l :: t) (UInt8.ofNat (16 * x + y) :: o)

/-- Text for literal data: hexadecimal, or in quotes. -/
def LiteralText (s out : List UInt8) : Prop :=
  HexText s out ∨ ∃ body, s = 34 :: (body ++ [34]) ∧ Quoted body out

/-! ## Hexadecimal digits -/

theorem all_bytes {P : UInt8 → Prop} (h : ∀ n < 256, P (UInt8.ofNat n)) (b : UInt8) : P b := by
  have := h b.toNat b.toNat_lt
  rwa [UInt8.ofNat_toNat] at this

theorem hexToNibble_some : ∀ n < 256, ∀ x, hexToNibble (UInt8.ofNat n) = some x →
    HexDigit (UInt8.ofNat n) x.toNat ∧ x < 16 := by
  intro n hn x h
  have key : ∀ n < 256, (hexToNibble (UInt8.ofNat n)).all (fun x => decide ((
      ([48, 49, 50, 51, 52, 53, 54, 55, 56, 57, 97, 98, 99, 100, 101, 102] : List UInt8)[x.toNat]? =
        some (UInt8.ofNat n) ∨
      ([48, 49, 50, 51, 52, 53, 54, 55, 56, 57, 65, 66, 67, 68, 69, 70] : List UInt8)[x.toNat]? =
        some (UInt8.ofNat n)) ∧ x < 16)) = true := by
    decide +kernel
  have := key n hn
  rw [h] at this
  simp only [Option.all_some, decide_eq_true_eq] at this
  exact this

theorem hexDigit_nibble {c : UInt8} {x : Nat} (h : HexDigit c x) :
    hexToNibble c = some (UInt8.ofNat x) ∧ x < 16 := by
  have hx : x < 16 := by
    rcases h with h | h <;>
    · obtain ⟨hh, -⟩ := List.getElem?_eq_some_iff.1 h
      simpa using hh
  refine ⟨?_, hx⟩
  have key : ∀ x < 16, ∀ c ∈ [([48, 49, 50, 51, 52, 53, 54, 55, 56, 57, 97, 98, 99, 100, 101, 102] : List UInt8)[x]?,
      ([48, 49, 50, 51, 52, 53, 54, 55, 56, 57, 65, 66, 67, 68, 69, 70] : List UInt8)[x]?],
      c.bind hexToNibble = some (UInt8.ofNat x) := by decide
  rcases h with h | h
  · have := key x hx _ (by left)
    rw [h] at this
    exact this
  · have := key x hx _ (by right; left)
    rw [h] at this
    exact this

theorem nibble_blank (b : UInt8) (h : isBlank b = true) : hexToNibble b = none := by
  revert h
  revert b
  refine all_bytes ?_
  decide +kernel

theorem nibble_iff (c x : UInt8) : hexToNibble c = some x ↔ HexDigit c x.toNat := by
  constructor
  · intro h
    have := hexToNibble_some c.toNat c.toNat_lt x (by rw [UInt8.ofNat_toNat]; exact h)
    rw [UInt8.ofNat_toNat] at this
    exact this.1
  · intro h
    have := (hexDigit_nibble h).1
    rw [UInt8.ofNat_toNat] at this
    exact this

theorem nibble_lt {c x : UInt8} (h : hexToNibble c = some x) : x.toNat < 16 :=
  (hexDigit_nibble ((nibble_iff c x).1 h)).2

/-- Two nibbles make a byte. -/
theorem join_nibbles : ∀ x < 16, ∀ y < 16,
    (UInt8.ofNat x <<< 4) ||| UInt8.ofNat y = UInt8.ofNat (16 * x + y) := by decide +kernel

theorem join_nibbles' {a b : UInt8} (ha : a.toNat < 16) (hb : b.toNat < 16) :
    (a <<< 4) ||| b = UInt8.ofNat (16 * a.toNat + b.toNat) := by
  have := join_nibbles _ ha _ hb
  rwa [UInt8.ofNat_toNat, UInt8.ofNat_toNat] at this

/-- Whatever was in the buffer before, the upper nibble is shifted out. -/
theorem shift_twice (z : UInt8) : ∀ x y : UInt8, x.toNat < 16 → y.toNat < 16 →
    (((z <<< 4) ||| x) <<< 4) ||| y = (x <<< 4) ||| y := by
  intro x y hx hy
  have h1 : (((z <<< 4) ||| x) <<< 4) = x <<< 4 := by
    apply UInt8.eq_of_toBitVec_eq
    simp only [UInt8.toBitVec_shiftLeft, UInt8.toBitVec_or]
    generalize z.toBitVec = a
    generalize x.toBitVec = b
    revert a b
    decide +kernel
  rw [h1]

theorem hexLoop_blank {b : UInt8} (hb : isBlank b = true) (t : List UInt8) (r : Nat) (z : UInt8)
    (o : List UInt8) : hexLoop (b :: t) r z o = hexLoop t r z o := by
  simp only [hexLoop, nibble_blank b hb]
  rw [if_pos (by simpa [isBlank] using hb)]

theorem hexLoop_filter (s : List UInt8) : ∀ (r : Nat) (z : UInt8) (o : List UInt8),
    hexLoop s r z o = hexLoop (s.filter fun b => !isBlank b) r z o := by
  induction s with
  | nil => intro r z o; rfl
  | cons b t ih =>
    intro r z o
    by_cases hb : isBlank b = true
    · rw [hexLoop_blank hb]
      simp only [List.filter_cons, hb, Bool.not_true, Bool.false_eq_true, if_false]
      exact ih r z o
    · simp only [Bool.not_eq_true] at hb
      simp only [List.filter_cons, hb, Bool.not_false, if_true]
      simp only [hexLoop, ih]

/-- The loop over digits only. -/
theorem hexLoop_pairs (n : Nat) : ∀ (s : List UInt8), s.length ≤ n → (∀ b ∈ s, isBlank b = false) →
    ∀ (z : UInt8) (o out : List UInt8), hexLoop s 0 z o = some (0, out) ↔
      ∃ o', out = o ++ o' ∧ HexPairs s o' := by
  induction n with
  | zero =>
    intro s hs _ z o out
    have : s = [] := List.length_eq_zero_iff.1 (by omega)
    subst this
    simp only [hexLoop, Option.some.injEq, Prod.mk.injEq, true_and]
    constructor
    · rintro rfl; exact ⟨[], by simp, .nil⟩
    · rintro ⟨o', rfl, h⟩; cases h; simp
  | succ n ih =>
    intro s hs hb z o out
    cases s with
    | nil =>
      simp only [hexLoop, Option.some.injEq, Prod.mk.injEq, true_and]
      constructor
      · rintro rfl; exact ⟨[], by simp, .nil⟩
      · rintro ⟨o', rfl, h⟩; cases h; simp
    | cons h t =>
      have hbh : ¬ (h = 10 ∨ h = 9 ∨ h = 13) := by
        have := hb h (by simp)
        simpa [isBlank] using this
      cases hh : hexToNibble h with
      | none =>
        simp only [hexLoop, hh]
        rw [if_neg hbh]
        constructor
        · intro h; cases h
        · rintro ⟨o', -, hp⟩
          cases hp with
          | cons hx hy ht =>
            rw [(hexDigit_nibble hx).1] at hh
            cases hh
      | some x =>
        cases t with
        | nil =>
          simp only [hexLoop, hh]
          constructor
          · intro h; simp at h
          · rintro ⟨o', -, hp⟩; cases hp
        | cons l t =>
          have hbl : ¬ (l = 10 ∨ l = 9 ∨ l = 13) := by
            have := hb l (by simp)
            simpa [isBlank] using this
          cases hl : hexToNibble l with
          | none =>
            have e : hexLoop (h :: l :: t) 0 z o = none := by
              simp only [hexLoop, hh, hl]
              simp [hbl]
            rw [e]
            constructor
            · intro h; cases h
            · rintro ⟨o', -, hp⟩
              cases hp with
              | cons hx hy ht =>
                rw [(hexDigit_nibble hy).1] at hl
                cases hl
          | some y =>
            have e : hexLoop (h :: l :: t) 0 z o =
                hexLoop t 0 ((x <<< 4) ||| y) (o ++ [(x <<< 4) ||| y]) := by
              simp only [hexLoop, hh, hl]
              simp only [Nat.zero_add, Nat.reduceAdd, Nat.reduceEqDiff, if_false, if_true]
              rw [shift_twice z x y (nibble_lt hh) (nibble_lt hl)]
            rw [e, ih t (by simp at hs; omega) (fun b hm => hb b (by simp [hm]))]
            rw [join_nibbles' (nibble_lt hh) (nibble_lt hl)]
            constructor
            · rintro ⟨o', rfl, hp⟩
              exact ⟨_ :: o', by simp, .cons ((nibble_iff h x).1 hh) ((nibble_iff l y).1 hl) hp⟩
            · rintro ⟨o', rfl, hp⟩
              cases hp with
              | cons hx hy ht =>
                rename_i x' y' o''
                have e1 := (hexDigit_nibble hx)
                have e2 := (hexDigit_nibble hy)
                rw [hh] at e1
                rw [hl] at e2
                simp only [Option.some.injEq] at e1 e2
                refine ⟨o'', ?_, ht⟩
                rw [e1.1, e2.1]
                simp only [List.append_assoc, List.singleton_append]
                rw [UInt8.toNat_ofNat', UInt8.toNat_ofNat', Nat.mod_eq_of_lt (by have := e1.2; omega),
                  Nat.mod_eq_of_lt (by have := e2.2; omega)]

theorem hexLoop_rem (s : List UInt8) : ∀ (r : Nat) (z : UInt8) (o : List UInt8) (r' : Nat) (o' : List UInt8),
    hexLoop s r z o = some (r', o') → r < 2 → r' < 2 := by
  induction s with
  | nil => intro r z o r' o' h hr; simp only [hexLoop, Option.some.injEq, Prod.mk.injEq] at h; omega
  | cons b t ih =>
    intro r z o r' o' h hr
    simp only [hexLoop] at h
    split at h
    · split_ifs at h with h2
      · exact ih _ _ _ _ _ h (by omega)
      · exact ih _ _ _ _ _ h (by omega)
    · split_ifs at h
      exact ih _ _ _ _ _ h hr

/-- Hexadecimal text is accepted exactly when it is well formed, with the bytes it stands for. -/
theorem hex_parses (s out : List UInt8) : hexSlice s = .ok out ↔ HexText s out := by
  unfold hexSlice HexText
  rw [hexLoop_filter]
  have key := hexLoop_pairs _ (s.filter fun b => !isBlank b) (Nat.le_refl _)
    (by intro b hb; simpa using (List.mem_filter.1 hb).2) 0 [] out
  simp only [List.nil_append, exists_eq_left'] at key
  rw [← key]
  cases h : hexLoop (s.filter fun b => !isBlank b) 0 0 [] with
  | none => simp [complain]; split_ifs <;> simp
  | some r =>
    obtain ⟨rem, o⟩ := r
    simp only [Option.some.injEq, Prod.mk.injEq]
    by_cases hr : rem = 0
    · rw [if_neg (by omega)]; simp [hr]
    · rw [if_pos hr]; simp [hr]

/-! ## Quotes -/

/-- The loop in its resting state. -/
def rest (o : List UInt8) : Q := ⟨o, false, false, false, none⟩

theorem escape_iff (c x : UInt8) : escape c = some x ↔
    (c, x) ∈ [((110 : UInt8), (10 : UInt8)), (114, 13), (116, 9), (92, 92), (39, 39), (34, 34), (63, 63)] := by
  simp only [List.mem_cons, Prod.mk.injEq, List.not_mem_nil, or_false]
  unfold escape
  split_ifs with h1 h2 h3 h4 h5 h6 h7 <;> (try subst_vars) <;>
    simp_all [eq_comm]

theorem escape_x : escape 120 = none := by decide

/-- The loop from the resting state. -/
theorem qLoop_rest (n : Nat) : ∀ (s : List UInt8), s.length ≤ n → ∀ (o out : List UInt8),
    (∃ q, qLoop (rest o) s = some q ∧ q.hexed = false ∧ q.escaped = false ∧ q.mustEnd = true ∧ q.out = out) ↔
      ∃ body o', s = body ++ [34] ∧ out = o ++ o' ∧ Quoted body o' := by
  induction n with
  | zero =>
    intro s hs o out
    have : s = [] := List.length_eq_zero_iff.1 (by omega)
    subst this
    constructor
    · rintro ⟨q, h, -, -, hm, -⟩
      simp only [qLoop, Option.some.injEq] at h
      subst h
      cases hm
    · rintro ⟨body, o', h, -⟩
      simp at h
  | succ n ih =>
    intro s hs o out
    cases s with
    | nil =>
      constructor
      · rintro ⟨q, h, -, -, hm, -⟩
        simp only [qLoop, Option.some.injEq] at h
        subst h
        cases hm
      · rintro ⟨body, o', h, -⟩
        simp at h
    | cons b t =>
      simp only [List.length_cons] at hs
      by_cases hq : b = 34
      · -- the end
        subst hq
        have e : qLoop (rest o) (34 :: t) = qLoop { rest o with mustEnd := true } t := by
          simp [qLoop, qStep, rest]
        rw [e]
        cases t with
        | nil =>
          constructor
          · rintro ⟨q, h, -, -, -, ho⟩
            simp only [qLoop, Option.some.injEq] at h
            subst h
            exact ⟨[], [], rfl, by simpa [rest] using ho.symm, .nil⟩
          · rintro ⟨body, o', h, rfl, hb⟩
            have : body = [] := by
              cases body with
              | nil => rfl
              | cons _ _ => simp at h
            subst this
            cases hb
            exact ⟨_, rfl, rfl, rfl, rfl, by simp [rest]⟩
        | cons c t =>
          constructor
          · rintro ⟨q, h, -⟩
            simp [qLoop, qStep] at h
          · rintro ⟨body, o', h, -, hb⟩
            cases hb with
            | nil => simp at h
            | plain h1 _ _ => simp only [List.cons_append, List.cons.injEq] at h; exact absurd h.1.symm h1
            | letter _ _ => simp at h
            | hex _ _ _ => simp at h
      · by_cases hbs : b = 92
        · subst hbs
          cases t with
          | nil =>
            constructor
            · rintro ⟨q, h, -, he, -⟩
              simp [qLoop, qStep, rest] at h
              subst h
              cases he
            · rintro ⟨body, o', h, -, hb⟩
              cases hb with
              | nil => simp at h
              | plain _ h2 _ => simp only [List.cons_append, List.cons.injEq] at h; exact absurd h.1.symm h2
              | letter _ _ => simp at h
              | hex _ _ _ => simp at h
          | cons c t =>
            simp only [List.length_cons] at hs
            have e1 : qLoop (rest o) (92 :: c :: t) =
                (qStep { rest o with escaped := true } c).bind fun q => qLoop q t := by
              simp [qLoop, qStep, rest]
            by_cases hx : c = 120
            · subst hx
              have e2 : qLoop (rest o) (92 :: 120 :: t) =
                  qLoop { rest o with escaped := true, hexed := true } t := by
                rw [e1]; simp [qStep, rest]
              rw [e2]
              have shape : ∀ body o' : List UInt8, 92 :: 120 :: t = body ++ [34] → Quoted body o' →
                  ∃ h l x y body' o'', t = h :: l :: body' ++ [34] ∧ HexDigit h x ∧ HexDigit l y ∧
                    Quoted body' o'' ∧ o' = UInt8.ofNat (16 * x + y) :: o'' := by
                intro body o' h hb
                cases hb with
                | nil => simp at h
                | plain _ h2 _ => simp only [List.cons_append, List.cons.injEq] at h; exact absurd h.1.symm h2
                | letter hm _ =>
                  simp only [List.cons_append, List.cons.injEq] at h
                  rw [← h.2.1] at hm
                  simp at hm
                | hex hx hy ht =>
                  simp only [List.cons_append, List.cons.injEq, true_and] at h
                  exact ⟨_, _, _, _, _, _, by rw [h]; simp, hx, hy, ht, rfl⟩
              cases t with
              | nil =>
                constructor
                · rintro ⟨q, h, hh, -⟩
                  simp only [qLoop, Option.some.injEq] at h
                  subst h
                  cases hh
                · rintro ⟨body, o', h, -, hb⟩
                  obtain ⟨h', l, x, y, b', o'', ht, -⟩ := shape body o' h hb
                  simp at ht
              | cons h t =>
                simp only [List.length_cons] at hs
                cases hh : hexToNibble h with
                | none =>
                  constructor
                  · rintro ⟨q, h', -⟩
                    simp [qLoop, qStep, rest, hh] at h'
                  · rintro ⟨body, o', h', -, hb⟩
                    obtain ⟨h2, l, x, y, b', o'', ht, hd, -⟩ := shape body o' h' hb
                    simp only [List.cons_append, List.cons.injEq] at ht
                    rw [← ht.1] at hd
                    rw [(hexDigit_nibble hd).1] at hh
                    cases hh
                | some x =>
                  cases t with
                  | nil =>
                    constructor
                    · rintro ⟨q, h', hh', -⟩
                      simp [qLoop, qStep, rest, hh] at h'
                      subst h'
                      cases hh'
                    · rintro ⟨body, o', h', -, hb⟩
                      obtain ⟨h2, l, x, y, b', o'', ht, hd, -⟩ := shape body o' h' hb
                      simp at ht
                  | cons l t =>
                    simp only [List.length_cons] at hs
                    cases hl : hexToNibble l with
                    | none =>
                      constructor
                      · rintro ⟨q, h', -⟩
                        simp [qLoop, qStep, rest, hh, hl] at h'
                      · rintro ⟨body, o', h', -, hb⟩
                        obtain ⟨h2, l2, x2, y2, b', o'', ht, hd, hd2, -⟩ := shape body o' h' hb
                        simp only [List.cons_append, List.cons.injEq] at ht
                        rw [← ht.2.1] at hd2
                        rw [(hexDigit_nibble hd2).1] at hl
                        cases hl
                    | some y =>
                      have e3 : qLoop { rest o with escaped := true, hexed := true } (h :: l :: t) =
                          qLoop (rest (o ++ [(x <<< 4) ||| y])) t := by
                        simp [qLoop, qStep, rest, hh, hl]
                      rw [e3, ih t (by omega), join_nibbles' (nibble_lt hh) (nibble_lt hl)]
                      constructor
                      · rintro ⟨body, o', rfl, rfl, hb⟩
                        exact ⟨92 :: 120 :: h :: l :: body, _ :: o', by simp, by simp,
                          .hex ((nibble_iff h x).1 hh) ((nibble_iff l y).1 hl) hb⟩
                      · rintro ⟨body, o', h', rfl, hb⟩
                        obtain ⟨h2, l2, x2, y2, b', o'', ht, hd, hd2, hb', rfl⟩ := shape body o' h' hb
                        simp only [List.cons_append, List.cons.injEq] at ht
                        obtain ⟨rfl, rfl, rfl⟩ := ht
                        have e4 := hexDigit_nibble hd
                        have e5 := hexDigit_nibble hd2
                        rw [hh] at e4
                        rw [hl] at e5
                        simp only [Option.some.injEq] at e4 e5
                        refine ⟨b', o'', rfl, ?_, hb'⟩
                        rw [e4.1, e5.1, UInt8.toNat_ofNat', UInt8.toNat_ofNat',
                          Nat.mod_eq_of_lt (by have := e4.2; omega), Nat.mod_eq_of_lt (by have := e5.2; omega)]
                        simp
            · have shape : ∀ body o' : List UInt8, 92 :: c :: t = body ++ [34] → Quoted body o' →
                  (∃ x body' o'', t = body' ++ [34] ∧ escape c = some x ∧ Quoted body' o'' ∧ o' = x :: o'') := by
                intro body o' h hb
                cases hb with
                | nil => simp at h
                | plain _ h2 _ => simp only [List.cons_append, List.cons.injEq] at h; exact absurd h.1.symm h2
                | letter hm ht =>
                  simp only [List.cons_append, List.cons.injEq, true_and] at h
                  rw [← h.1] at hm
                  exact ⟨_, _, _, h.2, (escape_iff _ _).2 hm, ht, rfl⟩
                | hex hx' hy ht =>
                  simp only [List.cons_append, List.cons.injEq, true_and] at h
                  exact absurd h.1 hx
              cases he : escape c with
              | none =>
                have e2 : qLoop (rest o) (92 :: c :: t) = none := by
                  rw [e1]; simp [qStep, rest, he, hx]
                rw [e2]
                constructor
                · rintro ⟨q, h, -⟩; cases h
                · rintro ⟨body, o', h, -, hb⟩
                  obtain ⟨x, b', o'', -, h2, -⟩ := shape body o' h hb
                  rw [he] at h2
                  cases h2
              | some x =>
                have e2 : qLoop (rest o) (92 :: c :: t) = qLoop (rest (o ++ [x])) t := by
                  rw [e1]; simp [qStep, rest, he, hx]
                rw [e2, ih t (by omega)]
                constructor
                · rintro ⟨body, o', rfl, rfl, hb⟩
                  exact ⟨92 :: c :: body, x :: o', by simp, by simp, .letter ((escape_iff _ _).1 he) hb⟩
                · rintro ⟨body, o', h, rfl, hb⟩
                  obtain ⟨x', b', o'', ht, h2, hb', rfl⟩ := shape body o' h hb
                  rw [he] at h2
                  simp only [Option.some.injEq] at h2
                  subst h2
                  exact ⟨b', o'', ht, by simp, hb'⟩
        · -- an ordinary byte
          have e : qLoop (rest o) (b :: t) = qLoop (rest (o ++ [b])) t := by
            simp [qLoop, qStep, rest, hq, hbs]
          rw [e, ih t (by omega)]
          constructor
          · rintro ⟨body, o', rfl, rfl, hb⟩
            exact ⟨b :: body, b :: o', by simp, by simp, .plain hq hbs hb⟩
          · rintro ⟨body, o', h, rfl, hb⟩
            cases hb with
            | nil => simp only [List.nil_append, List.cons.injEq] at h; exact absurd h.1 hq
            | plain h1 h2 ht =>
              simp only [List.cons_append, List.cons.injEq] at h
              obtain ⟨rfl, rfl⟩ := h
              exact ⟨_, _, rfl, by simp, ht⟩
            | letter _ _ => simp only [List.cons_append, List.cons.injEq] at h; exact absurd h.1 hbs
            | hex _ _ _ => simp only [List.cons_append, List.cons.injEq] at h; exact absurd h.1 hbs

/-- Text beginning with a quote is accepted exactly when it is well formed, with the bytes it stands
for. -/
theorem quoted_parses (t out : List UInt8) :
    literalSlice (34 :: t) = .ok out ↔ ∃ body, t = body ++ [34] ∧ Quoted body out := by
  have key := qLoop_rest _ t (Nat.le_refl _) [] out
  simp only [List.nil_append] at key
  have key' : (∃ q, qLoop (rest []) t = some q ∧ q.hexed = false ∧ q.escaped = false ∧ q.mustEnd = true ∧
      q.out = out) ↔ ∃ body, t = body ++ [34] ∧ Quoted body out := by
    rw [key]
    constructor
    · rintro ⟨b, o', h1, rfl, h3⟩; exact ⟨b, h1, h3⟩
    · rintro ⟨b, h1, h3⟩; exact ⟨b, out, h1, rfl, h3⟩
  rw [← key']
  simp only [literalSlice, if_true]
  unfold quotedSlice
  have hcomp : ∀ s, (complain s : Out (List UInt8)) = .ok out ↔ False := by
    intro s
    unfold complain
    split_ifs <;> simp
  by_cases hl : (34 :: t).length < 2
  · rw [if_pos hl, hcomp]
    simp only [List.length_cons] at hl
    have : t = [] := List.length_eq_zero_iff.1 (by omega)
    subst this
    constructor
    · intro h; exact h.elim
    · rintro ⟨q, h, -, -, hm, -⟩
      simp only [qLoop, Option.some.injEq] at h
      subst h
      cases hm
  · rw [if_neg hl]
    simp only [List.tail_cons]
    change (match qLoop (rest []) t with
      | none => complain (34 :: t)
      | some q => if q.hexed || q.escaped || !q.mustEnd then complain (34 :: t) else .ok q.out) = .ok out ↔ _
    cases h : qLoop (rest []) t with
    | none => simp [hcomp]
    | some q =>
      simp only [Option.some.injEq]
      by_cases hc : (q.hexed || q.escaped || !q.mustEnd) = true
      · rw [if_pos hc, hcomp]
        constructor
        · intro h; exact h.elim
        · rintro ⟨q', rfl, h1, h2, h3, -⟩
          rw [h1, h2, h3] at hc
          simp at hc
      · rw [if_neg hc]
        simp only [Bool.or_eq_true, Bool.not_eq_true', not_or, Bool.not_eq_true, Bool.not_eq_false] at hc
        simp only [Out.ok.injEq]
        constructor
        · intro ho; exact ⟨q, rfl, hc.1.1, hc.1.2, hc.2, ho⟩
        · rintro ⟨q', rfl, -, -, -, ho⟩; exact ho

/-- **C37, literal data.**  Text for literal data is accepted exactly when it is well formed, hexadecimal
or in quotes, and then gives the bytes it stands for. -/
theorem literal_text (s out : List UInt8) : literalSlice s = .ok out ↔ LiteralText s out := by
  unfold LiteralText
  cases s with
  | nil =>
    simp only [literalSlice, Out.ok.injEq]
    constructor
    · rintro rfl; exact Or.inl .nil
    · rintro (h | ⟨body, h, -⟩)
      · cases h; rfl
      · cases h
  | cons b t =>
    by_cases hb : b = 34
    · subst hb
      rw [quoted_parses]
      constructor
      · rintro ⟨body, rfl, hq⟩; exact Or.inr ⟨body, rfl, hq⟩
      · rintro (h | ⟨body, h, hq⟩)
        · exfalso
          unfold HexText at h
          rw [show List.filter (fun b => !isBlank b) (34 :: t) = 34 :: List.filter (fun b => !isBlank b) t by
            rw [List.filter_cons]; rfl] at h
          generalize List.filter (fun b => !isBlank b) t = r at h
          cases h with
          | cons hx _ _ =>
            have := (hexDigit_nibble hx).1
            simp [hexToNibble] at this
        · simp only [List.cons.injEq, true_and] at h
          exact ⟨body, h, hq⟩
    · simp only [literalSlice]
      rw [if_neg hb, hex_parses]
      constructor
      · exact Or.inl
      · rintro (h | ⟨body, h, -⟩)
        · exact h
        · simp only [List.cons.injEq] at h
          exact absurd h.1 hb

/-! ## Crashes -/

theorem cont_space : isCont 32 = false := by decide

theorem second3_space (b : UInt8) : second3 b 32 = false := by
  unfold second3
  split_ifs <;> decide

theorem second4_space (b : UInt8) : second4 b 32 = false := by
  unfold second4
  split_ifs <;> decide

theorem valid_cons (b : UInt8) (t : List UInt8) : validUtf8 (b :: t) =
    (if b < 0x80 then validUtf8 t
    else if 0xC2 ≤ b ∧ b ≤ 0xDF then
      match t with
      | c :: t' => isCont c && validUtf8 t'
      | _ => false
    else if 0xE0 ≤ b ∧ b ≤ 0xEF then
      match t with
      | c :: d :: t' => second3 b c && isCont d && validUtf8 t'
      | _ => false
    else if 0xF0 ≤ b ∧ b ≤ 0xF4 then
      match t with
      | c :: d :: e :: t' => second4 b c && isCont d && isCont e && validUtf8 t'
      | _ => false
    else false) := by
  rw [validUtf8.eq_def]
  rfl

theorem valid_space (t : List UInt8) : validUtf8 (32 :: t) = validUtf8 t := by
  rw [valid_cons, if_pos (by decide)]

/-- What follows a space in valid text is valid text. -/
theorem valid_after_space (n : Nat) : ∀ (a b : List UInt8), a.length ≤ n →
    validUtf8 (a ++ 32 :: b) = true → validUtf8 b = true := by
  induction n with
  | zero =>
    intro a b hl h
    have : a = [] := List.length_eq_zero_iff.1 (by omega)
    subst this
    rwa [List.nil_append, valid_space] at h
  | succ n ih =>
    intro a b hl h
    cases a with
    | nil => rwa [List.nil_append, valid_space] at h
    | cons x a =>
      simp only [List.length_cons] at hl
      rw [List.cons_append, valid_cons] at h
      split_ifs at h with h1 h2 h3 h4
      · exact ih a b (by omega) h
      · cases a with
        | nil => simp [cont_space] at h
        | cons c a =>
          simp only [List.cons_append, Bool.and_eq_true] at h
          simp only [List.length_cons] at hl
          exact ih a b (by omega) h.2
      · cases a with
        | nil =>
          cases b with
          | nil => simp at h
          | cons y b => simp [second3_space] at h
        | cons c a =>
          cases a with
          | nil => simp [cont_space] at h
          | cons d a =>
            simp only [List.cons_append, Bool.and_eq_true] at h
            simp only [List.length_cons] at hl
            exact ih a b (by omega) h.2
      · cases a with
        | nil =>
          cases b with
          | nil => simp at h
          | cons y b =>
            cases b with
            | nil => simp at h
            | cons z b => simp [second4_space] at h
        | cons c a =>
          cases a with
          | nil =>
            cases b with
            | nil => simp at h
            | cons z b => simp [cont_space] at h
          | cons d a =>
            cases a with
            | nil => simp [cont_space] at h
            | cons e a =>
              simp only [List.cons_append, Bool.and_eq_true] at h
              simp only [List.length_cons] at hl
              exact ih a b (by omega) h.2

theorem complain_valid {α : Type} {s : List UInt8} (h : validUtf8 s = true) : (complain s : Out α) = .err := by
  unfold complain
  rw [if_pos h]

theorem hexSlice_no_panic {s : List UInt8} (h : validUtf8 s = true) : hexSlice s ≠ .panic := by
  unfold hexSlice
  split
  · rw [complain_valid h]; simp
  · split_ifs <;> simp

/-- Text is accepted or rejected, without a crash. -/
theorem literalSlice_no_panic {s : List UInt8} (h : validUtf8 s = true) : literalSlice s ≠ .panic := by
  unfold literalSlice
  split
  · simp
  · split_ifs
    · unfold quotedSlice
      split_ifs
      · rw [complain_valid h]; simp
      · split
        · rw [complain_valid h]; simp
        · split_ifs
          · rw [complain_valid h]; simp
          · simp
    · exact hexSlice_no_panic h

/-! ### Tokens -/

theorem split_ne_nil (sep : UInt8) (s : List UInt8) : split sep s ≠ [] := by
  cases s with
  | nil => simp [split]
  | cons b t =>
    unfold split
    split_ifs
    · simp
    · split <;> simp

theorem split_cons_sep (sep : UInt8) (t : List UInt8) : split sep (sep :: t) = [] :: split sep t := by
  rw [split, if_pos rfl]

theorem split_cons_other {sep b : UInt8} (h : b ≠ sep) (t : List UInt8) :
    ∃ x xs, split sep t = x :: xs ∧ split sep (b :: t) = (b :: x) :: xs := by
  cases hs : split sep t with
  | nil => exact absurd hs (split_ne_nil sep t)
  | cons x xs => exact ⟨x, xs, rfl, by rw [split, if_neg h, hs]⟩

theorem split_word {sep : UInt8} (a : List UInt8) (ha : sep ∉ a) (t : List UInt8) :
    split sep (a ++ sep :: t) = a :: split sep t := by
  induction a with
  | nil => exact split_cons_sep sep t
  | cons b a ih =>
    simp only [List.mem_cons, not_or] at ha
    obtain ⟨x, xs, h1, h2⟩ := split_cons_other (Ne.symm ha.1) (a ++ sep :: t)
    rw [ih ha.2] at h1
    rw [List.cons_append, h2]
    simp only [List.cons.injEq] at h1
    rw [h1.1, h1.2]

theorem split_last {sep : UInt8} (a : List UInt8) (ha : sep ∉ a) : split sep a = [a] := by
  induction a with
  | nil => rfl
  | cons b a ih =>
    simp only [List.mem_cons, not_or] at ha
    obtain ⟨x, xs, h1, h2⟩ := split_cons_other (Ne.symm ha.1) a
    rw [ih ha.2] at h1
    rw [h2]
    simp only [List.cons.injEq] at h1
    rw [h1.1, h1.2]

/-- The text that tokens come from. -/
def unsplit (sep : UInt8) : List (List UInt8) → List UInt8
  | [] => []
  | [a] => a
  | a :: b :: t => a ++ sep :: unsplit sep (b :: t)

theorem unsplit_split (sep : UInt8) (s : List UInt8) : unsplit sep (split sep s) = s := by
  induction s with
  | nil => rfl
  | cons b t ih =>
    by_cases h : b = sep
    · subst h
      rw [split_cons_sep]
      obtain ⟨x, xs, hx⟩ : ∃ x xs, split b t = x :: xs := by
        cases hs : split b t with
        | nil => exact absurd hs (split_ne_nil b t)
        | cons x xs => exact ⟨x, xs, rfl⟩
      rw [hx] at ih ⊢
      simp only [unsplit, List.nil_append, ih]
    · obtain ⟨x, xs, h1, h2⟩ := split_cons_other h t
      rw [h1] at ih
      rw [h2]
      cases xs with
      | nil => simp only [unsplit] at ih ⊢; rw [ih]
      | cons y ys => simp only [unsplit, List.cons_append] at ih ⊢; rw [ih]

theorem split_no_sep (sep : UInt8) (s : List UInt8) : ∀ t ∈ split sep s, sep ∉ t := by
  induction s with
  | nil => intro t ht; simp only [split, List.mem_singleton] at ht; subst ht; simp
  | cons b s ih =>
    intro t ht
    by_cases h : b = sep
    · subst h
      rw [split_cons_sep] at ht
      rcases List.mem_cons.1 ht with rfl | ht
      · simp
      · exact ih t ht
    · obtain ⟨x, xs, h1, h2⟩ := split_cons_other h s
      rw [h2] at ht
      rw [h1] at ih
      rcases List.mem_cons.1 ht with rfl | ht
      · have := ih x (by simp)
        simp only [List.mem_cons, not_or]
        exact ⟨Ne.symm h, this⟩
      · exact ih t (by simp [ht])

theorem orErr_bind_no_panic {α β : Type} {x : Option α} {f : α → Out β} (h : ∀ a, f a ≠ .panic) :
    (orErr x).bind f ≠ .panic := by
  cases x with
  | none => simp [orErr, Out.bind]
  | some a => simp only [orErr, Out.bind]; exact h a

theorem parsePred_no_panic (toks : List (List UInt8)) : parsePred toks ≠ .panic := by
  unfold parsePred
  split
  · simp
  · repeat (refine orErr_bind_no_panic fun _ => ?_)
    simp

theorem parseCopy_no_panic (toks : List (List UInt8)) : parseCopy toks ≠ .panic := by
  unfold parseCopy
  split
  · refine orErr_bind_no_panic fun _ => ?_
    rename_i f d _ _
    by_cases hf : f ≠ kw_from
    · rw [if_pos hf]; simp
    · rw [if_neg hf]
      refine orErr_bind_no_panic fun _ => ?_
      split_ifs <;> simp
  · simp

theorem parseDict_no_panic (toks : List (List UInt8)) : parseDict toks ≠ .panic := by
  unfold parseDict
  split
  · refine orErr_bind_no_panic fun _ => ?_
    split_ifs
    · simp
    · split
      · refine orErr_bind_no_panic fun _ => ?_
        refine orErr_bind_no_panic fun _ => ?_
        split
        · simp
        · refine orErr_bind_no_panic fun _ => ?_
          simp
      · simp
  · simp

/-- Hexadecimal text has no spaces. -/
theorem hexText_no_space {s out : List UInt8} (h : HexText s out) : (32 : UInt8) ∉ s := by
  intro hm
  have hm' : (32 : UInt8) ∈ s.filter fun b => !isBlank b := List.mem_filter.2 ⟨hm, by decide⟩
  unfold HexText at h
  generalize s.filter (fun b => !isBlank b) = r at h hm'
  induction h with
  | nil => simp at hm'
  | cons hx hy _ ih =>
    have n32 : hexToNibble 32 = none := by decide
    rcases List.mem_cons.1 hm' with rfl | hm'
    · rw [(hexDigit_nibble hx).1] at n32; cases n32
    · rcases List.mem_cons.1 hm' with rfl | hm'
      · rw [(hexDigit_nibble hy).1] at n32; cases n32
      · exact ih hm'

/-- The line, from its tokens. -/
theorem tail_of_tokens {s t0 t1 t2 : List UInt8} {r : List (List UInt8)}
    (h : split 32 s = t0 :: t1 :: t2 :: r) :
    s = t0 ++ 32 :: (t1 ++ 32 :: unsplit 32 (t2 :: r)) ∧
      s.drop (t0.length + t1.length + 2) = unsplit 32 (t2 :: r) := by
  have h1 := unsplit_split 32 s
  rw [h] at h1
  have h2 : s = t0 ++ 32 :: (t1 ++ 32 :: unsplit 32 (t2 :: r)) := by rw [← h1]; rfl
  refine ⟨h2, ?_⟩
  rw [h2]
  have e : t0 ++ 32 :: (t1 ++ 32 :: unsplit 32 (t2 :: r)) =
      (t0 ++ 32 :: (t1 ++ [32])) ++ unsplit 32 (t2 :: r) := by simp
  rw [e, List.drop_append_of_le_length (by simp; omega), List.drop_of_length_le (by simp; omega),
    List.nil_append]

theorem valid_tail {s t0 t1 t2 : List UInt8} {r : List (List UInt8)} (hv : validUtf8 s = true)
    (h : split 32 s = t0 :: t1 :: t2 :: r) : validUtf8 (s.drop (t0.length + t1.length + 2)) = true := by
  obtain ⟨h1, h2⟩ := tail_of_tokens h
  rw [h2]
  rw [h1] at hv
  exact valid_after_space _ t1 _ (Nat.le_refl _) (valid_after_space _ t0 _ (Nat.le_refl _) hv)

/-- When literal data is accepted, there are no probabilities: the assertion about their number cannot
fail. -/
theorem probs_unreachable {s t0 t1 t2 t3 out : List UInt8} {r : List (List UInt8)}
    (h : split 32 s = t0 :: t1 :: t2 :: t3 :: r) (h2 : t2 ≠ []) (h3 : t2.headD 0 ≠ 34) :
    literalSlice (s.drop (t0.length + t1.length + 2)) ≠ .ok out := by
  obtain ⟨-, e⟩ := tail_of_tokens h
  rw [e]
  intro hl
  rcases (literal_text _ _).1 hl with hh | ⟨body, hh, -⟩
  · exact hexText_no_space hh (by simp [unsplit])
  · cases t2 with
    | nil => exact h2 rfl
    | cons c t =>
      simp only [unsplit, List.cons_append, List.cons.injEq] at hh
      exact h3 hh.1

theorem parseInsert_no_panic {s : List UInt8} (cmd : List UInt8) (hv : validUtf8 s = true) :
    parseInsert s cmd (split 32 s) ≠ .panic := by
  unfold parseInsert
  split
  · rename_i t0 t1 t2 rest hs
    refine orErr_bind_no_panic fun len => ?_
    by_cases hl : len = 0
    · rw [if_pos hl]; simp
    · rw [if_neg hl]
      cases hd : literalSlice (s.drop (t0.length + t1.length + 2)) with
      | err => simp [Out.bind]
      | panic => exact absurd hd (literalSlice_no_panic (valid_tail hv hs))
      | ok data =>
        simp only [Out.bind]
        cases rest with
        | nil => simp only; split_ifs <;> simp
        | cons t3 r =>
          have hc : ¬ (t2 ≠ [] ∧ t2.headD 0 ≠ 34) := fun hc =>
            probs_unreachable hs hc.1 hc.2 hd
          simp only
          rw [if_neg hc]
          simp only
          split_ifs <;> simp
  · split_ifs <;> simp
  · simp

theorem kw_ne : kw_ltype ≠ kw_ctype ∧ kw_ltype ≠ kw_dtype ∧ kw_ltype ≠ kw_window ∧ kw_ltype ≠ kw_prediction ∧
    kw_ltype ≠ kw_copy ∧ kw_ltype ≠ kw_dict ∧ kw_ltype ≠ kw_insert ∧ kw_ltype ≠ kw_rndins := by decide

theorem parseSwitch_panic (cmd : List UInt8) (ts : List (List UInt8))
    (hc : cmd = kw_ctype ∨ cmd = kw_ltype ∨ cmd = kw_dtype) :
    parseSwitch cmd (cmd :: ts) = .panic ↔
      cmd = kw_ltype ∧ ∃ t n, ts = [t] ∧ parseNat (2 ^ 32) t = some n := by
  unfold parseSwitch
  by_cases hl : (cmd :: ts).length ≠ 2 ∧ ((cmd :: ts).length ≠ 3 ∨ cmd ≠ kw_ltype)
  · rw [if_pos hl]
    constructor
    · intro h; cases h
    · rintro ⟨-, t, n, rfl, -⟩
      simp at hl
  · rw [if_neg hl]
    cases ts with
    | nil =>
      exfalso
      simp at hl
    | cons t ts =>
      simp only [List.getElem?_cons_succ, List.getElem?_cons_zero, Option.bind_some]
      cases hn : parseNat (2 ^ 32) t with
      | none =>
        simp only [orErr, Out.bind]
        constructor
        · intro h; cases h
        · rintro ⟨-, t', n, ht, hn'⟩
          simp only [List.cons.injEq] at ht
          rw [← ht.1, hn] at hn'
          cases hn'
      | some n =>
        simp only [orErr, Out.bind]
        by_cases h1 : cmd = kw_ctype
        · rw [if_pos h1]
          constructor
          · intro h; cases h
          · rintro ⟨h, -⟩; exact absurd (h.symm.trans h1) kw_ne.1
        · rw [if_neg h1]
          by_cases h2 : cmd = kw_dtype
          · rw [if_pos h2]
            constructor
            · intro h; cases h
            · rintro ⟨h, -⟩; exact absurd (h.symm.trans h2) kw_ne.2.1
          · rw [if_neg h2, if_neg (by simp)]
            have h3 : cmd = kw_ltype := by tauto
            cases ts with
            | nil =>
              simp only [List.getElem?_nil, true_iff]
              exact ⟨h3, t, n, rfl, hn⟩
            | cons t2 ts =>
              simp only [List.getElem?_cons_zero]
              constructor
              · intro h
                exfalso
                revert h
                cases parseNat (2 ^ 32) t2 with
                | none => simp
                | some v => simp only; split_ifs <;> simp
              · rintro ⟨-, t', n', ht, -⟩
                simp at ht

/-- **C37, crashes.**  A line of valid text crashes the parser exactly if it is `ltype` and one number:
everything else is accepted or rejected. -/
theorem crash_only_partial (s : List UInt8) (hv : validUtf8 s = true) :
    parse s = .panic ↔ ∃ t n, s = kw_ltype ++ 32 :: t ∧ (32 : UInt8) ∉ t ∧ parseNat (2 ^ 32) t = some n := by
  have hpar : ∀ cmd ts, split 32 s = cmd :: ts → parse s =
      if cmd = kw_window then .ok none
      else if cmd = kw_prediction then parsePred (cmd :: ts)
      else if cmd = kw_ctype ∨ cmd = kw_ltype ∨ cmd = kw_dtype then parseSwitch cmd (cmd :: ts)
      else if cmd = kw_copy then parseCopy (cmd :: ts)
      else if cmd = kw_dict then parseDict (cmd :: ts)
      else if cmd = kw_insert ∨ cmd = kw_rndins then parseInsert s cmd (cmd :: ts)
      else .err := by
    intro cmd ts h
    unfold parse
    rw [h]
  have hno : (32 : UInt8) ∉ kw_ltype := by decide
  constructor
  · intro h
    obtain ⟨cmd, ts, hs⟩ : ∃ cmd ts, split 32 s = cmd :: ts := by
      cases hs : split 32 s with
      | nil => exact absurd hs (split_ne_nil 32 s)
      | cons x xs => exact ⟨x, xs, rfl⟩
    rw [hpar cmd ts hs] at h
    split_ifs at h with h1 h2 h3 h4 h5 h6
    · exact absurd h (parsePred_no_panic _)
    · obtain ⟨h7, t, n, rfl, hn⟩ := (parseSwitch_panic cmd ts h3).1 h
      subst h7
      have e := unsplit_split 32 s
      rw [hs] at e
      refine ⟨t, n, e.symm, split_no_sep 32 s t (by rw [hs]; simp), hn⟩
    · exact absurd h (parseCopy_no_panic _)
    · exact absurd h (parseDict_no_panic _)
    · rw [← hs] at h
      exact absurd h (parseInsert_no_panic cmd hv)
  · rintro ⟨t, n, rfl, ht, hn⟩
    have hs : split 32 (kw_ltype ++ 32 :: t) = [kw_ltype, t] := by
      rw [split_word _ hno, split_last t ht]
    rw [hpar _ _ hs, if_neg kw_ne.2.2.1, if_neg kw_ne.2.2.2.1, if_pos (by tauto)]
    exact (parseSwitch_panic kw_ltype [t] (by tauto)).2 ⟨rfl, t, n, rfl, hn⟩

/-! ## Commands are parsed back -/

/-- Decimal digits. -/
def dec (n : Nat) : List UInt8 :=
  if n < 10 then [UInt8.ofNat (48 + n)] else dec (n / 10) ++ [UInt8.ofNat (48 + n % 10)]

theorem digits_append (bound : Nat) (a b : List UInt8) : ∀ acc,
    digits bound acc (a ++ b) = (digits bound acc a).bind fun x => digits bound x b := by
  induction a with
  | nil => intro acc; rfl
  | cons c a ih =>
    intro acc
    simp only [List.cons_append, digits]
    split_ifs
    · exact ih _
    · rfl

theorem digit_byte {d : Nat} (h : d < 10) :
    (48 : UInt8) ≤ UInt8.ofNat (48 + d) ∧ UInt8.ofNat (48 + d) ≤ (57 : UInt8) ∧
      (UInt8.ofNat (48 + d)).toNat = 48 + d := by
  have key : ∀ d < 10, (48 : UInt8) ≤ UInt8.ofNat (48 + d) ∧ UInt8.ofNat (48 + d) ≤ (57 : UInt8) ∧
      (UInt8.ofNat (48 + d)).toNat = 48 + d := by decide
  exact key d h

theorem digits_one {bound acc d : Nat} (h : d < 10) (hb : acc * 10 + d < bound) :
    digits bound acc [UInt8.ofNat (48 + d)] = some (acc * 10 + d) := by
  obtain ⟨h1, h2, h3⟩ := digit_byte h
  simp only [digits, h3]
  rw [show 48 + d - 48 = d by omega, if_pos ⟨h1, h2, hb⟩]

theorem digits_dec (bound n : Nat) : n < bound → digits bound 0 (dec n) = some n := by
  induction n using Nat.strongRecOn with
  | _ n ih =>
    intro hb
    rw [dec]
    by_cases h : n < 10
    · rw [if_pos h, digits_one h (by omega)]
      simp
    · rw [if_neg h, digits_append, ih (n / 10) (by omega) (by omega)]
      simp only [Option.bind_some]
      rw [digits_one (by omega) (by omega)]
      congr 1
      omega

theorem dec_ne_nil (n : Nat) : dec n ≠ [] := by
  rw [dec]
  split_ifs <;> simp

theorem dec_bytes (n : Nat) : ∀ b ∈ dec n, (48 : UInt8) ≤ b ∧ b ≤ (57 : UInt8) := by
  induction n using Nat.strongRecOn with
  | _ n ih =>
    intro b hb
    rw [dec] at hb
    by_cases h : n < 10
    · rw [if_pos h, List.mem_singleton] at hb
      subst hb
      exact ⟨(digit_byte h).1, (digit_byte h).2.1⟩
    · rw [if_neg h, List.mem_append, List.mem_singleton] at hb
      rcases hb with hb | hb
      · exact ih (n / 10) (by omega) b hb
      · subst hb
        have hd : n % 10 < 10 := by omega
        exact ⟨(digit_byte hd).1, (digit_byte hd).2.1⟩

theorem dec_head (n : Nat) : (48 : UInt8) ≤ (dec n).headD 0 ∧ (dec n).headD 0 ≤ (57 : UInt8) := by
  obtain ⟨b, t, h⟩ : ∃ b t, dec n = b :: t := by
    cases h : dec n with
    | nil => exact absurd h (dec_ne_nil n)
    | cons b t => exact ⟨b, t, rfl⟩
  rw [h]
  exact dec_bytes n b (by rw [h]; simp)

theorem dec_no {c : UInt8} (hc : c < 48 ∨ 57 < c) (n : Nat) : c ∉ dec n := by
  intro h
  obtain ⟨h1, h2⟩ := dec_bytes n c h
  rcases hc with hc | hc
  · exact absurd h1 (UInt8.not_le.2 hc)
  · exact absurd h2 (UInt8.not_le.2 hc)

theorem dec_head_ne (n : Nat) {c : UInt8} (hc : c < 48 ∨ 57 < c) : (dec n).headD 0 ≠ c := by
  intro h
  obtain ⟨h1, h2⟩ := dec_head n
  rw [h] at h1 h2
  rcases hc with hc | hc
  · exact absurd h1 (UInt8.not_le.2 hc)
  · exact absurd h2 (UInt8.not_le.2 hc)

theorem parseNat_dec {bound n : Nat} (h : n < bound) : parseNat bound (dec n) = some n := by
  unfold parseNat
  rw [if_neg (dec_head_ne n (by decide))]
  simp only
  rw [if_neg (dec_ne_nil n), digits_dec bound n h]

theorem parseInt_dec {n : Nat} (h : n < 2 ^ 63) : parseInt (dec n) = some (n : Int) := by
  unfold parseInt
  rw [if_neg (dec_head_ne n (by decide)), parseNat_dec h]
  rfl

/-- A decimal number is not a keyword. -/
theorem dec_ne_word (n : Nat) {k : List UInt8} (h : 57 < k.headD 0) : dec n ≠ k := by
  intro e
  exact dec_head_ne n (Or.inr h) (by rw [e])

theorem split_unsplit {sep : UInt8} (ts : List (List UInt8)) (h0 : ts ≠ []) (h : ∀ t ∈ ts, sep ∉ t) :
    split sep (unsplit sep ts) = ts := by
  induction ts with
  | nil => exact absurd rfl h0
  | cons a ts ih =>
    cases ts with
    | nil => exact split_last a (h a (by simp))
    | cons b ts =>
      simp only [unsplit]
      rw [split_word a (h a (by simp)), ih (by simp) (fun t ht => h t (by simp [ht]))]

/-- The name of a prediction mode. -/
def modeName (m : Nat) : List UInt8 :=
  if m = 0 then kw_lsb6 else if m = 1 then kw_msb6 else if m = 2 then kw_utf8 else kw_sign

/-- Printing a command other than a literal, as tokens; a dictionary command has arbitrary tokens `mid`
before the transform, where the word itself is shown; a copy or dictionary command may be followed by
arbitrary tokens `post`. -/
def tokens (mid post : List (List UInt8)) : Cmd → List (List UInt8)
  | .copy n d => kw_copy :: dec n :: kw_from :: dec d :: post
  | .dict f w i t =>
    kw_dict :: dec f :: kw_word :: (dec w ++ 44 :: dec i) :: (mid ++ kw_func :: dec t :: post)
  | .switchLit b s => [kw_ltype, dec b, dec s]
  | .switchCmd b => [kw_ctype, dec b]
  | .switchDist b => [kw_dtype, dec b]
  | .pred p =>
    kw_prediction :: modeName p.mode :: kw_lcontextmap :: (p.litMap.map dec ++
      kw_dcontextmap :: (p.distMap.map dec ++
      kw_mixingvalues :: (p.mixing.map dec ++
      (([kw_cmspeedinc, kw_stspeedinc, kw_mxspeedinc].zip
          ([kw_cmspeedmax, kw_stspeedmax, kw_mxspeedmax].zip p.speeds)).flatMap fun x =>
        (x.1 :: x.2.2.map fun y => dec y.1) ++ (x.2.1 :: x.2.2.map fun y => dec y.2)))))
  | .lit _ _ => []

/-- Commands that can be expressed. -/
def Cmd.Fits : Cmd → Prop
  | .copy n d => 0 < n ∧ n < 2 ^ 32 ∧ d < 2 ^ 32
  | .dict f w i t => f < 256 ∧ w < 256 ∧ i < 2 ^ 32 ∧ t < 256
  | .switchLit b s => b < 256 ∧ s ≤ 8
  | .switchCmd b => b < 256
  | .switchDist b => b < 256
  | .pred p =>
    p.mode < 4 ∧ (∀ x ∈ p.litMap, x < 256) ∧ (∀ x ∈ p.distMap, x < 256) ∧ p.mixing.length = 8192 ∧
      (∀ x ∈ p.mixing, x ≤ 8) ∧
      ∃ a b c d e f g h i j k l : Nat, p.speeds = [[(a, b), (c, d)], [(e, f), (g, h)], [(i, j), (k, l)]] ∧
        ∀ x ∈ [a, b, c, d, e, f, g, h, i, j, k, l], x ≤ 16384
  | .lit _ _ => False

theorem findFunc_mid (mid : List (List UInt8)) (h : kw_func ∉ mid) (t : List UInt8)
    (post : List (List UInt8)) : findFunc (mid ++ kw_func :: t :: post) = some t := by
  induction mid with
  | nil => simp [findFunc]
  | cons a mid ih =>
    simp only [List.mem_cons, not_or] at h
    have := ih h.2
    cases mid with
    | nil =>
      simp only [List.cons_append, List.nil_append, findFunc] at this ⊢
      rw [if_neg (Ne.symm h.1)]
      exact this
    | cons b mid =>
      simp only [List.cons_append, findFunc] at this ⊢
      rw [if_neg (Ne.symm h.1)]
      exact this

theorem afterKey_mid (key : List UInt8) (pre post : List (List UInt8)) (h : key ∉ pre) :
    afterKey key (pre ++ key :: post) = post := by
  unfold afterKey
  induction pre with
  | nil => simp
  | cons a pre ih =>
    simp only [List.mem_cons, not_or] at h
    rw [List.cons_append, List.dropWhile_cons_of_pos (by simpa using Ne.symm h.1)]
    exact ih h.2

theorem numbers_dec (limit : Nat) (hl : limit < 2 ^ 62) (k : List UInt8) (hk : parseInt k = none)
    (post : List (List UInt8)) (ns : List Nat) : ∀ (most : Nat), ns.length ≤ most → (∀ x ∈ ns, x ≤ limit) →
      numbers limit most (ns.map dec ++ k :: post) = some ns := by
  induction ns with
  | nil => intro most _ _; simp [numbers, hk]
  | cons n ns ih =>
    intro most hm hx
    simp only [List.length_cons] at hm
    have hn := hx n (by simp)
    have hn2 : n < 2 ^ 63 := by omega
    simp only [List.map_cons, List.cons_append, numbers, parseInt_dec hn2]
    rw [if_neg (by omega), if_pos (by constructor <;> omega),
      ih (most - 1) (by omega) (fun x h => hx x (by simp [h]))]
    rfl

theorem speedVals_dec {a b : Nat} (ha : a ≤ 16384) (hb : b ≤ 16384) (post : List (List UInt8)) :
    speedVals 2 (dec a :: dec b :: post) = some [a, b] := by
  simp only [speedVals, parseNat_dec (bound := 2 ^ 16) (show a < 2 ^ 16 by omega),
    parseNat_dec (bound := 2 ^ 16) (show b < 2 ^ 16 by omega)]
  rw [if_pos ha, if_pos hb]
  rfl

theorem parseMode_name {m : Nat} (h : m < 4) : parseMode (modeName m) = some m := by
  have key : ∀ m < 4, parseMode (modeName m) = some m := by decide
  exact key m h

theorem no_space_word : ∀ k ∈ [kw_copy, kw_from, kw_dict, kw_word, kw_func, kw_ltype, kw_ctype, kw_dtype,
    kw_prediction, kw_lcontextmap, kw_dcontextmap, kw_mixingvalues, kw_cmspeedinc, kw_cmspeedmax,
    kw_stspeedinc, kw_stspeedmax, kw_mxspeedinc, kw_mxspeedmax, kw_utf8, kw_sign, kw_lsb6, kw_msb6],
    (32 : UInt8) ∉ k ∧ 57 < k.headD 0 ∧ parseInt k = none := by decide

theorem dec_no_space (n : Nat) : (32 : UInt8) ∉ dec n := dec_no (by decide) n

theorem speedPair_dec {inc max : List UInt8} (hne : inc ≠ max) (hi : 57 < inc.headD 0)
    (hm : 57 < max.headD 0) {a b c d : Nat} (ha : a ≤ 16384) (hb : b ≤ 16384) (hc : c ≤ 16384)
    (hd : d ≤ 16384) (pre post : List (List UInt8)) (h1 : inc ∉ pre) (h2 : max ∉ pre) :
    speedPair inc max (pre ++ inc :: dec a :: dec c :: max :: dec b :: dec d :: post) =
      some [(a, b), (c, d)] := by
  unfold speedPair
  rw [afterKey_mid inc _ _ h1, speedVals_dec ha hc,
    show pre ++ inc :: dec a :: dec c :: max :: dec b :: dec d :: post =
      (pre ++ [inc, dec a, dec c]) ++ max :: dec b :: dec d :: post by simp,
    afterKey_mid max _ _ (by
      simp only [List.mem_append, List.mem_cons, List.not_mem_nil, or_false, not_or]
      exact ⟨h2, hne.symm, (dec_ne_word a hm).symm, (dec_ne_word c hm).symm⟩),
    speedVals_dec hb hd]
  rfl

theorem not_mem_dec {k : List UInt8} (hk : 57 < k.headD 0) (ns : List Nat) : k ∉ ns.map dec := by
  intro h
  obtain ⟨n, _, e⟩ := List.mem_map.1 h
  exact dec_ne_word n hk e

theorem modeName_word (m : Nat) : modeName m ∈ [kw_lsb6, kw_msb6, kw_utf8, kw_sign] := by
  unfold modeName
  split_ifs <;> simp

theorem modeName_ne (m : Nat) {k : List UInt8} (h : k ∉ [kw_lsb6, kw_msb6, kw_utf8, kw_sign]) :
    k ≠ modeName m := by
  intro e
  exact h (e ▸ modeName_word m)

theorem pred_parses (p : Pred) (hp : (Cmd.pred p).Fits) :
    parsePred (tokens [] [] (.pred p)) = .ok (some (.pred p)) := by
  obtain ⟨mode, lm, dm, mix, sp⟩ := p
  obtain ⟨hmode, hlm, hdm, hlen, hmix, a, b, c, d, e, f, g, h, i, j, k, l, hsp, hs⟩ := hp
  simp only at hmode hlm hdm hlen hmix hsp
  subst hsp
  simp only [List.mem_cons, List.not_mem_nil, or_false, forall_eq_or_imp, forall_eq] at hs
  obtain ⟨ha, hb, hc, hd, he, hf, hg, hh, hi, hj, hk, hl⟩ := hs
  have ht : tokens [] [] (.pred ⟨mode, lm, dm, mix, [[(a, b), (c, d)], [(e, f), (g, h)], [(i, j), (k, l)]]⟩) =
      kw_prediction :: modeName mode :: kw_lcontextmap :: (lm.map dec ++ kw_dcontextmap :: (dm.map dec ++
        kw_mixingvalues :: (mix.map dec ++
          kw_cmspeedinc :: dec a :: dec c :: kw_cmspeedmax :: dec b :: dec d ::
          kw_stspeedinc :: dec e :: dec g :: kw_stspeedmax :: dec f :: dec h ::
          kw_mxspeedinc :: dec i :: dec k :: kw_mxspeedmax :: dec j :: dec l :: []))) := by
    simp [tokens]
  rw [ht]
  generalize hT : kw_prediction :: modeName mode :: kw_lcontextmap :: (lm.map dec ++ kw_dcontextmap ::
    (dm.map dec ++ kw_mixingvalues :: (mix.map dec ++
          kw_cmspeedinc :: dec a :: dec c :: kw_cmspeedmax :: dec b :: dec d ::
          kw_stspeedinc :: dec e :: dec g :: kw_stspeedmax :: dec f :: dec h ::
          kw_mxspeedinc :: dec i :: dec k :: kw_mxspeedmax :: dec j :: dec l :: []))) = T
  have hlenT : lm.length + dm.length + mix.length ≤ T.length := by
    rw [← hT]
    simp only [List.length_cons, List.length_append, List.length_map]
    omega
  have e1 : T[1]? = some (modeName mode) := by rw [← hT]; rfl
  have w := no_space_word
  have e2 : numbers 255 T.length (afterKey kw_lcontextmap T) = some lm := by
    rw [← hT, show ∀ r : List (List UInt8), kw_prediction :: modeName mode :: kw_lcontextmap :: r =
      [kw_prediction, modeName mode] ++ kw_lcontextmap :: r from fun _ => rfl,
      afterKey_mid _ _ _ (by
        simp only [List.mem_cons, List.not_mem_nil, or_false, not_or]
        exact ⟨by decide, modeName_ne mode (by decide)⟩)]
    exact numbers_dec 255 (by decide) _ (by decide) _ lm _ (by rw [show [kw_prediction, modeName mode] ++ kw_lcontextmap :: (lm.map dec ++ kw_dcontextmap ::
    (dm.map dec ++ kw_mixingvalues :: (mix.map dec ++
          kw_cmspeedinc :: dec a :: dec c :: kw_cmspeedmax :: dec b :: dec d ::
          kw_stspeedinc :: dec e :: dec g :: kw_stspeedmax :: dec f :: dec h ::
          kw_mxspeedinc :: dec i :: dec k :: kw_mxspeedmax :: dec j :: dec l :: []))) = T from hT]; omega)
      (fun x hx => by have := hlm x hx; omega)
  have e3 : numbers 255 T.length (afterKey kw_dcontextmap T) = some dm := by
    have : afterKey kw_dcontextmap T = dm.map dec ++ kw_mixingvalues :: (mix.map dec ++
          kw_cmspeedinc :: dec a :: dec c :: kw_cmspeedmax :: dec b :: dec d ::
          kw_stspeedinc :: dec e :: dec g :: kw_stspeedmax :: dec f :: dec h ::
          kw_mxspeedinc :: dec i :: dec k :: kw_mxspeedmax :: dec j :: dec l :: []) := by
      rw [← hT, show ∀ r : List (List UInt8), kw_prediction :: modeName mode :: kw_lcontextmap ::
          (lm.map dec ++ kw_dcontextmap :: r) =
        (kw_prediction :: modeName mode :: kw_lcontextmap :: lm.map dec) ++ kw_dcontextmap :: r from
          fun _ => by simp]
      refine afterKey_mid _ _ _ ?_
      simp only [List.mem_cons, not_or]
      exact ⟨by decide, modeName_ne mode (by decide), by decide, not_mem_dec (by decide) lm⟩
    rw [this]
    exact numbers_dec 255 (by decide) _ (by decide) _ dm _ (by omega)
      (fun x hx => by have := hdm x hx; omega)
  have hpre : ∀ key : List UInt8, key ≠ kw_prediction → key ≠ kw_lcontextmap → key ≠ kw_dcontextmap →
      key ∉ [kw_lsb6, kw_msb6, kw_utf8, kw_sign] → 57 < key.headD 0 →
      key ∉ kw_prediction :: modeName mode :: kw_lcontextmap :: (lm.map dec ++ kw_dcontextmap :: dm.map dec) := by
    intro key h1 h2 h3 h4 h5
    simp only [List.mem_cons, List.mem_append, not_or]
    exact ⟨h1, modeName_ne mode h4, h2, not_mem_dec h5 lm, h3, not_mem_dec h5 dm⟩
  have e4 : numbers 8 8192 (afterKey kw_mixingvalues T) = some mix := by
    have : afterKey kw_mixingvalues T = mix.map dec ++
          kw_cmspeedinc :: dec a :: dec c :: kw_cmspeedmax :: dec b :: dec d ::
          kw_stspeedinc :: dec e :: dec g :: kw_stspeedmax :: dec f :: dec h ::
          kw_mxspeedinc :: dec i :: dec k :: kw_mxspeedmax :: dec j :: dec l :: [] := by
      rw [← hT, show ∀ r : List (List UInt8), kw_prediction :: modeName mode :: kw_lcontextmap ::
          (lm.map dec ++ kw_dcontextmap :: (dm.map dec ++ kw_mixingvalues :: r)) =
        (kw_prediction :: modeName mode :: kw_lcontextmap :: (lm.map dec ++ kw_dcontextmap :: dm.map dec)) ++
          kw_mixingvalues :: r from fun _ => by simp]
      exact afterKey_mid _ _ _ (hpre _ (by decide) (by decide) (by decide) (by decide) (by decide))
    rw [this]
    exact numbers_dec 8 (by decide) _ (by decide) _ mix _ (by omega) hmix
  have hpre2 : ∀ key : List UInt8, key ≠ kw_prediction → key ≠ kw_lcontextmap → key ≠ kw_dcontextmap →
      key ≠ kw_mixingvalues → key ∉ [kw_lsb6, kw_msb6, kw_utf8, kw_sign] → 57 < key.headD 0 →
      key ∉ (kw_prediction :: modeName mode :: kw_lcontextmap :: (lm.map dec ++ kw_dcontextmap :: dm.map dec)) ++
        kw_mixingvalues :: mix.map dec := by
    intro key h1 h2 h3 h4 h5 h6 hm
    rcases List.mem_append.1 hm with hm | hm
    · exact hpre key h1 h2 h3 h5 h6 hm
    · rcases List.mem_cons.1 hm with hm | hm
      · exact h4 hm
      · exact not_mem_dec h6 mix hm
  have hTT : T = ((kw_prediction :: modeName mode :: kw_lcontextmap ::
        (lm.map dec ++ kw_dcontextmap :: dm.map dec)) ++ kw_mixingvalues :: mix.map dec) ++
          kw_cmspeedinc :: dec a :: dec c :: kw_cmspeedmax :: dec b :: dec d ::
          kw_stspeedinc :: dec e :: dec g :: kw_stspeedmax :: dec f :: dec h ::
          kw_mxspeedinc :: dec i :: dec k :: kw_mxspeedmax :: dec j :: dec l :: [] := by
    rw [← hT]; simp
  generalize (kw_prediction :: modeName mode :: kw_lcontextmap ::
        (lm.map dec ++ kw_dcontextmap :: dm.map dec)) ++ kw_mixingvalues :: mix.map dec = P at hTT hpre2
  have e5 : speedPair kw_cmspeedinc kw_cmspeedmax T = some [(a, b), (c, d)] := by
    rw [hTT]
    exact speedPair_dec (by decide) (by decide) (by decide) ha hb hc hd _ _
      (hpre2 _ (by decide) (by decide) (by decide) (by decide) (by decide) (by decide))
      (hpre2 _ (by decide) (by decide) (by decide) (by decide) (by decide) (by decide))
  have hd' : ∀ (key : List UInt8) (n : Nat), 57 < key.headD 0 → key ≠ dec n :=
    fun key n h => (dec_ne_word n h).symm
  have e6 : speedPair kw_stspeedinc kw_stspeedmax T = some [(e, f), (g, h)] := by
    rw [hTT, show ∀ r : List (List UInt8), P ++ kw_cmspeedinc :: dec a :: dec c :: kw_cmspeedmax :: dec b ::
      dec d :: r = (P ++ [kw_cmspeedinc, dec a, dec c, kw_cmspeedmax, dec b, dec d]) ++ r from
        fun _ => by simp]
    refine speedPair_dec (by decide) (by decide) (by decide) he hf hg hh _ _ ?_ ?_ <;>
    · simp only [List.mem_append, List.mem_cons, List.not_mem_nil, or_false, not_or]
      exact ⟨hpre2 _ (by decide) (by decide) (by decide) (by decide) (by decide) (by decide), by decide,
        hd' _ _ (by decide), hd' _ _ (by decide), by decide, hd' _ _ (by decide), hd' _ _ (by decide)⟩
  have e7 : speedPair kw_mxspeedinc kw_mxspeedmax T = some [(i, j), (k, l)] := by
    rw [hTT, show ∀ r : List (List UInt8), P ++ kw_cmspeedinc :: dec a :: dec c :: kw_cmspeedmax :: dec b ::
      dec d :: kw_stspeedinc :: dec e :: dec g :: kw_stspeedmax :: dec f :: dec h :: r =
      (P ++ [kw_cmspeedinc, dec a, dec c, kw_cmspeedmax, dec b, dec d, kw_stspeedinc, dec e, dec g,
        kw_stspeedmax, dec f, dec h]) ++ r from fun _ => by simp]
    refine speedPair_dec (by decide) (by decide) (by decide) hi hj hk hl _ _ ?_ ?_ <;>
    · simp only [List.mem_append, List.mem_cons, List.not_mem_nil, or_false, not_or]
      exact ⟨hpre2 _ (by decide) (by decide) (by decide) (by decide) (by decide) (by decide), by decide,
        hd' _ _ (by decide), hd' _ _ (by decide), by decide, hd' _ _ (by decide), hd' _ _ (by decide),
        by decide, hd' _ _ (by decide), hd' _ _ (by decide), by decide, hd' _ _ (by decide),
        hd' _ _ (by decide)⟩
  unfold parsePred
  rw [e1]
  simp only [parseMode_name hmode, e2, e3, e4, e5, e6, e7, orErr, Out.bind]
  rw [hlen, Nat.sub_self, List.replicate_zero, List.append_nil]

/-- **C37 (commands).** Every expressible command other than a literal, printed with its numbers in decimal,
is parsed back. -/
theorem commands_parse (c : Cmd) (hc : c.Fits) (mid post : List (List UInt8))
    (hmid : ∀ t ∈ mid, 32 ∉ t) (hpost : ∀ t ∈ post, 32 ∉ t) (hf : kw_func ∉ mid) :
    parse (unsplit 32 (tokens mid post c)) = .ok (some c) := by
  have sp := dec_no_space
  cases c with
  | copy n d =>
    obtain ⟨h0, hn, hd⟩ := hc
    unfold parse
    rw [split_unsplit _ (by simp [tokens]) (by
      intro t ht
      simp only [tokens, List.mem_cons] at ht
      rcases ht with rfl | rfl | rfl | rfl | ht
      · decide
      · exact sp _
      · decide
      · exact sp _
      · exact hpost t ht)]
    simp only [tokens]
    rw [if_neg (by decide), if_neg (by decide), if_neg (by decide), if_pos trivial]
    simp only [parseCopy, parseNat_dec hn, parseNat_dec hd, orErr, Out.bind]
    rw [if_neg (by simp), if_neg (by omega)]
  | dict f w i t =>
    obtain ⟨h1, h2, h3, h4⟩ := hc
    unfold parse
    rw [split_unsplit _ (by simp [tokens]) (by
      intro t ht
      simp only [tokens, List.mem_cons, List.mem_append] at ht
      rcases ht with rfl | rfl | rfl | rfl | ht | rfl | rfl | ht
      · decide
      · exact sp _
      · decide
      · simp only [List.mem_append, List.mem_cons, not_or]
        exact ⟨sp _, by decide, sp _⟩
      · exact hmid t ht
      · decide
      · exact sp _
      · exact hpost t ht)]
    simp only [tokens]
    rw [if_neg (by decide), if_neg (by decide), if_neg (by decide), if_neg (by decide), if_pos trivial]
    have hF := findFunc_mid mid hf (dec t) post
    have hI : split 44 (dec w ++ 44 :: dec i) = [dec w, dec i] := by
      rw [split_word _ (dec_no (by decide) w), split_last _ (dec_no (by decide) i)]
    obtain ⟨r, r2, rest, hr⟩ : ∃ r r2 rest, mid ++ kw_func :: dec t :: post = r :: r2 :: rest := by
      rcases mid with _ | ⟨x, _ | ⟨y, z⟩⟩
      · exact ⟨_, _, _, rfl⟩
      · exact ⟨_, _, _, rfl⟩
      · exact ⟨_, _, _, rfl⟩
    rw [hr] at hF ⊢
    simp only [parseDict, hI, hF, parseNat_dec (bound := 2 ^ 32) (show f < 2 ^ 32 by omega),
      parseNat_dec (bound := 2 ^ 32) (show w < 2 ^ 32 by omega), parseNat_dec h3,
      parseNat_dec (bound := 2 ^ 32) (show t < 2 ^ 32 by omega), orErr, Out.bind]
    rw [if_neg (by simp), Nat.mod_eq_of_lt h1, Nat.mod_eq_of_lt h2, Nat.mod_eq_of_lt h4]
  | switchLit b s =>
    obtain ⟨h1, h2⟩ := hc
    unfold parse
    rw [split_unsplit _ (by simp [tokens]) (by
      intro t ht
      simp only [tokens, List.mem_cons, List.not_mem_nil, or_false] at ht
      rcases ht with rfl | rfl | rfl
      · decide
      · exact sp _
      · exact sp _)]
    simp only [tokens]
    rw [if_neg (by decide), if_neg (by decide), if_pos (by simp)]
    unfold parseSwitch
    rw [if_neg (by simp)]
    simp only [List.getElem?_cons_succ, List.getElem?_cons_zero, Option.bind_some,
      parseNat_dec (bound := 2 ^ 32) (show b < 2 ^ 32 by omega),
      parseNat_dec (bound := 2 ^ 32) (show s < 2 ^ 32 by omega), orErr, Out.bind]
    rw [if_neg (by decide), if_neg (by decide), if_neg (by simp), if_neg (by omega), Nat.mod_eq_of_lt h1]
  | switchCmd b =>
    have h1 : b < 256 := hc
    unfold parse
    rw [split_unsplit _ (by simp [tokens]) (by
      intro t ht
      simp only [tokens, List.mem_cons, List.not_mem_nil, or_false] at ht
      rcases ht with rfl | rfl
      · decide
      · exact sp _)]
    simp only [tokens]
    rw [if_neg (by decide), if_neg (by decide), if_pos (by simp)]
    unfold parseSwitch
    rw [if_neg (by simp)]
    simp only [List.getElem?_cons_succ, List.getElem?_cons_zero, Option.bind_some,
      parseNat_dec (bound := 2 ^ 32) (show b < 2 ^ 32 by omega), orErr, Out.bind]
    rw [if_pos trivial, Nat.mod_eq_of_lt h1]
  | switchDist b =>
    have h1 : b < 256 := hc
    unfold parse
    rw [split_unsplit _ (by simp [tokens]) (by
      intro t ht
      simp only [tokens, List.mem_cons, List.not_mem_nil, or_false] at ht
      rcases ht with rfl | rfl
      · decide
      · exact sp _)]
    simp only [tokens]
    rw [if_neg (by decide), if_neg (by decide), if_pos (by simp)]
    unfold parseSwitch
    rw [if_neg (by simp)]
    simp only [List.getElem?_cons_succ, List.getElem?_cons_zero, Option.bind_some,
      parseNat_dec (bound := 2 ^ 32) (show b < 2 ^ 32 by omega), orErr, Out.bind]
    rw [if_neg (by decide), if_pos trivial, Nat.mod_eq_of_lt h1]
  | pred p =>
    have hp := pred_parses p hc
    have ht : tokens mid post (.pred p) = tokens [] [] (.pred p) := rfl
    rw [ht]
    unfold parse
    rw [split_unsplit _ (by simp [tokens]) (by
      intro t ht
      obtain ⟨mode, lm, dm, mix, sps⟩ := p
      obtain ⟨_, _, _, _, _, a, b, c, d, e, f, g, h, i, j, k, l, hsp, _⟩ := hc
      simp only at hsp
      subst hsp
      have hmn : (32 : UInt8) ∉ modeName mode :=
        (no_space_word _ (by
          have := modeName_word mode
          simp only [List.mem_cons, List.not_mem_nil, or_false] at this ⊢
          tauto)).1
      simp only [tokens, List.mem_cons, List.mem_append, List.mem_map, List.zip_cons_cons,
        List.zip_nil_left, List.flatMap_cons, List.flatMap_nil, List.map_cons, List.map_nil,
        List.cons_append, List.nil_append, List.not_mem_nil, or_false, List.append_nil] at ht
      have kwd : ∀ k ∈ [kw_prediction, kw_lcontextmap, kw_dcontextmap, kw_mixingvalues, kw_cmspeedinc,
        kw_cmspeedmax, kw_stspeedinc, kw_stspeedmax, kw_mxspeedinc, kw_mxspeedmax], (32 : UInt8) ∉ k := by
        decide
      rcases ht with h | h | h | ⟨_, _, h⟩ | h | ⟨_, _, h⟩ | h | ⟨_, _, h⟩ | h | h | h | h | h | h | h | h |
        h | h | h | h | h | h | h | h | h | h <;> subst h <;>
        first | exact sp _ | exact hmn | exact kwd _ (by simp))]
    have hcons : ∃ ts, tokens [] [] (.pred p) = kw_prediction :: ts := ⟨_, rfl⟩
    obtain ⟨ts, hts⟩ := hcons
    rw [hts] at hp ⊢
    simp only
    rw [if_neg (by decide), if_pos trivial]
    exact hp
  | lit data e => exact absurd hc (by simp [Cmd.Fits])

end Divans.Text
