import Verif.TextProps

/-!
# What the parser of textual commands accepts

C37: exactly which lines are literals, and what every accepted line says.
-/

namespace Divans.Text

/-- `t` is a decimal number below `bound`: an optional `+` and digits. -/
def Number (bound : Nat) (t : List UInt8) (n : Nat) : Prop :=
  ∃ ds : List UInt8, (t = ds ∨ t = 43 :: ds) ∧ ds ≠ [] ∧ (∀ b ∈ ds, (48 : UInt8) ≤ b ∧ b ≤ 57) ∧
    n = ds.foldl (fun a b => a * 10 + (b.toNat - 48)) 0 ∧ n < bound

theorem foldl_ge (ds : List UInt8) : ∀ acc : Nat,
    acc ≤ ds.foldl (fun a b => a * 10 + (b.toNat - 48)) acc := by
  induction ds with
  | nil => intro acc; exact Nat.le_refl _
  | cons b ds ih =>
    intro acc
    exact Nat.le_trans (by omega) (ih (acc * 10 + (b.toNat - 48)))

theorem digits_iff (bound : Nat) (ds : List UInt8) : ∀ (acc n : Nat), acc < bound →
    (digits bound acc ds = some n ↔ (∀ b ∈ ds, (48 : UInt8) ≤ b ∧ b ≤ 57) ∧
      n = ds.foldl (fun a b => a * 10 + (b.toNat - 48)) acc ∧ n < bound) := by
  induction ds with
  | nil =>
    intro acc n h
    simp only [digits, Option.some.injEq, List.not_mem_nil, false_implies, implies_true, List.foldl_nil,
      true_and]
    constructor
    · rintro rfl; exact ⟨rfl, h⟩
    · rintro ⟨rfl, -⟩; rfl
  | cons b ds ih =>
    intro acc n h
    simp only [digits, List.foldl_cons, List.mem_cons, forall_eq_or_imp]
    by_cases hb : (48 : UInt8) ≤ b ∧ b ≤ 57 ∧ acc * 10 + (b.toNat - 48) < bound
    · rw [if_pos hb, ih _ n hb.2.2]
      constructor
      · rintro ⟨h1, h2⟩; exact ⟨⟨⟨hb.1, hb.2.1⟩, h1⟩, h2⟩
      · rintro ⟨⟨-, h1⟩, h2⟩; exact ⟨h1, h2⟩
    · rw [if_neg hb]
      constructor
      · intro h; cases h
      · rintro ⟨⟨h1, -⟩, h2, h3⟩
        have := foldl_ge ds (acc * 10 + (b.toNat - 48))
        exact absurd ⟨h1.1, h1.2, by omega⟩ hb

/-- Numbers are decimal. -/
theorem parseNat_iff {bound : Nat} (hb : 0 < bound) (t : List UInt8) (n : Nat) :
    parseNat bound t = some n ↔ Number bound t n := by
  have e1 : ∀ t, parseNat bound (43 :: t) = if t = [] then none else digits bound 0 t := by
    intro t; simp [parseNat]
  have e2 : ∀ c t, c ≠ 43 → parseNat bound (c :: t) = digits bound 0 (c :: t) := by
    intro c t h; simp [parseNat, h]
  unfold Number
  cases t with
  | nil =>
    rw [show parseNat bound [] = none from by simp [parseNat]]
    constructor
    · intro h; cases h
    · rintro ⟨ds, h | h, h2, -⟩
      · exact absurd h.symm h2
      · cases h
  | cons c t =>
    by_cases hc : c = 43
    · subst hc
      rw [e1]
      by_cases ht : t = []
      · rw [if_pos ht]
        subst ht
        constructor
        · intro h; cases h
        · rintro ⟨ds, h | h, h2, h3, -⟩
          · subst h; exact absurd (h3 43 (by simp)).1 (by decide)
          · simp only [List.cons.injEq, true_and] at h
            exact absurd h.symm h2
      · rw [if_neg ht, digits_iff bound t 0 n hb]
        constructor
        · intro h; exact ⟨t, Or.inr rfl, ht, h⟩
        · rintro ⟨ds, h | h, h2, h3⟩
          · subst h; exact absurd (h3.1 43 (by simp)).1 (by decide)
          · simp only [List.cons.injEq, true_and] at h
            subst h; exact h3
    · rw [e2 c t hc, digits_iff bound (c :: t) 0 n hb]
      constructor
      · intro h; exact ⟨c :: t, Or.inl rfl, by simp, h⟩
      · rintro ⟨ds, h | h, h2, h3⟩
        · rw [h]; exact h3
        · simp only [List.cons.injEq] at h
          exact absurd h.1 hc

theorem bind_ok {α β : Type} {x : Out α} {f : α → Out β} {b : β} :
    x.bind f = .ok b ↔ ∃ a, x = .ok a ∧ f a = .ok b := by
  cases x <;> simp [Out.bind]

theorem orErr_ok {α : Type} {x : Option α} {a : α} : orErr x = .ok a ↔ x = some a := by
  cases x <;> simp [orErr]

theorem numbers_bound (limit : Nat) (ts : List (List UInt8)) : ∀ (most : Nat) (ns : List Nat),
    numbers limit most ts = some ns → ns.length ≤ most ∧ ∀ x ∈ ns, x ≤ limit := by
  induction ts with
  | nil => intro most ns h; simp only [numbers, Option.some.injEq] at h; subst h; simp
  | cons t ts ih =>
    intro most ns h
    simp only [numbers] at h
    cases hp : parseInt t with
    | none => rw [hp] at h; simp only [Option.some.injEq] at h; subst h; simp
    | some v =>
      rw [hp] at h
      simp only at h
      by_cases hm : most = 0
      · rw [if_pos hm] at h; cases h
      · rw [if_neg hm] at h
        by_cases hv : 0 ≤ v ∧ v ≤ limit
        · rw [if_pos hv] at h
          obtain ⟨r, hr, rfl⟩ := Option.map_eq_some_iff.1 h
          obtain ⟨h1, h2⟩ := ih _ _ hr
          simp only [List.length_cons, List.mem_cons, forall_eq_or_imp]
          exact ⟨by omega, by omega, h2⟩
        · rw [if_neg hv] at h; cases h

theorem speedVals_bound (ts : List (List UInt8)) : ∀ (k : Nat) (ns : List Nat),
    speedVals k ts = some ns → ∀ i, ns.getD i 0 ≤ 16384 := by
  induction ts with
  | nil =>
    intro k ns h i
    cases k <;> simp only [speedVals, Option.some.injEq] at h <;> subst h <;> simp
  | cons t ts ih =>
    intro k ns h i
    cases k with
    | zero => simp only [speedVals, Option.some.injEq] at h; subst h; simp
    | succ k =>
      simp only [speedVals] at h
      cases hp : parseNat (2 ^ 16) t with
      | none => rw [hp] at h; simp only [Option.some.injEq] at h; subst h; simp
      | some v =>
        rw [hp] at h
        simp only at h
        by_cases hv : v ≤ 16384
        · rw [if_pos hv] at h
          obtain ⟨r, hr, rfl⟩ := Option.map_eq_some_iff.1 h
          cases i with
          | zero => simpa using hv
          | succ i => simpa using ih k r hr i
        · rw [if_neg hv] at h; cases h

theorem speedPair_bound {a b : List UInt8} {ts : List (List UInt8)} {r : List (Nat × Nat)}
    (h : speedPair a b ts = some r) :
    ∃ w x y z : Nat, r = [(w, x), (y, z)] ∧ w ≤ 16384 ∧ x ≤ 16384 ∧ y ≤ 16384 ∧ z ≤ 16384 := by
  unfold speedPair at h
  obtain ⟨u, hu, h⟩ := Option.bind_eq_some_iff.1 h
  obtain ⟨v, hv, rfl⟩ := Option.map_eq_some_iff.1 h
  have bu := speedVals_bound _ _ _ hu
  have bv := speedVals_bound _ _ _ hv
  exact ⟨_, _, _, _, rfl, bu 0, bv 0, bu 1, bv 1⟩

theorem parseMode_bound {t : List UInt8} {m : Nat} (h : parseMode t = some m) : t = modeName m ∧ m < 4 := by
  unfold parseMode at h
  split_ifs at h with h1 h2 h3 h4 <;> simp only [Option.some.injEq] at h <;> subst h <;>
    subst_vars <;> exact ⟨by decide, by decide⟩

/-- What a line, as tokens, says if it is accepted as a command other than a literal. -/
def Says (toks : List (List UInt8)) : Cmd → Prop
  | .copy n d => 0 < n ∧ ∃ a b post, toks = kw_copy :: a :: kw_from :: b :: post ∧ Number (2 ^ 32) a n ∧
      Number (2 ^ 32) b d
  | .dict f w i t => ∃ a b c mid d post l wl tl, toks = kw_dict :: a :: kw_word :: (b ++ 44 :: c) ::
        (mid ++ kw_func :: d :: post) ∧ kw_func ∉ mid ∧ Number (2 ^ 32) a l ∧ Number (2 ^ 32) b wl ∧
        Number (2 ^ 32) c i ∧ Number (2 ^ 32) d tl ∧ f = l % 256 ∧ w = wl % 256 ∧ t = tl % 256
  | .switchLit b s => s ≤ 8 ∧ ∃ x y n, toks = [kw_ltype, x, y] ∧ Number (2 ^ 32) x n ∧ b = n % 256 ∧
      Number (2 ^ 32) y s
  | .switchCmd b => ∃ x n, toks = [kw_ctype, x] ∧ Number (2 ^ 32) x n ∧ b = n % 256
  | .switchDist b => ∃ x n, toks = [kw_dtype, x] ∧ Number (2 ^ 32) x n ∧ b = n % 256
  | .pred p => ∃ r, toks = kw_prediction :: modeName p.mode :: r ∧ (Cmd.pred p).Fits
  | .lit _ _ => False

theorem findFunc_some : ∀ (l : List (List UInt8)) (t : List UInt8), findFunc l = some t →
    ∃ mid post, l = mid ++ kw_func :: t :: post ∧ kw_func ∉ mid
  | [], _, h => by simp [findFunc] at h
  | [_], _, h => by simp [findFunc] at h
  | a :: b :: l, t, h => by
    simp only [findFunc] at h
    by_cases ha : a = kw_func
    · rw [if_pos ha] at h
      simp only [Option.some.injEq] at h
      subst ha h
      exact ⟨[], l, rfl, by simp⟩
    · rw [if_neg ha] at h
      obtain ⟨mid, post, e, hm⟩ := findFunc_some (b :: l) t h
      refine ⟨a :: mid, post, by rw [e]; rfl, ?_⟩
      simp only [List.mem_cons, not_or]
      exact ⟨Ne.symm ha, hm⟩

theorem num32 {t : List UInt8} {n : Nat} : parseNat (2 ^ 32) t = some n ↔ Number (2 ^ 32) t n :=
  parseNat_iff (by decide) t n

theorem parseCopy_says {ts : List (List UInt8)} {c : Cmd} (h : parseCopy (kw_copy :: ts) = .ok (some c)) :
    Says (kw_copy :: ts) c := by
  unfold parseCopy at h
  split at h
  · rename_i x n f d post hs
    simp only [List.cons.injEq] at hs
    obtain ⟨rfl, rfl⟩ := hs
    replace h := bind_ok.1 h; obtain ⟨len, h1, h⟩ := h
    rw [orErr_ok, num32] at h1
    by_cases hf : f ≠ kw_from
    · rw [if_pos hf] at h; cases h
    · rw [if_neg hf] at h
      replace h := bind_ok.1 h; obtain ⟨dist, h2, h⟩ := h
      rw [orErr_ok, num32] at h2
      by_cases hl : len = 0
      · rw [if_pos hl] at h; cases h
      · rw [if_neg hl] at h
        simp only [Out.ok.injEq, Option.some.injEq] at h
        subst h
        simp only [ne_eq, not_not] at hf
        subst hf
        exact ⟨by omega, n, d, post, rfl, h1, h2⟩
  · cases h

theorem split_two {sep : UInt8} {s a b : List UInt8} (h : split sep s = [a, b]) : s = a ++ sep :: b := by
  have := unsplit_split sep s
  rw [h] at this
  exact this.symm

theorem parseDict_says {ts : List (List UInt8)} {c : Cmd} (h : parseDict (kw_dict :: ts) = .ok (some c)) :
    Says (kw_dict :: ts) c := by
  unfold parseDict at h
  split at h
  · rename_i x n w id r r2 rest hs
    simp only [List.cons.injEq] at hs
    obtain ⟨rfl, rfl⟩ := hs
    replace h := bind_ok.1 h; obtain ⟨len, h1, h⟩ := h
    rw [orErr_ok, num32] at h1
    by_cases hw : w ≠ kw_word
    · rw [if_pos hw] at h; cases h
    · rw [if_neg hw] at h
      simp only [ne_eq, not_not] at hw
      subst hw
      split at h
      · rename_i a b hab
        replace h := bind_ok.1 h; obtain ⟨wl, h2, h⟩ := h
        rw [orErr_ok, num32] at h2
        replace h := bind_ok.1 h; obtain ⟨wi, h3, h⟩ := h
        rw [orErr_ok, num32] at h3
        cases hf : findFunc (r :: r2 :: rest) with
        | none => rw [hf] at h; cases h
        | some t =>
          rw [hf] at h
          simp only at h
          replace h := bind_ok.1 h; obtain ⟨tl, h4, h⟩ := h
          rw [orErr_ok, num32] at h4
          simp only [Out.ok.injEq, Option.some.injEq] at h
          subst h
          obtain ⟨mid, post, e, hm⟩ := findFunc_some _ _ hf
          exact ⟨n, a, b, mid, t, post, len, wl, tl, by rw [← e, split_two hab], hm, h1, h2, h3, h4, rfl,
            rfl, rfl⟩
      · cases h
  · cases h

theorem parseSwitch_says {cmd : List UInt8} {ts : List (List UInt8)} {c : Cmd}
    (hc : cmd = kw_ctype ∨ cmd = kw_ltype ∨ cmd = kw_dtype)
    (h : parseSwitch cmd (cmd :: ts) = .ok (some c)) : Says (cmd :: ts) c := by
  unfold parseSwitch at h
  by_cases hl : (cmd :: ts).length ≠ 2 ∧ ((cmd :: ts).length ≠ 3 ∨ cmd ≠ kw_ltype)
  · rw [if_pos hl] at h; cases h
  · rw [if_neg hl] at h
    cases ts with
    | nil => simp [orErr, Out.bind] at h
    | cons t ts =>
      replace h := bind_ok.1 h; obtain ⟨n, h1, h⟩ := h
      simp only [List.getElem?_cons_succ, List.getElem?_cons_zero, Option.bind_some] at h1 h
      rw [orErr_ok, num32] at h1
      have htwo : cmd ≠ kw_ltype → ts = [] := by
        intro hne
        cases ts with
        | nil => rfl
        | cons t2 ts => exact absurd ⟨by simp, Or.inr hne⟩ hl
      by_cases e1 : cmd = kw_ctype
      · rw [if_pos e1] at h
        simp only [Out.ok.injEq, Option.some.injEq] at h
        have := htwo (by rw [e1]; exact fun e => kw_ne.1 e.symm)
        subst this h
        exact ⟨t, n, by rw [e1], h1, rfl⟩
      · rw [if_neg e1] at h
        by_cases e2 : cmd = kw_dtype
        · rw [if_pos e2] at h
          simp only [Out.ok.injEq, Option.some.injEq] at h
          have := htwo (by rw [e2]; exact fun e => kw_ne.2.1 e.symm)
          subst this h
          exact ⟨t, n, by rw [e2], h1, rfl⟩
        · rw [if_neg e2, if_neg (by simp)] at h
          have e3 : cmd = kw_ltype := by tauto
          cases ts with
          | nil => simp at h
          | cons t2 ts =>
            simp only [List.getElem?_cons_zero] at h
            replace h := bind_ok.1 h; obtain ⟨st, h2, h⟩ := h
            rw [orErr_ok, num32] at h2
            by_cases h8 : st > 8
            · rw [if_pos h8] at h; cases h
            · rw [if_neg h8] at h
              simp only [Out.ok.injEq, Option.some.injEq] at h
              subst h
              have : ts = [] := by
                cases ts with
                | nil => rfl
                | cons t3 ts => exact absurd ⟨by simp, Or.inl (by simp)⟩ hl
              subst this
              exact ⟨by omega, t, t2, n, by rw [e3], h1, rfl, h2⟩

theorem parsePred_says {ts : List (List UInt8)} {c : Cmd}
    (h : parsePred (kw_prediction :: ts) = .ok (some c)) : Says (kw_prediction :: ts) c := by
  unfold parsePred at h
  cases ts with
  | nil => simp at h
  | cons m ts =>
    simp only [List.getElem?_cons_succ, List.getElem?_cons_zero] at h
    replace h := bind_ok.1 h; obtain ⟨mode, h1, h⟩ := h
    replace h := bind_ok.1 h; obtain ⟨lm, h2, h⟩ := h
    replace h := bind_ok.1 h; obtain ⟨dm, h3, h⟩ := h
    replace h := bind_ok.1 h; obtain ⟨mix, h4, h⟩ := h
    replace h := bind_ok.1 h; obtain ⟨cm, h5, h⟩ := h
    replace h := bind_ok.1 h; obtain ⟨st, h6, h⟩ := h
    replace h := bind_ok.1 h; obtain ⟨mx, h7, h⟩ := h
    rw [orErr_ok] at h1 h2 h3 h4 h5 h6 h7
    simp only [Out.ok.injEq, Option.some.injEq] at h
    subst h
    obtain ⟨rfl, hm⟩ := parseMode_bound h1
    have b2 := numbers_bound _ _ _ _ h2
    have b3 := numbers_bound _ _ _ _ h3
    have b4 := numbers_bound _ _ _ _ h4
    obtain ⟨a, b, c, d, rfl, ha, hb, hc, hd⟩ := speedPair_bound h5
    obtain ⟨e, f, g, h', rfl, he, hf, hg, hh⟩ := speedPair_bound h6
    obtain ⟨i, j, k, l, rfl, hi, hj, hk, hl⟩ := speedPair_bound h7
    refine ⟨ts, rfl, hm, fun x hx => by have := b2.2 x hx; omega, fun x hx => by have := b3.2 x hx; omega,
      ?_, ?_, a, b, c, d, e, f, g, h', i, j, k, l, rfl, ?_⟩
    · have := b4.1
      simp only [List.length_append, List.length_replicate]
      omega
    · intro x hx
      rcases List.mem_append.1 hx with hx | hx
      · exact b4.2 x hx
      · have := List.eq_of_mem_replicate hx; omega
    · simp only [List.mem_cons, List.not_mem_nil, or_false, forall_eq_or_imp, forall_eq]
      exact ⟨ha, hb, hc, hd, he, hf, hg, hh, hi, hj, hk, hl⟩

/-- The line of a literal: the word, the number of bytes and the data. -/
def LiteralLine (s data : List UInt8) (e : Bool) : Prop :=
  data ≠ [] ∧ ∃ num c, s = (if e then kw_rndins else kw_insert) ++ 32 :: (num ++ 32 :: c) ∧
    Number (2 ^ 64) num data.length ∧ LiteralText c data

theorem parseInsert_ok {s cmd : List UInt8} {c : Cmd} (hcmd : cmd = kw_insert ∨ cmd = kw_rndins)
    (hhead : ∃ ts, split 32 s = cmd :: ts) (h : parseInsert s cmd (split 32 s) = .ok (some c)) :
    ∃ data, c = .lit data (cmd == kw_rndins) ∧ LiteralLine s data (cmd == kw_rndins) := by
  unfold parseInsert at h
  split at h
  · rename_i t0 t1 t2 rest hs
    obtain ⟨ts, hts⟩ := hhead
    have e0 : t0 = cmd := by rw [hs] at hts; exact (List.cons.inj hts).1
    subst e0
    replace h := bind_ok.1 h; obtain ⟨len, h1, h⟩ := h
    rw [orErr_ok, parseNat_iff (by decide)] at h1
    by_cases hl : len = 0
    · rw [if_pos hl] at h; cases h
    · rw [if_neg hl] at h
      replace h := bind_ok.1 h; obtain ⟨data, h2, h⟩ := h
      replace h := bind_ok.1 h; obtain ⟨probs, h3, h⟩ := h
      by_cases hd : data.length ≠ len
      · rw [if_pos hd] at h; cases h
      · rw [if_neg hd] at h
        by_cases hp : probs ≠ []
        · rw [if_pos hp] at h; cases h
        · rw [if_neg hp] at h
          simp only [Out.ok.injEq, Option.some.injEq] at h
          subst h
          simp only [ne_eq, not_not] at hd
          obtain ⟨e1, e2⟩ := tail_of_tokens hs
          rw [e2] at h2
          refine ⟨data, rfl, ?_, t1, unsplit 32 (t2 :: rest), ?_, by rw [hd]; exact h1,
            (literal_text _ _).1 h2⟩
          · rintro rfl; simp at hd; omega
          · rcases hcmd with rfl | rfl
            · rw [if_neg (by decide)]; exact e1
            · rw [if_pos (by decide)]; exact e1
  · split_ifs at h; cases h
  · cases h

theorem parse_says {s : List UInt8} {c : Cmd} (h : parse s = .ok (some c)) :
    Says (split 32 s) c ∨ ∃ data e, c = .lit data e ∧ LiteralLine s data e := by
  obtain ⟨cmd, ts, hs⟩ : ∃ cmd ts, split 32 s = cmd :: ts := by
    cases hs : split 32 s with
    | nil => exact absurd hs (split_ne_nil 32 s)
    | cons x xs => exact ⟨x, xs, rfl⟩
  unfold parse at h
  rw [hs] at h
  simp only at h
  split_ifs at h with h1 h2 h3 h4 h5 h6
  · cases h
  · rw [hs, h2] at *; exact Or.inl (parsePred_says h)
  · rw [hs]; exact Or.inl (parseSwitch_says h3 h)
  · rw [hs, h4] at *; exact Or.inl (parseCopy_says h)
  · rw [hs, h5] at *; exact Or.inl (parseDict_says h)
  · rw [← hs] at h
    obtain ⟨data, h7, h8⟩ := parseInsert_ok h6 ⟨ts, hs⟩ h
    exact Or.inr ⟨data, _, h7, h8⟩

/-- **C37 (rejection).** Whatever line is accepted as a command other than a literal has the form of that
command: everything else is rejected. -/
theorem accepted_says (s : List UInt8) (c : Cmd) (hc : ∀ d e, c ≠ .lit d e)
    (h : parse s = .ok (some c)) : Says (split 32 s) c := by
  rcases parse_says h with h | ⟨d, e, h, -⟩
  · exact h
  · exact absurd h (hc d e)

/-- **C37 (literals).** A line is parsed to a literal exactly if it consists of the word, the number of bytes
in decimal, and hexadecimal or quoted text of those bytes. -/
theorem literal_line (s data : List UInt8) (e : Bool) :
    parse s = .ok (some (.lit data e)) ↔ LiteralLine s data e := by
  constructor
  · intro h
    rcases parse_says h with h | ⟨d, e', h, h2⟩
    · exact absurd h (by simp [Says])
    · simp only [Cmd.lit.injEq] at h
      obtain ⟨rfl, rfl⟩ := h
      exact h2
  · rintro ⟨hd, num, c, hs, hn, ht⟩
    have hnum : (32 : UInt8) ∉ num := by
      obtain ⟨ds, h1, -, h2, -⟩ := hn
      intro hm
      rcases h1 with rfl | rfl
      · exact absurd (h2 32 hm).1 (by decide)
      · rcases List.mem_cons.1 hm with hm | hm
        · exact absurd hm (by decide)
        · exact absurd (h2 32 hm).1 (by decide)
    have hcmd : ∀ cmd : List UInt8, cmd = kw_insert ∨ cmd = kw_rndins → (32 : UInt8) ∉ cmd →
        s = cmd ++ 32 :: (num ++ 32 :: c) → parse s = .ok (some (.lit data (cmd == kw_rndins))) := by
      intro cmd hk h32 hs
      obtain ⟨t2, rest, hc⟩ : ∃ t2 rest, split 32 c = t2 :: rest := by
        cases hc : split 32 c with
        | nil => exact absurd hc (split_ne_nil 32 c)
        | cons x xs => exact ⟨x, xs, rfl⟩
      have hsp : split 32 s = cmd :: num :: t2 :: rest := by
        rw [hs, split_word cmd h32, split_word num hnum, hc]
      have htail : s.drop (cmd.length + num.length + 2) = c := by
        rw [(tail_of_tokens hsp).2, ← hc, unsplit_split]
      have hlit : literalSlice (s.drop (cmd.length + num.length + 2)) = .ok data := by
        rw [htail]; exact (literal_text _ _).2 ht
      have hlen : data.length ≠ 0 := fun h => hd (List.eq_nil_of_length_eq_zero h)
      have hI : parseInsert s cmd (cmd :: num :: t2 :: rest) =
          .ok (some (.lit data (cmd == kw_rndins))) := by
        unfold parseInsert
        simp only [(parseNat_iff (by decide) _ _).2 hn, orErr, Out.bind]
        rw [if_neg hlen, hlit]
        simp only
        cases rest with
        | nil => simp
        | cons t3 r =>
          have hcond : ¬ (t2 ≠ [] ∧ t2.headD 0 ≠ 34) := fun hc' =>
            probs_unreachable hsp hc'.1 hc'.2 hlit
          simp only
          rw [if_neg hcond]
          simp
      unfold parse
      rw [hsp]
      simp only
      have hall : ∀ k ∈ [kw_insert, kw_rndins], k ≠ kw_window ∧ k ≠ kw_prediction ∧
          ¬ (k = kw_ctype ∨ k = kw_ltype ∨ k = kw_dtype) ∧ k ≠ kw_copy ∧ k ≠ kw_dict := by decide
      obtain ⟨a1, a2, a3, a4, a5⟩ := hall cmd (by simpa using hk)
      rw [if_neg a1, if_neg a2, if_neg a3, if_neg a4, if_neg a5, if_pos hk]
      exact hI
    cases e with
    | false =>
      have := hcmd kw_insert (Or.inl rfl) (by decide) (by simpa using hs)
      rw [this]; rfl
    | true =>
      have := hcmd kw_rndins (Or.inr rfl) (by decide) (by simpa using hs)
      rw [this]; rfl

/-- "ltype 5" crashes the parser. -/
theorem ltype_without_stride_crashes : parse (kw_ltype ++ [32, 53]) = .panic := by decide +kernel

/-- "ctype 300" is accepted, as block type 44. -/
theorem block_type_cut : parse (kw_ctype ++ [32, 51, 48, 48]) = .ok (some (.switchCmd 44)) := by
  decide +kernel

/-- Text with probabilities is never accepted, whatever they are: hexadecimal data followed by anything. -/
theorem probabilities_rejected (s num hex prob : List UInt8) (h : (34 : UInt8) ≠ hex.headD 0) (d : List UInt8)
    (e : Bool) (hs : s = (if e then kw_rndins else kw_insert) ++ 32 :: (num ++ 32 :: (hex ++ 32 :: prob)))
    (hnum : (32 : UInt8) ∉ num) : parse s ≠ .ok (some (.lit d e)) := by
  rw [Ne, literal_line]
  rintro ⟨-, num', c, hs', hn, ht⟩
  have hnum' : (32 : UInt8) ∉ num' := by
    obtain ⟨ds, h1, -, h2, -⟩ := hn
    intro hm
    rcases h1 with rfl | rfl
    · exact absurd (h2 32 hm).1 (by decide)
    · rcases List.mem_cons.1 hm with hm | hm
      · exact absurd hm (by decide)
      · exact absurd (h2 32 hm).1 (by decide)
  rw [hs] at hs'
  have h1 := List.append_cancel_left hs'
  simp only [List.cons.injEq, true_and] at h1
  have h2 := congrArg (split 32) h1
  rw [split_word num hnum, split_word num' hnum'] at h2
  have h3 : c = hex ++ 32 :: prob := by
    have := congrArg (unsplit 32) (List.cons.inj h2).2
    rw [unsplit_split, unsplit_split] at this
    exact this.symm
  subst h3
  rcases ht with ht | ⟨body, ht, -⟩
  · exact hexText_no_space ht (by simp)
  · cases hex with
    | nil => simp at ht
    | cons x hex =>
      simp only [List.cons_append, List.cons.injEq] at ht
      exact h (by simp [ht.1])

/-! ## Examples -/

/-- `insert 3 61620a` -/
example : parse (kw_insert ++ [32, 51, 32, 54, 49, 54, 50, 48, 97]) = .ok (some (.lit [97, 98, 10] false)) := by
  decide +kernel

/-- `rndins 4 "a b\n"`: a quoted text with a space. -/
example : parse (kw_rndins ++ [32, 52, 32, 34, 97, 32, 98, 92, 110, 34]) =
    .ok (some (.lit [97, 32, 98, 10] true)) := by decide +kernel

/-- The line above has the form of a literal. -/
example : LiteralLine (kw_rndins ++ [32, 52, 32, 34, 97, 32, 98, 92, 110, 34]) [97, 32, 98, 10] true :=
  (literal_line _ _ _).1 (by decide +kernel)

/-- A wrong number of bytes is rejected. -/
example : parse (kw_insert ++ [32, 50, 32, 54, 49, 54, 50, 48, 97]) = .err := by decide +kernel

/-- `dict 6 word 4,7 func 3` -/
example : parse (unsplit 32 (tokens [] [] (.dict 6 4 7 3))) = .ok (some (.dict 6 4 7 3)) :=
  commands_parse _ (by simp [Cmd.Fits]) [] [] (by simp) (by simp) (by simp)

/-- `copy 100 from 23` with something after it. -/
example : parse (unsplit 32 (tokens [] [[35]] (.copy 100 23))) = .ok (some (.copy 100 23)) :=
  commands_parse _ (by simp [Cmd.Fits]) [] [[35]] (by simp) (by decide) (by simp)

/-- A prediction mode with maps, mixing values and speeds is expressible. -/
example : (Cmd.pred ⟨2, [0, 1, 255], [3], List.replicate 8192 4,
    [[(2, 1024), (1, 16384)], [(0, 0), (5, 7)], [(1, 2), (3, 4)]]⟩).Fits :=
  ⟨by decide, by decide, by decide, List.length_replicate,
    fun x hx => by have := List.eq_of_mem_replicate hx; omega,
    2, 1024, 1, 16384, 0, 0, 5, 7, 1, 2, 3, 4, rfl, by decide⟩

/-- `ltype 5` is valid text. -/
example : validUtf8 (kw_ltype ++ [32, 53]) = true := by decide +kernel

/-- `insert 1 61 00`: data and probabilities. -/
example : parse (kw_insert ++ [32, 49, 32, 54, 49, 32, 48, 48]) = .err := by decide +kernel

end Divans.Text
