import Mathlib.Data.List.Forall2
import Mathlib.Data.List.Nodup
import Mathlib.Tactic.Ring
import Mathlib.Tactic.Linarith
import Verif.Prior
import Verif.Lit

/-!
# Every context has a model of its own (C90)

Specification: a table lists types of models with their dimensions.  An index *fits* a type when it has as
many numbers as the type has dimensions, each below its dimension.  `get` should be a numbering, without
gaps, of all the pairs of a listed type and an index that fits.
-/

namespace Divans.Prior

variable {B : Type} [DecidableEq B]

/-- The index fits the type: as many numbers as dimensions, each below its dimension. -/
def Fits (t : Table B) (b : B) (idx : List Nat) : Prop :=
  ∃ dims, (b, dims) ∈ t ∧ dims ≠ [] ∧ List.Forall₂ (· < ·) idx dims

/-- A table the macro is meant for: no type twice, and each with at least one dimension. -/
structure Sound (t : Table B) : Prop where
  types : (t.map Prod.fst).Nodup
  dims : ∀ e ∈ t, e.2 ≠ []

/-! ## The place within a type -/

theorem linear_lt {dims idx : List Nat} (hn : dims ≠ []) (h : List.Forall₂ (· < ·) idx dims) (dbg : Bool) :
    ∃ i, linear dbg dims idx = some i ∧ i < dims.prod := by
  induction h with
  | nil => exact absurd rfl hn
  | @cons i d is ds hid hr ih =>
    cases ds with
    | nil => cases hr; exact ⟨i, by simp [linear, car, hid], by simpa using hid⟩
    | cons e ds =>
      obtain ⟨r, hr1, hr2⟩ := ih (by simp)
      refine ⟨i + d * r, by simp [linear, car, hid, hr1], ?_⟩
      rw [List.prod_cons]
      calc i + d * r < d + d * r := by omega
        _ = d * (r + 1) := by ring
        _ ≤ d * (e :: ds).prod := Nat.mul_le_mul_left _ hr2

theorem linear_inj {dims idx idx' : List Nat} (hn : dims ≠ []) (h : List.Forall₂ (· < ·) idx dims)
    (h' : List.Forall₂ (· < ·) idx' dims) {dbg dbg' : Bool}
    (he : linear dbg dims idx = linear dbg' dims idx') : idx = idx' := by
  induction h generalizing idx' with
  | nil => exact absurd rfl hn
  | @cons i d is ds hid hr ih =>
    obtain _ | ⟨hid', hr'⟩ := h'
    rename_i i' is'
    cases ds with
    | nil => cases hr; cases hr'; simpa [linear, car, hid, hid'] using he
    | cons e ds =>
      obtain ⟨r, e1, -⟩ := linear_lt (by simp) hr dbg
      obtain ⟨r', e2, -⟩ := linear_lt (by simp) hr' dbg'
      simp only [linear, car, List.headD_cons, List.tail_cons, hid, hid', e1, e2, not_true_eq_false,
        decide_false, Bool.and_false, Bool.false_eq_true, if_false, Option.map_some, Option.some.injEq]
        at he
      have h1 : i = i' := by
        have := congrArg (· % d) he
        simpa [Nat.mod_eq_of_lt hid, Nat.mod_eq_of_lt hid'] using this
      subst h1
      have hd : 0 < d := by omega
      have h2 : r = r' := Nat.eq_of_mul_eq_mul_left hd (by omega)
      subst h2
      rw [ih (by simp) hr' (e1.trans e2.symm)]

theorem linear_onto {dims : List Nat} (hn : dims ≠ []) {i : Nat} (h : i < dims.prod) (dbg : Bool) :
    ∃ idx, List.Forall₂ (· < ·) idx dims ∧ linear dbg dims idx = some i := by
  induction dims generalizing i with
  | nil => exact absurd rfl hn
  | cons d ds ih =>
    cases ds with
    | nil =>
      have h' : i < d := by simpa using h
      exact ⟨[i], .cons h' .nil, by simp [linear, car, h']⟩
    | cons e ds =>
      rw [List.prod_cons] at h
      have hd : 0 < d := Nat.pos_of_ne_zero (by rintro rfl; simp at h)
      obtain ⟨is, h1, h2⟩ := ih (by simp) (i := i / d) (Nat.div_lt_of_lt_mul h)
      have hm := Nat.mod_lt i hd
      exact ⟨(i % d) :: is, .cons hm h1, by simp [linear, car, hm, h2, Nat.mod_add_div]⟩

/-- In a build with assertions, what is not refused fits. -/
theorem linear_fits {dims idx : List Nat} {i : Nat} (hl : idx.length = dims.length)
    (h : linear true dims idx = some i) : dims ≠ [] ∧ List.Forall₂ (· < ·) idx dims := by
  induction dims generalizing idx i with
  | nil => simp [linear] at h
  | cons d ds ih =>
    refine ⟨by simp, ?_⟩
    obtain ⟨x, xs, rfl⟩ : ∃ x xs, idx = x :: xs := by
      cases idx with
      | nil => simp at hl
      | cons x xs => exact ⟨x, xs, rfl⟩
    have hl' : xs.length = ds.length := by simpa using hl
    cases ds with
    | nil =>
      cases xs with
      | cons => simp at hl'
      | nil =>
        by_cases hx : x < d
        · exact .cons hx .nil
        · simp [linear, car, hx] at h
    | cons e ds =>
      by_cases hx : x < d
      · simp only [linear, car, List.headD_cons, List.tail_cons, hx, not_true_eq_false,
          decide_false, Bool.and_false, Bool.false_eq_true, if_false, Option.map_eq_some_iff] at h
        obtain ⟨r, hr, -⟩ := h
        exact .cons hx (ih hl' hr).2
      · simp [linear, car, hx] at h

/-! ## The place of a type -/

/-- Number of models before those of a type. -/
def before (b : B) : Table B → Nat
  | [] => 0
  | (k, dims) :: rest => if b = k then 0 else dims.prod + before b rest

theorem dimsOf_mem {t : Table B} (hs : (t.map Prod.fst).Nodup) {b : B} {dims : List Nat}
    (h : (b, dims) ∈ t) : dimsOf b t = dims := by
  induction t with
  | nil => simp at h
  | cons e rest ih =>
    obtain ⟨k, ds⟩ := e
    rcases List.mem_cons.mp h with hm | hm
    · cases hm; cases rest <;> simp [dimsOf]
    · have hk : b ≠ k := by
        rintro rfl
        simp only [List.map_cons, List.nodup_cons] at hs
        exact hs.1 (List.mem_map_of_mem (f := Prod.fst) hm)
      cases rest with
      | nil => simp at hm
      | cons f rest =>
        simp only [dimsOf, if_pos hk]
        exact ih (by simp only [List.map_cons, List.nodup_cons] at hs ⊢; exact hs.2) hm

theorem offset_mem {t : Table B} {b : B} {dims : List Nat} (h : (b, dims) ∈ t) (dbg : Bool) :
    offset dbg b t = some (before b t) := by
  induction t with
  | nil => simp at h
  | cons e rest ih =>
    obtain ⟨k, ds⟩ := e
    by_cases hk : b = k
    · subst hk
      cases rest <;> simp [offset, before]
    · rcases List.mem_cons.mp h with h | h
      · exact absurd (congrArg Prod.fst h) hk
      · cases rest with
        | nil => simp at h
        | cons f rest => simp [offset, before, hk, ih h]

theorem collapse_mem {t : Table B} (hs : (t.map Prod.fst).Nodup) {b : B} {dims : List Nat}
    (h : (b, dims) ∈ t) (dbg : Bool) (idx : List Nat) :
    collapse dbg b idx t = (linear dbg dims idx).map (before b t + ·) := by
  induction t with
  | nil => simp at h
  | cons e rest ih =>
    obtain ⟨k, ds⟩ := e
    by_cases hk : b = k
    · subst hk
      have hd : ds = dims := by
        rcases List.mem_cons.mp h with h | h
        · exact (congrArg Prod.snd h).symm
        · simp only [List.map_cons, List.nodup_cons] at hs
          exact absurd (List.mem_map_of_mem (f := Prod.fst) h) hs.1
      subst hd
      cases rest <;> simp [collapse, before]
    · rcases List.mem_cons.mp h with h | h
      · exact absurd (congrArg Prod.fst h) hk
      · cases rest with
        | nil => simp at h
        | cons f rest =>
          simp only [collapse, if_neg hk, before]
          rw [ih (by simp only [List.map_cons, List.nodup_cons] at hs ⊢; exact hs.2) h]
          cases linear dbg dims idx <;> simp [before, Nat.add_assoc]

theorem before_le {t : Table B} {b : B} {dims : List Nat} (hs : (t.map Prod.fst).Nodup)
    (h : (b, dims) ∈ t) : before b t + dims.prod ≤ total t := by
  induction t with
  | nil => simp at h
  | cons e rest ih =>
    obtain ⟨k, ds⟩ := e
    simp only [List.map_cons, List.nodup_cons] at hs
    by_cases hk : b = k
    · subst hk
      have hd : ds = dims := by
        rcases List.mem_cons.mp h with h | h
        · exact (congrArg Prod.snd h).symm
        · exact absurd (List.mem_map_of_mem (f := Prod.fst) h) hs.1
      subst hd
      simp [before, total]
    · rcases List.mem_cons.mp h with h | h
      · exact absurd (congrArg Prod.fst h) hk
      · have := ih hs.2 h
        simp only [before, if_neg hk, total]
        omega

/-- Two types do not overlap. -/
theorem before_inj {t : Table B} {b b' : B} {dims dims' : List Nat} (hs : (t.map Prod.fst).Nodup)
    (h : (b, dims) ∈ t) (h' : (b', dims') ∈ t) {i i' : Nat} (hi : i < dims.prod) (hi' : i' < dims'.prod)
    (he : before b t + i = before b' t + i') : b = b' ∧ i = i' := by
  induction t with
  | nil => simp at h
  | cons e rest ih =>
    obtain ⟨k, ds⟩ := e
    simp only [List.map_cons, List.nodup_cons] at hs
    have key : ∀ {x : B} {xs : List Nat}, (x, xs) ∈ (k, ds) :: rest → x = k → ds = xs := by
      intro x xs hm hx
      subst hx
      rcases List.mem_cons.mp hm with hm | hm
      · exact (congrArg Prod.snd hm).symm
      · exact absurd (List.mem_map_of_mem (f := Prod.fst) hm) hs.1
    have tl : ∀ {x : B} {xs : List Nat}, (x, xs) ∈ (k, ds) :: rest → x ≠ k → (x, xs) ∈ rest := by
      intro x xs hm hx
      rcases List.mem_cons.mp hm with hm | hm
      · exact absurd (congrArg Prod.fst hm) hx
      · exact hm
    by_cases hk : b = k <;> by_cases hk' : b' = k
    · simp only [before, if_pos hk, if_pos hk'] at he
      exact ⟨hk.trans hk'.symm, by omega⟩
    · simp only [before, if_pos hk, if_neg hk'] at he
      have := key h hk
      subst this
      omega
    · simp only [before, if_neg hk, if_pos hk'] at he
      have := key h' hk'
      subst this
      omega
    · simp only [before, if_neg hk, if_neg hk'] at he
      exact ih hs.2 (tl h hk) (tl h' hk') (by omega)

theorem before_onto {t : Table B} (hs : (t.map Prod.fst).Nodup) {n : Nat} (h : n < total t) :
    ∃ b dims i, (b, dims) ∈ t ∧ i < dims.prod ∧ n = before b t + i := by
  induction t generalizing n with
  | nil => simp [total] at h
  | cons e rest ih =>
    obtain ⟨k, ds⟩ := e
    simp only [List.map_cons, List.nodup_cons] at hs
    by_cases hn : n < ds.prod
    · exact ⟨k, ds, n, by simp, hn, by simp [before]⟩
    · obtain ⟨b, dims, i, h1, h2, h3⟩ := ih hs.2 (n := n - ds.prod) (by simp only [total] at h; omega)
      have hk : b ≠ k := by
        rintro rfl
        exact hs.1 (List.mem_map_of_mem (f := Prod.fst) h1)
      exact ⟨b, dims, i, by simp [h1], h2, by simp only [before, if_neg hk]; omega⟩

theorem get_mem {t : Table B} (hs : Sound t) {b : B} {dims idx : List Nat} (h : (b, dims) ∈ t)
    (hf : List.Forall₂ (· < ·) idx dims) (dbg : Bool) :
    ∃ i, linear dbg dims idx = some i ∧ i < dims.prod ∧ get dbg t b idx = some (before b t + i) := by
  obtain ⟨i, e1, e2⟩ := linear_lt (hs.dims _ h) hf dbg
  refine ⟨i, e1, e2, ?_⟩
  have hlen : idx.length = numDims t b := by
    rw [numDims, dimsOf_mem hs.types h]; exact hf.length_eq
  have hlt : before b t + i < total t := by
    have := before_le hs.types h
    simp only at e2
    omega
  simp [get, hlen, collapse_mem hs.types h, e1, hlt]

/-! ## The claims -/

/-- C90: **an index that fits has a model**, in builds with and without assertions alike. -/
theorem has_model {t : Table B} (hs : Sound t) {b : B} {idx : List Nat} (hf : Fits t b idx) :
    ∃ i, i < total t ∧ ∀ dbg, get dbg t b idx = some i := by
  obtain ⟨dims, h, hn, hf⟩ := hf
  obtain ⟨i, e1, e2, e3⟩ := get_mem hs h hf true
  obtain ⟨j, f1, f2, f3⟩ := get_mem hs h hf false
  have hij : i = j := by
    obtain ⟨idx', g1, g2⟩ := linear_onto hn e2 false
    have := linear_inj hn hf g1 (dbg := true) (dbg' := false) (e1.trans g2.symm)
    subst this
    rw [g2] at f1
    exact Option.some.inj f1
  subst hij
  refine ⟨before b t + i, ?_, fun dbg => by cases dbg <;> assumption⟩
  have := before_le hs.types h
  omega

/-- C90: **and it has it for itself**: two contexts with the same model are the same. -/
theorem own_model {t : Table B} (hs : Sound t) {b b' : B} {idx idx' : List Nat} (hf : Fits t b idx)
    (hf' : Fits t b' idx') {dbg : Bool} (he : get dbg t b idx = get dbg t b' idx') :
    b = b' ∧ idx = idx' := by
  obtain ⟨dims, h, hn, hf⟩ := hf
  obtain ⟨dims', h', hn', hf'⟩ := hf'
  obtain ⟨i, e1, e2, e3⟩ := get_mem hs h hf dbg
  obtain ⟨j, f1, f2, f3⟩ := get_mem hs h' hf' dbg
  rw [e3, f3] at he
  obtain ⟨rfl, rfl⟩ := before_inj hs.types h h' e2 f2 (Option.some.inj he)
  have : dims = dims' := (dimsOf_mem hs.types h).symm.trans (dimsOf_mem hs.types h')
  subst this
  exact ⟨rfl, linear_inj hn hf hf' (e1.trans f1.symm)⟩

/-- C90: **no model is there for nothing**: each belongs to a context. -/
theorem all_used {t : Table B} (hs : Sound t) {n : Nat} (h : n < total t) :
    ∃ b idx, Fits t b idx ∧ ∀ dbg, get dbg t b idx = some n := by
  obtain ⟨b, dims, i, h1, h2, h3⟩ := before_onto hs.types h
  obtain ⟨idx, g1, g2⟩ := linear_onto (hs.dims _ h1) h2 true
  have hf : Fits t b idx := ⟨dims, h1, hs.dims _ h1, g1⟩
  refine ⟨b, idx, hf, ?_⟩
  obtain ⟨j, e1, e2, e3⟩ := get_mem hs h1 g1 true
  obtain ⟨k, -, f⟩ := has_model hs hf
  have : j = i := Option.some.inj (e1.symm.trans g2)
  subst this
  have : k = n := by
    have := (f true).symm.trans e3
    rw [h3]; exact Option.some.inj this
  subst this
  exact f

/-- C90: **the tools that walk through a table see each model of a type once**: the raw indices below
`num_prior` give exactly the models `get` gives. -/
theorem raw_models {t : Table B} (hs : Sound t) {b : B} (hb : b ∈ t.map Prod.fst) {n : Nat} (dbg : Bool) :
    (∃ i, i < numPrior t b ∧ getRaw dbg t b i = some n) ↔ ∃ idx, Fits t b idx ∧ get dbg t b idx = some n := by
  obtain ⟨⟨b', dims⟩, h, rfl⟩ := List.mem_map.mp hb
  have hd := dimsOf_mem hs.types h
  have hle := before_le hs.types h
  simp only at *
  constructor
  · rintro ⟨i, hi, hg⟩
    rw [numPrior, hd] at hi
    obtain ⟨idx, g1, g2⟩ := linear_onto (hs.dims _ h) hi dbg
    refine ⟨idx, ⟨dims, h, hs.dims _ h, g1⟩, ?_⟩
    obtain ⟨j, e1, e2, e3⟩ := get_mem hs h g1 dbg
    have : j = i := Option.some.inj (e1.symm.trans g2)
    subst this
    have hlt : j + before b' t < total t := by omega
    simp only [getRaw, numPrior, hd, hi, not_true_eq_false, decide_false, Bool.and_false,
      Bool.false_eq_true, if_false, offset_mem h, Option.bind_some, if_pos hlt, Option.some.injEq] at hg
    rw [e3, ← hg, Nat.add_comm]
  · rintro ⟨idx, ⟨dims', h', hn, hf⟩, hg⟩
    have : dims = dims' := hd.symm.trans (dimsOf_mem hs.types h')
    subst this
    obtain ⟨j, e1, e2, e3⟩ := get_mem hs h hf dbg
    refine ⟨j, by rw [numPrior, hd]; exact e2, ?_⟩
    have hlt : j + before b' t < total t := by omega
    rw [e3] at hg
    simp only [getRaw, numPrior, hd, e2, not_true_eq_false, decide_false, Bool.and_false,
      Bool.false_eq_true, if_false, offset_mem h, Option.bind_some, if_pos hlt, Option.some.injEq]
    rw [Nat.add_comm]; exact Option.some.inj hg

/-- C90: **with assertions, an index that does not fit a listed type is refused.** -/
theorem refused {t : Table B} (hs : Sound t) {b : B} (hb : b ∈ t.map Prod.fst) {idx : List Nat}
    (hf : ¬ Fits t b idx) : get true t b idx = none := by
  obtain ⟨⟨b', dims⟩, h, rfl⟩ := List.mem_map.mp hb
  have hd := dimsOf_mem hs.types h
  simp only at *
  rw [Option.eq_none_iff_forall_ne_some]
  intro n hg
  simp only [get, numDims, hd, Bool.true_and, decide_eq_true_eq, Option.ite_none_left_eq_some,
    ne_eq, not_not] at hg
  obtain ⟨hl, hg⟩ := hg
  rw [collapse_mem hs.types h] at hg
  obtain ⟨m, hm, -⟩ := Option.bind_eq_some_iff.mp hg
  obtain ⟨i, hi, -⟩ := Option.map_eq_some_iff.mp hm
  obtain ⟨h1, h2⟩ := linear_fits hl hi
  exact hf ⟨dims, h, h1, h2⟩

/-! ### A history of uses -/

theorem after_ok {T : Type} {t : Table B} (hs : Sound t) {dbg : Bool} {b : B} {idx : List Nat}
    (hf : Fits t b idx) {n : Nat} (hn : get dbg t b idx = some n) :
    ∀ (us : List (Use B T)) (mem : List T), (∀ u ∈ us, Fits t u.type u.idx) →
      ∃ mem', after dbg t mem us = some mem' ∧ mem'.length = mem.length ∧
        mem'[n]? = mem[n]?.map fun d =>
          (us.filter fun u => u.type = b ∧ u.idx = idx).foldl (fun x u => u.change x) d := by
  intro us
  induction us with
  | nil => intro mem _; exact ⟨mem, rfl, rfl, by simp⟩
  | cons u us ih =>
    intro mem hu
    have hfu := hu u (by simp)
    obtain ⟨i, hi, hg⟩ := has_model hs hfu
    obtain ⟨mem', e1, e2, e3⟩ := ih (mem.modify i u.change) fun v hv => hu v (by simp [hv])
    refine ⟨mem', ?_, by simpa using e2, ?_⟩
    · simp [after, touch, hg, e1]
    · rw [e3, List.getElem?_modify]
      by_cases hx : u.type = b ∧ u.idx = idx
      · have : i = n := by
          have := hg dbg
          rw [hx.1, hx.2, hn] at this
          exact (Option.some.inj this).symm
        subst this
        cases mem[i]? <;> simp [hx]
      · have : i ≠ n := by
          rintro rfl
          exact hx (own_model hs hfu hf ((hg dbg).trans hn.symm))
        cases mem[n]? <;> simp [hx, this]

/-- C90: **what a model has learnt is what happened in its context**: after any history of uses of a fresh
table, the model of a context is the default one with the changes made in that context, in their order, and
with no others. -/
theorem learns_own {T : Type} {t : Table B} (hs : Sound t) {dbg : Bool} (d : T) (us : List (Use B T))
    (hu : ∀ u ∈ us, Fits t u.type u.idx) {b : B} {idx : List Nat} (hf : Fits t b idx) :
    ∃ mem n, after dbg t (List.replicate (total t) d) us = some mem ∧ get dbg t b idx = some n ∧
      mem[n]? = some ((us.filter fun u => u.type = b ∧ u.idx = idx).foldl (fun x u => u.change x) d) := by
  obtain ⟨n, hlt, hg⟩ := has_model hs hf
  obtain ⟨mem, e1, -, e3⟩ := after_ok hs hf (hg dbg) us (List.replicate (total t) d) hu
  exact ⟨mem, n, e1, hg dbg, by rw [e3]; simp [hlt]⟩

/-! ### What is not refused -/

theorem dimsOf_last {t : Table B} {b : B} {k : B} {dims : List Nat} (hb : b ∉ t.map Prod.fst) :
    dimsOf b (t ++ [(k, dims)]) = dims := by
  induction t with
  | nil => rfl
  | cons e rest ih =>
    obtain ⟨k', ds⟩ := e
    simp only [List.map_cons, List.mem_cons, not_or] at hb
    have := ih hb.2
    cases rest with
    | nil => simp [dimsOf, hb.1]
    | cons f rest => simp only [List.cons_append, dimsOf] at this ⊢; rw [if_pos hb.1]; exact this

theorem collapse_last {t : Table B} {b k : B} {dims : List Nat} (hb : b ∉ t.map Prod.fst)
    (hk : k ∉ t.map Prod.fst) (dbg : Bool) (idx : List Nat) :
    collapse dbg b idx (t ++ [(k, dims)]) = collapse dbg k idx (t ++ [(k, dims)]) := by
  induction t with
  | nil => rfl
  | cons e rest ih =>
    obtain ⟨k', ds⟩ := e
    simp only [List.map_cons, List.mem_cons, not_or] at hb hk
    have := ih hb.2 hk.2
    cases rest with
    | nil => simp [collapse, hb.1, hk.1]
    | cons f rest =>
      simp only [List.cons_append, collapse, if_neg hb.1, if_neg hk.1] at this ⊢; rw [this]

/-- C90, what is not so: **a type that is not listed is not refused, with assertions or without: it shares
the models of the last type listed.** -/
theorem unlisted_shares {t : Table B} {b k : B} {dims : List Nat} (hb : b ∉ t.map Prod.fst)
    (hk : k ∉ t.map Prod.fst) (dbg : Bool) (idx : List Nat) :
    get dbg (t ++ [(k, dims)]) b idx = get dbg (t ++ [(k, dims)]) k idx := by
  simp only [get, numDims, dimsOf_last hb, dimsOf_last hk, collapse_last hb hk]

/-- C90, what is not so: **without assertions an index that does not fit is not always refused: it may be
given the model of another context**, here of another type, for an index too large and for one with too few
numbers. -/
theorem unchecked_shares :
    get false [(0, [6, 2]), (1, [3])] 0 [6, 1] = get false [(0, [6, 2]), (1, [3])] 1 [0] ∧
    get false [(0, [6, 2]), (1, [3])] 0 [4] = get false [(0, [6, 2]), (1, [3])] 0 [4, 1] := by
  decide

/-! ## The tables of the codec -/

theorem linearize_eq (dims idx : List Nat) :
    Codec.linearize dims idx = if idx.length = dims.length then linear true dims idx else none := by
  induction dims generalizing idx with
  | nil => cases idx <;> simp [Codec.linearize, linear]
  | cons d ds ih =>
    cases idx with
    | nil => cases ds <;> simp [Codec.linearize]
    | cons i is =>
      cases ds with
      | nil =>
        cases is with
        | nil => by_cases h : i < d <;> simp [Codec.linearize, linear, car, h]
        | cons j js => by_cases h : i < d <;> simp [Codec.linearize, h]
      | cons e ds =>
        have : Codec.linearize (d :: e :: ds) (i :: is) =
            if i < d then (Codec.linearize (e :: ds) is).map fun r => i + d * r else none := by
          cases is <;> simp [Codec.linearize]
        rw [this, ih]
        by_cases h : i < d <;> by_cases hl : is.length = ds.length + 1 <;>
          simp [linear, car, h, hl]

theorem collapse_eq (k : Codec.Kind) (idx : List Nat) (t : Table Codec.Kind) (ht : t ≠ []) :
    Codec.collapse k idx t = if idx.length = numDims t k then collapse true k idx t else none := by
  induction t with
  | nil => exact absurd rfl ht
  | cons e rest ih =>
    obtain ⟨b, dims⟩ := e
    cases rest with
    | nil => simp only [Codec.collapse, collapse, numDims, dimsOf]; exact linearize_eq dims idx
    | cons f rest =>
      simp only [Codec.collapse, collapse, numDims, dimsOf]
      by_cases hk : k = b
      · simp only [hk, if_true, ne_eq, not_true_eq_false, if_false]
        exact linearize_eq dims idx
      · simp only [hk, if_false, ne_eq, not_false_eq_true, if_true]
        rw [ih (by simp)]
        simp only [numDims]
        by_cases hl : idx.length = (dimsOf k (f :: rest)).length <;> simp [hl]

theorem total_eq (t : Table B) : total t = (t.map fun e => e.2.prod).sum := by
  induction t with
  | nil => rfl
  | cons e rest ih => simp [total, ih]

/-- The look-ups of the command coder are those of its tables, with assertions. -/
theorem key_eq (tab : Codec.Tab) (k : Codec.Kind) (idx : List Nat) :
    Codec.key? tab k idx = (get true (Codec.layout tab) k idx).map fun i => (tab, i) := by
  have ht : Codec.layout tab ≠ [] := by cases tab <;> simp [Codec.layout]
  have hs : total (Codec.layout tab) = Codec.tabSize tab := total_eq _
  simp only [Codec.key?, collapse_eq k idx _ ht, get, hs]
  by_cases hl : idx.length = numDims (Codec.layout tab) k
  · simp only [hl, if_true, ne_eq, not_true_eq_false, decide_false, Bool.and_false,
      Bool.false_eq_true, if_false]
    cases collapse true k idx (Codec.layout tab) with
    | none => rfl
    | some i => by_cases h : i < Codec.tabSize tab <;> simp [h]
  · simp [hl]

/-- The tables of the command coder are sound. -/
theorem layout_sound (tab : Codec.Tab) : Sound (Codec.layout tab) := by
  constructor
  · cases tab <;> decide
  · cases tab <;> decide

/-- C90: **in the tables of the command coder every context has a model of its own.** -/
theorem command_models {tab tab' : Codec.Tab} {k k' : Codec.Kind} {idx idx' : List Nat} {key : Codec.Key}
    (hk : k ∈ (Codec.layout tab).map Prod.fst) (hk' : k' ∈ (Codec.layout tab').map Prod.fst)
    (h : Codec.key? tab k idx = some key) (h' : Codec.key? tab' k' idx' = some key) :
    tab = tab' ∧ k = k' ∧ idx = idx' := by
  rw [key_eq] at h h'
  obtain ⟨i, hi, rfl⟩ := Option.map_eq_some_iff.mp h
  obtain ⟨j, hj, he⟩ := Option.map_eq_some_iff.mp h'
  obtain ⟨rfl, rfl⟩ := Prod.mk.inj he
  have hs := layout_sound tab'
  have f1 : Fits (Codec.layout tab') k idx := by
    by_contra hn; rw [refused hs hk hn] at hi; cases hi
  have f2 : Fits (Codec.layout tab') k' idx' := by
    by_contra hn; rw [refused hs hk' hn] at hj; cases hj
  exact ⟨rfl, own_model hs f1 f2 (hi.trans hj.symm)⟩

/-- C90, what is not so: **three settings of a prediction mode command share a model**: whether predictions
are mixed, how deep the priors are, and the first nibble of the speeds, as the first two have no entry in the
table. -/
theorem settings_share :
    Codec.key? .pm .pmMixing [0] = some (.pm, 27) ∧ Codec.key? .pm .pmDepth [0] = some (.pm, 27) ∧
    Codec.key? .pm .pmPalette [0] = some (.pm, 27) := by
  decide

/-- The types of the tables for literals, `/repo/src/codec/priors.rs:22-33`. -/
inductive LitKind where
  | combined | first | second
  deriving DecidableEq

/-- `LiteralNibblePriors`, `/repo/src/codec/priors.rs:35-37`. -/
def nibTable : Table LitKind := [(.combined, [3, 256, 256])]

/-- `LiteralCommandPriorsCM`, `/repo/src/codec/priors.rs:45-47`. -/
def cmTable : Table LitKind := [(.first, [1, 256]), (.second, [1, 16, 256])]

/-- The tables for literals are sound. -/
theorem nib_sound : Sound nibTable := ⟨by decide, by decide⟩

theorem cm_sound : Sound cmTable := ⟨by decide, by decide⟩

/-- C90: **two contexts of a nibble of a literal with the same model are the same**: the same half of the
byte and the same three numbers. -/
theorem nibble_models {high high' : Bool} {a b c a' b' c' : Nat} {key : Lit.Key}
    (h : Lit.nibKey high a b c = some key) (h' : Lit.nibKey high' a' b' c' = some key) :
    high = high' ∧ a = a' ∧ b = b' ∧ c = c' := by
  obtain ⟨i, hi, rfl⟩ := Option.map_eq_some_iff.mp h
  obtain ⟨j, hj, he⟩ := Option.map_eq_some_iff.mp h'
  obtain ⟨h1, rfl⟩ := Prod.mk.inj he
  rw [linearize_eq, if_pos (by rfl)] at hi hj
  have g1 := linear_fits (by rfl) hi
  have g2 := linear_fits (by rfl) hj
  have := linear_inj g1.1 g1.2 g2.2 (hi.trans hj.symm)
  simp only [List.cons.injEq, and_true] at this
  refine ⟨?_, this⟩
  cases high <;> cases high' <;> simp_all

/-- C90: **and so with the models that are mixed in**, whose number `prior` counts for the low half. -/
theorem mixed_models {high high' : Bool} {prior ctx prior' ctx' : Nat} {key : Lit.Key}
    (h : Lit.cmKey high prior ctx = some key) (h' : Lit.cmKey high' prior' ctx' = some key) :
    high = high' ∧ ctx = ctx' ∧ (high = false → prior = prior') := by
  have key_of : ∀ (hi : Bool) (p c : Nat), Lit.cmKey hi p c =
      (get true cmTable (if hi then .first else .second) (if hi then [0, c] else [0, p, c])).map
        fun i => (Lit.Tab.cm, i) := by
    intro hi p c
    cases hi
    · by_cases h1 : p < 16 <;> by_cases h2 : c < 256
      · have h3 : 256 + (p + 16 * c) < 4352 := by omega
        simp [Lit.cmKey, Codec.linearize, get, cmTable, numDims, dimsOf, collapse, linear, car, total, h1,
          h2, h3]
      all_goals simp [Lit.cmKey, Codec.linearize, get, cmTable, numDims, dimsOf, collapse, linear, car,
        h1, h2]
    · by_cases h2 : c < 256
      · have h3 : c < 4352 := by omega
        simp [Lit.cmKey, Codec.linearize, get, cmTable, numDims, dimsOf, collapse, linear, car, total, h2, h3]
      · simp [Lit.cmKey, Codec.linearize, get, cmTable, numDims, dimsOf, collapse, linear, car, h2]
  rw [key_of] at h h'
  obtain ⟨i, hi, rfl⟩ := Option.map_eq_some_iff.mp h
  obtain ⟨j, hj, he⟩ := Option.map_eq_some_iff.mp h'
  obtain ⟨-, rfl⟩ := Prod.mk.inj he
  have f : ∀ (x : Bool) (l : List Nat) (n : Nat),
      get true cmTable (if x then .first else .second) l = some n →
        Fits cmTable (if x then .first else .second) l := by
    intro x l n hx
    by_contra hn
    rw [refused cm_sound (by cases x <;> decide) hn] at hx
    cases hx
  obtain ⟨e1, e2⟩ := own_model cm_sound (f _ _ _ hi) (f _ _ _ hj) (hi.trans hj.symm)
  cases high <;> cases high' <;> simp_all

/-! ## Examples -/

/-- The table of the tests of the code, `/repo/src/priors.rs:318-321`. -/
def demoTable : Table Nat := [(0, [5, 8, 2]), (1, [6, 2]), (2, [3])]

example : Sound demoTable := ⟨by decide, by decide⟩
example : Fits demoTable 0 [4, 7, 1] ∧ Fits demoTable 1 [5, 1] :=
  ⟨⟨[5, 8, 2], by decide, by decide, by simp⟩, ⟨[6, 2], by decide, by decide, by simp⟩⟩
example : get true demoTable 0 [4, 7, 1] = some 79 ∧ get true demoTable 1 [5, 1] = some 91 ∧
    get true demoTable 2 [2] = some 94 ∧ total demoTable = 95 := by decide
example : get true demoTable 1 [6, 1] = none ∧ get true demoTable 1 [0, 0, 0] = none := by decide
example : getRaw true demoTable 1 11 = some 91 ∧ getRaw true demoTable 1 12 = none ∧
    getRaw true demoTable 7 0 = none ∧ getRaw false demoTable 7 0 = some 92 := by decide
example : (after true demoTable (List.replicate 95 0)
    [⟨1, [5, 1], (· + 2)⟩, ⟨0, [0, 0, 0], (· + 7)⟩, ⟨1, [5, 1], (· * 10)⟩]).map (·[91]?) = some (some 20) := by
  decide
example : Codec.key? .copy .countBeg [3, 4] ≠ none ∧
    Codec.Kind.countBeg ∈ (Codec.layout .copy).map Prod.fst := by decide
example : Lit.nibKey true 2 255 9 ≠ none ∧ Lit.cmKey false 15 255 = some (.cm, 4351) := by decide

end Divans.Prior
