import Mathlib.Data.List.Perm.Basic
import Mathlib.Data.List.Nodup
import Verif.CAlloc

/-!
# Memory of the C interface (C92)

Specification: memory given back was taken from the same heap before, has not been given back since, and Rust's heap
is told the size it was taken with.
-/

namespace Divans.CAlloc

/-- A piece of memory: heap, address, size. -/
abbrev Item := Side × Nat × Nat

/-- Whether an item is at an address of a heap. -/
def At (s : Side) (p : Nat) (x : Item) : Bool := x.1 = s && x.2.1 = p

/-- The memory that is taken and not given back (latest event first). -/
def live : List Ev → List Item
  | [] => []
  | .take s _ p n :: log => (s, p, n) :: live log
  | .give s _ p _ :: log => (live log).eraseP (At s p)

/-- Memory is given back only to the heap it was taken from, only while it is taken, and with its size. -/
def Proper : List Ev → Prop
  | [] => True
  | .take _ _ _ _ :: log => Proper log
  | .give s _ p k :: log => (∃ n, (s, p, n) ∈ live log ∧ ∀ m ∈ k, m = n) ∧ Proper log

/-- The pointer of the caller is passed in every call of the functions. -/
def Passes (q : Nat) (log : List Ev) : Prop :=
  ∀ e ∈ log, (∀ o p n, e = .take .caller o p n → o = q) ∧ (∀ o p k, e = .give .caller o p k → o = q)

/-- A heap does not give an address at which there is something. -/
def Env.Fresh (env : Env) : Prop := ∀ log n, ∀ x ∈ live log, x.2.1 ≠ env log n

/-! ## Lemmas -/

/-- What a block stands for. -/
def cellItems (f : Funcs) (b : Block) : List Item :=
  if f.alloc then [(.caller, b.ptr, b.bytes)] else if b.bytes = 0 then [] else [(.rust, b.ptr, b.bytes)]

/-- What a piece in the hands of the caller stands for. -/
def lentItems (f : Funcs) (u : Lent) : List Item :=
  if f.alloc then [(.caller, u.ptr, u.len * u.elt % 2 ^ 64)]
  else if u.len * u.elt = 0 then [] else [(.rust, u.ptr, u.len * u.elt)]

theorem eraseP_at {l : List Item} (hn : (l.map fun x => x.2.1).Nodup) {s : Side} {p n : Nat}
    (h : (s, p, n) ∈ l) : l.eraseP (At s p) = l.erase (s, p, n) := by
  induction l with
  | nil => simp at h
  | cons x t ih =>
    simp only [List.map_cons, List.nodup_cons, List.mem_map, not_exists, not_and] at hn
    by_cases hx : x = (s, p, n)
    · subst hx
      simp [At]
    · have ht : (s, p, n) ∈ t := by
        rcases List.mem_cons.mp h with h | h
        · exact absurd h.symm hx
        · exact h
      have hp : x.2.1 ≠ p := fun hh => hn.1 _ ht hh.symm
      have : At s p x = false := by simp [At, hp]
      rw [List.eraseP_cons_of_neg (by simp [this]), List.erase_cons_tail (by simpa using hx), ih hn.2 ht]

/-- The invariant: what is taken is what is in some hand. -/
structure Inv (f : Funcs) (st : St) (lost : List Item) : Prop where
  proper : Proper st.log
  passes : Passes f.tag st.log
  apart : ((live st.log).map fun x => x.2.1).Nodup
  counts : ∀ x, (live st.log).count x =
    (st.held.flatMap (cellItems f)).count x + (st.lent.flatMap (lentItems f)).count x + lost.count x
  sizes : ∀ b ∈ st.held, b.len = 0 → b.bytes = 0

theorem count_eraseIdx {α : Type} (g : α → List Item) (l : List α) (i : Nat) (b : α) (h : l[i]? = some b)
    (x : Item) : (l.flatMap g).count x = (g b).count x + ((l.eraseIdx i).flatMap g).count x := by
  induction l generalizing i with
  | nil => simp at h
  | cons a t ih =>
    cases i with
    | zero => simp only [List.getElem?_cons_zero, Option.some.injEq] at h; subst h; simp
    | succ i =>
      simp only [List.getElem?_cons_succ] at h
      have := ih i h
      simp only [List.flatMap_cons, List.count_append, List.eraseIdx_cons_succ]
      omega

/-- Taking memory. -/
theorem take_log {log : List Ev} {env : Env} (he : env.Fresh) (s : Side) (q n : Nat) {f : Funcs}
    (hq : f.tag = q) (h1 : Proper log) (h2 : Passes f.tag log)
    (h3 : ((live log).map fun x => x.2.1).Nodup) :
    Proper (.take s q (env log n) n :: log) ∧ Passes f.tag (.take s q (env log n) n :: log) ∧
    ((live (.take s q (env log n) n :: log)).map fun x => x.2.1).Nodup := by
  refine ⟨h1, ?_, ?_⟩
  · intro e hm
    rcases List.mem_cons.mp hm with rfl | hm
    · subst hq
      exact ⟨by (intro o p n h; cases h; rfl), by (intro o p k h; cases h)⟩
    · exact h2 e hm
  · simp only [live, List.map_cons, List.nodup_cons]
    refine ⟨?_, h3⟩
    simp only [List.mem_map, not_exists, not_and]
    exact fun x hx => he log n x hx

/-- Giving back memory that is taken. -/
theorem give_log {log : List Ev} {s : Side} {p n : Nat} {k : Option Nat} {f : Funcs} (hm : (s, p, n) ∈ live log)
    (hk : ∀ m ∈ k, m = n) (h1 : Proper log) (h2 : Passes f.tag log)
    (h3 : ((live log).map fun x => x.2.1).Nodup) :
    Proper (.give s f.tag p k :: log) ∧ Passes f.tag (.give s f.tag p k :: log) ∧
    ((live (.give s f.tag p k :: log)).map fun x => x.2.1).Nodup ∧
    ∀ x, (live log).count x = [(s, p, n)].count x + (live (.give s f.tag p k :: log)).count x := by
  refine ⟨⟨⟨n, hm, hk⟩, h1⟩, ?_, ?_, ?_⟩
  · intro e he
    rcases List.mem_cons.mp he with rfl | he
    · exact ⟨by (intro o p n h; cases h), by (intro o p k h; cases h; rfl)⟩
    · exact h2 e he
  · exact h3.sublist (List.Sublist.map _ List.eraseP_sublist)
  · intro x
    rw [live, eraseP_at h3 hm, (List.perm_cons_erase hm).count_eq x]
    simp only [List.count_cons, List.count_nil]
    omega

theorem mem_of_counts {l a b c : List Item} (h : ∀ x, l.count x = a.count x + b.count x + c.count x) {x : Item}
    (hx : x ∈ a ∨ x ∈ b ∨ x ∈ c) : x ∈ l := by
  rw [← List.count_pos_iff, h]
  rcases hx with hx | hx | hx <;> have := List.count_pos_iff.mpr hx <;> omega

/-- Actions after which nothing is lost: no block is dropped, and none of length 0 is taken. -/
def Tidy : Act → Prop
  | .cell _ size => size ≠ 0
  | .dropCell _ => False
  | _ => True

/-- Actions of the codec alone. -/
def Inner : Act → Prop
  | .malloc _ _ => False
  | .freeLent _ => False
  | _ => True

theorem inv_cell {f : Funcs} {env : Env} (he : env.Fresh) {st : St} {lost : List Item} (h : Inv f st lost)
    (elt size : Nat) : Inv f (allocCell f env elt size st) lost := by
  unfold allocCell
  by_cases hf : f.alloc
  · rw [if_pos hf]
    obtain ⟨a, b, c⟩ := take_log he .caller f.tag (size * elt % 2 ^ 64) rfl h.proper h.passes h.apart
    refine ⟨a, b, c, fun x => ?_, ?_⟩
    · have := h.counts x
      simp only [fromCaller, live, List.flatMap_cons, cellItems, hf, if_true, List.count_append, List.count_cons,
        List.count_nil]
      omega
    · intro b hb hl
      rcases List.mem_cons.mp hb with rfl | hb
      · simp only at hl; simp [hl]
      · exact h.sizes b hb hl
  · rw [if_neg hf]
    by_cases hz : size * elt = 0
    · refine ⟨?_, ?_, ?_, fun x => ?_, ?_⟩
      · simpa [fromRust, hz] using h.proper
      · simpa [fromRust, hz] using h.passes
      · simpa [fromRust, hz] using h.apart
      · simpa [fromRust, hz, cellItems, hf] using h.counts x
      · intro b hb hl
        rcases List.mem_cons.mp hb with rfl | hb
        · exact hz
        · exact h.sizes b hb hl
    · obtain ⟨a, b, c⟩ := take_log he .rust f.tag (size * elt) rfl h.proper h.passes h.apart
      refine ⟨?_, ?_, ?_, fun x => ?_, ?_⟩
      · simpa [fromRust, hz] using a
      · simpa only [fromRust, if_neg hz] using b
      · simpa only [fromRust, if_neg hz] using c
      · have := h.counts x
        simp only [fromRust, if_neg hz, live, List.flatMap_cons, cellItems, hf, List.count_append,
          List.count_cons, List.count_nil, Bool.false_eq_true, if_false]
        omega
      · intro b hb hl
        rcases List.mem_cons.mp hb with rfl | hb
        · simp only at hl; simp [hl]
        · exact h.sizes b hb hl

theorem inv_malloc {f : Funcs} {env : Env} (he : env.Fresh) {st : St} {lost : List Item} (h : Inv f st lost)
    (elt n : Nat) : Inv f (malloc f env elt n st) lost := by
  unfold malloc
  by_cases hf : f.alloc
  · simp only [hf, if_true]
    obtain ⟨a, b, c⟩ := take_log he .caller f.tag (n * elt % 2 ^ 64) rfl h.proper h.passes h.apart
    refine ⟨a, b, c, fun x => ?_, h.sizes⟩
    have := h.counts x
    simp only [fromCaller, live, List.flatMap_cons, lentItems, hf, if_true, List.count_append, List.count_cons,
      List.count_nil]
    omega
  · simp only [hf, Bool.false_eq_true, if_false]
    by_cases hz : n * elt = 0
    · refine ⟨?_, ?_, ?_, fun x => ?_, h.sizes⟩
      · simpa [fromRust, hz] using h.proper
      · simpa [fromRust, hz] using h.passes
      · simpa [fromRust, hz] using h.apart
      · simpa [fromRust, hz, lentItems, hf] using h.counts x
    · obtain ⟨a, b, c⟩ := take_log he .rust f.tag (n * elt) rfl h.proper h.passes h.apart
      refine ⟨?_, ?_, ?_, fun x => ?_, h.sizes⟩
      · simpa [fromRust, hz] using a
      · simpa only [fromRust, if_neg hz] using b
      · simpa only [fromRust, if_neg hz] using c
      · have := h.counts x
        simp only [fromRust, if_neg hz, live, List.flatMap_cons, lentItems, hf, List.count_append,
          List.count_cons, List.count_nil, Bool.false_eq_true, if_false]
        omega

theorem mem_eraseIdx {α : Type} {l : List α} {i : Nat} {b : α} (h : b ∈ l.eraseIdx i) : b ∈ l :=
  (List.eraseIdx_sublist l i).mem h

theorem inv_drop {f : Funcs} {st : St} {lost : List Item} (h : Inv f st lost) (i : Nat) (b : Block)
    (hb : st.held[i]? = some b) :
    Inv f { st with held := st.held.eraseIdx i } (cellItems f b ++ lost) := by
  refine ⟨h.proper, h.passes, h.apart, fun x => ?_, fun c hc => h.sizes c (mem_eraseIdx hc)⟩
  have := h.counts x
  have h2 := count_eraseIdx (cellItems f) st.held i b hb x
  simp only [List.count_append]
  omega

/-- What is lost when a block is given back: one of length 0 that is of the caller's heap, and, without
`free_func`, all of the caller's heap. -/
def lostBy (f : Funcs) (b : Block) : List Item :=
  if f.alloc && (b.len = 0 || !f.free) then [(.caller, b.ptr, b.bytes)] else []

theorem inv_free {f : Funcs} {st : St} {lost : List Item} (h : Inv f st lost) (i : Nat) (b : Block)
    (hb : st.held[i]? = some b) :
    Inv f { st with log := freeCell f b st.log, held := st.held.eraseIdx i } (lostBy f b ++ lost) := by
  have hd := inv_drop h i b hb
  have hmem : b ∈ st.held := List.mem_of_getElem? hb
  have hin : ∀ x ∈ cellItems f b, x ∈ live st.log := fun x hx =>
    mem_of_counts h.counts (Or.inl (List.mem_flatMap.mpr ⟨b, hmem, hx⟩))
  by_cases hl : b.len = 0
  · by_cases hf : f.alloc
    · have e1 : freeCell f b st.log = st.log := by simp [freeCell, hl]
      have e2 : lostBy f b = cellItems f b := by simp [lostBy, cellItems, hf, hl]
      rw [e1, e2]; exact hd
    · have e1 : freeCell f b st.log = st.log := by simp [freeCell, hl]
      have e2 : lostBy f b = cellItems f b := by simp [lostBy, cellItems, hf, h.sizes b hmem hl]
      rw [e1, e2]; exact hd
  · by_cases hf : f.alloc
    · by_cases hg : f.free
      · have e1 : freeCell f b st.log = .give .caller f.tag b.ptr none :: st.log := by simp [freeCell, hl, hf, hg]
        have e2 : lostBy f b = [] := by simp [lostBy, hl, hg]
        have e3 : cellItems f b = [(.caller, b.ptr, b.bytes)] := by simp [cellItems, hf]
        rw [e1, e2]
        rw [e3] at hd hin
        obtain ⟨p, q, r, t⟩ := give_log (f := f) (k := none) (hin _ (List.mem_singleton.mpr rfl)) (by simp)
          h.proper h.passes h.apart
        refine ⟨p, q, r, fun x => ?_, hd.sizes⟩
        have := hd.counts x
        have h2 := t x
        simp only [List.count_append] at this
        simp only [List.nil_append]
        omega
      · have e1 : freeCell f b st.log = st.log := by simp [freeCell, hf, hg]
        have e2 : lostBy f b = cellItems f b := by simp [lostBy, cellItems, hf, hg]
        rw [e1, e2]; exact hd
    · have e2 : lostBy f b = [] := by simp [lostBy, hf]
      by_cases hz : b.bytes = 0
      · have e1 : freeCell f b st.log = st.log := by simp [freeCell, hf, hz]
        have e3 : cellItems f b = [] := by simp [cellItems, hf, hz]
        rw [e1, e2]; rw [e3] at hd; exact hd
      · have e1 : freeCell f b st.log = .give .rust f.tag b.ptr (some b.bytes) :: st.log := by
          simp [freeCell, hl, hf, hz]
        have e3 : cellItems f b = [(.rust, b.ptr, b.bytes)] := by simp [cellItems, hf, hz]
        rw [e1, e2]
        rw [e3] at hd hin
        obtain ⟨p, q, r, t⟩ := give_log (f := f) (k := some b.bytes) (hin _ (List.mem_singleton.mpr rfl))
          (by simp) h.proper h.passes h.apart
        refine ⟨p, q, r, fun x => ?_, hd.sizes⟩
        have := hd.counts x
        have h2 := t x
        simp only [List.count_append] at this
        simp only [List.nil_append]
        omega

theorem inv_freeLent {f : Funcs} (hw : f.alloc = f.free) {st : St} {lost : List Item} (h : Inv f st lost) (i : Nat)
    (u : Lent) (hu : st.lent[i]? = some u) :
    Inv f { st with log := freeLent f u st.log, lent := st.lent.eraseIdx i } lost := by
  have hmem : u ∈ st.lent := List.mem_of_getElem? hu
  have hin : ∀ x ∈ lentItems f u, x ∈ live st.log := fun x hx =>
    mem_of_counts h.counts (Or.inr (Or.inl (List.mem_flatMap.mpr ⟨u, hmem, hx⟩)))
  have hc := fun x => count_eraseIdx (lentItems f) st.lent i u hu x
  by_cases hf : f.alloc
  · have hg : f.free = true := by rw [← hw]; exact hf
    have e1 : freeLent f u st.log = .give .caller f.tag u.ptr none :: st.log := by simp [freeLent, hg]
    have e3 : lentItems f u = [(.caller, u.ptr, u.len * u.elt % 2 ^ 64)] := by simp [lentItems, hf]
    rw [e1]
    rw [e3] at hc hin
    obtain ⟨p, q, r, t⟩ := give_log (f := f) (k := none) (hin _ (List.mem_singleton.mpr rfl)) (by simp)
      h.proper h.passes h.apart
    refine ⟨p, q, r, fun x => ?_, h.sizes⟩
    have h1 := h.counts x
    have h2 := t x
    have h3 := hc x
    simp only at *
    omega
  · have hg : ¬ f.free = true := by rw [← hw]; exact hf
    by_cases hz : u.len * u.elt = 0
    · have e1 : freeLent f u st.log = st.log := by simp only [freeLent, if_neg hg, if_pos hz]
      have e3 : lentItems f u = [] := by simp only [lentItems, if_neg hf, if_pos hz]
      rw [e1]
      rw [e3] at hc
      refine ⟨h.proper, h.passes, h.apart, fun x => ?_, h.sizes⟩
      have h1 := h.counts x
      have h3 := hc x
      simp only [List.count_nil] at h3
      simp only
      omega
    · have e1 : freeLent f u st.log = .give .rust f.tag u.ptr (some (u.len * u.elt)) :: st.log := by
        simp only [freeLent, if_neg hg, if_neg hz]
      have e3 : lentItems f u = [(.rust, u.ptr, u.len * u.elt)] := by
        simp only [lentItems, if_neg hf, if_neg hz]
      rw [e1]
      rw [e3] at hc hin
      obtain ⟨p, q, r, t⟩ := give_log (f := f) (k := some (u.len * u.elt)) (hin _ (List.mem_singleton.mpr rfl))
        (by simp) h.proper h.passes h.apart
      refine ⟨p, q, r, fun x => ?_, h.sizes⟩
      have h1 := h.counts x
      have h2 := t x
      have h3 := hc x
      simp only at *
      omega

/-- No block is dropped. -/
def NoDrop : Act → Prop
  | .dropCell _ => False
  | _ => True

/-- What one action adds to what is lost. -/
theorem inv_act {f : Funcs} {env : Env} (he : env.Fresh) {st : St} {lost : List Item} (h : Inv f st lost) (a : Act)
    (ha : f.alloc = f.free ∨ Inner a) :
    ∃ more, Inv f (act f env st a) (more ++ lost) ∧
      (f.alloc = f.free → NoDrop a → ∀ x ∈ more, ∃ p, x = (.caller, p, 0) ∧ f.alloc = true ∧
        ∃ b ∈ st.held, b.len = 0) := by
  cases a with
  | cell elt size => exact ⟨[], inv_cell he h elt size, by simp⟩
  | malloc elt n => exact ⟨[], inv_malloc he h elt n, by simp⟩
  | dropCell i =>
    simp only [act]
    cases hb : st.held[i]? with
    | none => exact ⟨[], h, by simp⟩
    | some b => exact ⟨_, inv_drop h i b hb, fun _ hh => hh.elim⟩
  | freeCell i =>
    simp only [act]
    cases hb : st.held[i]? with
    | none => exact ⟨[], h, by simp⟩
    | some b =>
      refine ⟨_, inv_free h i b hb, fun hw _ x hx => ?_⟩
      have hm := List.mem_of_getElem? hb
      unfold lostBy at hx
      split at hx
      · rename_i hc
        simp only [Bool.and_eq_true, Bool.or_eq_true, decide_eq_true_eq, Bool.not_eq_true'] at hc
        have hl : b.len = 0 := by
          rcases hc.2 with h2 | h2
          · exact h2
          · rw [← hw, hc.1] at h2; cases h2
        rw [List.mem_singleton] at hx
        exact ⟨b.ptr, by rw [hx, h.sizes b hm hl], hc.1, b, hm, hl⟩
      · simp at hx
  | freeLent i =>
    simp only [act]
    cases hb : st.lent[i]? with
    | none => exact ⟨[], h, by simp⟩
    | some u =>
      refine ⟨[], inv_freeLent ?_ h i u hb, by simp⟩
      rcases ha with ha | ha
      · exact ha
      · exact ha.elim

/-- Blocks of length 0 come from cells of size 0. -/
theorem held_act {f : Funcs} {env : Env} {st : St} (a : Act) (ht : Tidy a) (h : ∀ b ∈ st.held, b.len ≠ 0) :
    ∀ b ∈ (act f env st a).held, b.len ≠ 0 := by
  cases a with
  | cell elt size =>
    simp only [act, allocCell]
    split <;>
    · intro b hb
      rcases List.mem_cons.mp hb with rfl | hb
      · exact ht
      · exact h b hb
  | malloc elt n => exact h
  | dropCell i => exact ht.elim
  | freeCell i =>
    simp only [act]
    cases hb : st.held[i]? with
    | none => exact h
    | some b => exact fun c hc => h c (mem_eraseIdx hc)
  | freeLent i =>
    simp only [act]
    cases hb : st.lent[i]? with
    | none => exact h
    | some b => exact h

theorem inv_acts {f : Funcs} {env : Env} (he : env.Fresh) (as : List Act) {st : St} {lost : List Item}
    (h : Inv f st lost) (ha : f.alloc = f.free ∨ ∀ a ∈ as, Inner a) :
    ∃ more, Inv f (acts f env st as) (more ++ lost) ∧
      (f.alloc = f.free → (∀ a ∈ as, NoDrop a) → ∀ x ∈ more, ∃ p, x = (.caller, p, 0)) ∧
      (f.alloc = f.free → (∀ a ∈ as, Tidy a) → (∀ b ∈ st.held, b.len ≠ 0) → more = []) := by
  induction as generalizing st lost with
  | nil => exact ⟨[], h, by simp, by simp⟩
  | cons a t ih =>
    obtain ⟨m1, h1, c1⟩ := inv_act he h a (ha.imp id fun hh => hh a (by simp))
    obtain ⟨m2, h2, c2, d2⟩ := ih h1 (ha.imp id fun hh b hb => hh b (by simp [hb]))
    refine ⟨m2 ++ m1, by rw [List.append_assoc]; exact h2, fun hw hn x hx => ?_, fun hw hn hh => ?_⟩
    · rcases List.mem_append.mp hx with hx | hx
      · exact c2 hw (fun b hb => hn b (by simp [hb])) x hx
      · obtain ⟨p, e, _⟩ := c1 hw (hn a (by simp)) x hx
        exact ⟨p, e⟩
    · have ht := hn a (by simp)
      have e2 := d2 hw (fun b hb => hn b (by simp [hb])) (held_act a ht hh)
      have e1 : m1 = [] := by
        rw [List.eq_nil_iff_forall_not_mem]
        intro x hx
        have : NoDrop a := by cases a <;> trivial
        obtain ⟨p, e, _, b, hb, hl⟩ := c1 hw this x hx
        exact hh b hb hl
      rw [e1, e2]; rfl

/-- The memory of the state. -/
def stateItems (f : Funcs) (size ptr : Nat) : List Item :=
  if f.alloc then [(.caller, ptr, size % 2 ^ 64)] else if size = 0 then [] else [(.rust, ptr, size)]

theorem inv_new {f : Funcs} {env : Env} (he : env.Fresh) (size : Nat) :
    Inv f (new f env size).2 (stateItems f size (new f env size).1) := by
  have h0 : ∀ s n, Proper [Ev.take s f.tag (env [] n) n] ∧ Passes f.tag [Ev.take s f.tag (env [] n) n] ∧
      ((live [Ev.take s f.tag (env [] n) n]).map fun x => x.2.1).Nodup := fun s n =>
    take_log he s f.tag n rfl (log := []) trivial (by simp [Passes]) (by simp [live])
  unfold new stateItems
  by_cases hf : f.alloc
  · simp only [hf, if_true, fromCaller]
    obtain ⟨a, b, c⟩ := h0 .caller (size % 2 ^ 64)
    exact ⟨a, b, c, fun x => by simp [live], by simp⟩
  · simp only [hf, Bool.false_eq_true, if_false, fromRust]
    by_cases hz : size = 0
    · simp only [hz, if_true]
      exact ⟨trivial, by simp [Passes], by simp [live], fun x => by simp [live], by simp⟩
    · simp only [hz, if_false]
      obtain ⟨a, b, c⟩ := h0 .rust size
      exact ⟨a, b, c, fun x => by simp [live], by simp⟩

/-- Giving back the memory of the state. -/
theorem inv_give {f : Funcs} {st : St} {lost rest : List Item} (h : Inv f st lost) {s : Side} {p n : Nat}
    {k : Option Nat} (hk : ∀ m ∈ k, m = n) (hl : ∀ x, lost.count x = [(s, p, n)].count x + rest.count x) :
    Inv f { st with log := .give s f.tag p k :: st.log } rest := by
  have hin : (s, p, n) ∈ live st.log := by
    refine mem_of_counts h.counts (Or.inr (Or.inr ?_))
    rw [← List.count_pos_iff, hl]
    simp only [List.count_singleton_self]
    omega
  obtain ⟨a, b, c, t⟩ := give_log (f := f) hin hk h.proper h.passes h.apart
  refine ⟨a, b, c, fun x => ?_, h.sizes⟩
  have h1 := h.counts x
  have h2 := t x
  have h3 := hl x
  simp only at *
  omega

/-- The whole life, when the memory of the state is given back. -/
theorem inv_life {f : Funcs} {env : Env} (he : env.Fresh) (size : Nat) (use drops : List Act)
    (ha : f.alloc = f.free ∨ ∀ a ∈ use ++ drops, Inner a) :
    ∃ lost, Inv f (life f env size use drops) lost ∧
      (f.alloc = f.free → (∀ a ∈ use ++ drops, NoDrop a) → ∀ x ∈ lost, ∃ p, x = (.caller, p, 0)) ∧
      (f.alloc = f.free → (∀ a ∈ use ++ drops, Tidy a) → lost = []) := by
  obtain ⟨m1, h1, c1, d1⟩ := inv_acts he use (inv_new (f := f) he size)
    (ha.imp id fun hh a hm => hh a (List.mem_append_left _ hm))
  have hheld : ∀ (as : List Act) (st : St), (∀ b ∈ st.held, b.len ≠ 0) → (∀ a ∈ as, Tidy a) →
      ∀ b ∈ (acts f env st as).held, b.len ≠ 0 := by
    intro as
    induction as with
    | nil => exact fun st h _ => h
    | cons a t ih =>
      exact fun st h ht => ih _ (held_act a (ht a (by simp)) h) (fun b hb => ht b (by simp [hb]))
  unfold life free
  by_cases hf : f.alloc
  · rw [if_pos hf]
    by_cases hg : f.free
    · rw [if_pos hg]
      have e : stateItems f size (new f env size).1 = [(.caller, (new f env size).1, size % 2 ^ 64)] := by
        simp [stateItems, hf]
      rw [e] at h1
      have h2 := inv_give (k := none) (rest := m1) (s := .caller) (p := (new f env size).1) (n := size % 2 ^ 64) h1 (by simp)
        (fun x => by rw [List.count_append]; omega)
      obtain ⟨m2, h3, c2, d2⟩ := inv_acts he drops h2
        (ha.imp id fun hh a hm => hh a (List.mem_append_right _ hm))
      refine ⟨m2 ++ m1, h3, fun hw hn x hx => ?_, fun hw hn => ?_⟩
      · rcases List.mem_append.mp hx with hx | hx
        · exact c2 hw (fun a hm => hn a (List.mem_append_right _ hm)) x hx
        · exact c1 hw (fun a hm => hn a (List.mem_append_left _ hm)) x hx
      · rw [d1 hw (fun a hm => hn a (List.mem_append_left _ hm)) (by simp [new]),
          d2 hw (fun a hm => hn a (List.mem_append_right _ hm))
            (hheld use _ (by simp [new]) (fun a hm => hn a (List.mem_append_left _ hm)))]
        rfl
    · rw [if_neg hg]
      refine ⟨_, h1, fun hw => ?_, fun hw => ?_⟩ <;> rw [hf] at hw <;> exact absurd hw.symm hg
  · rw [if_neg hf]
    obtain ⟨m2, h3, c2, d2⟩ := inv_acts he drops h1
      (ha.imp id fun hh a hm => hh a (List.mem_append_right _ hm))
    have fin : ∀ st', Inv f st' (m2 ++ m1) →
        ∃ lost, Inv f st' lost ∧
      (f.alloc = f.free → (∀ a ∈ use ++ drops, NoDrop a) → ∀ x ∈ lost, ∃ p, x = (.caller, p, 0)) ∧
      (f.alloc = f.free → (∀ a ∈ use ++ drops, Tidy a) → lost = []) := by
      intro st' hi
      refine ⟨m2 ++ m1, hi, fun hw hn x hx => ?_, fun hw hn => ?_⟩
      · rcases List.mem_append.mp hx with hx | hx
        · exact c2 hw (fun a hm => hn a (List.mem_append_right _ hm)) x hx
        · exact c1 hw (fun a hm => hn a (List.mem_append_left _ hm)) x hx
      · rw [d1 hw (fun a hm => hn a (List.mem_append_left _ hm)) (by simp [new]),
          d2 hw (fun a hm => hn a (List.mem_append_right _ hm))
            (hheld use _ (by simp [new]) (fun a hm => hn a (List.mem_append_left _ hm)))]
        rfl
    by_cases hz : size = 0
    · have e : stateItems f size (new f env size).1 = [] := by simp [stateItems, hf, hz]
      rw [e, List.append_nil] at h3
      simp only [hz, if_true]
      rw [hz] at h3
      exact fin _ h3
    · have e : stateItems f size (new f env size).1 = [(.rust, (new f env size).1, size)] := by
        simp [stateItems, hf, hz]
      rw [e] at h3
      simp only [hz, if_false]
      exact fin _ (inv_give (n := size) h3 (by simp) (fun x => by simp only [List.count_append]; omega))

/-! ## The claims -/

/-- **C92.** With both functions or with neither, whatever the codec and the caller do: memory is given back only
to the heap it came from, only once, with its size, and `opaque` is passed as given. -/
theorem proper {f : Funcs} (hw : f.alloc = f.free) {env : Env} (he : env.Fresh) (size : Nat)
    (use drops : List Act) :
    Proper (life f env size use drops).log ∧ Passes f.tag (life f env size use drops).log := by
  obtain ⟨_, h, _⟩ := inv_life he size use drops (Or.inl hw)
  exact ⟨h.proper, h.passes⟩

/-- The same with any choice of functions, as long as the caller does not use `divans_…_malloc_…`. -/
theorem inner_proper (f : Funcs) {env : Env} (he : env.Fresh) (size : Nat) (use drops : List Act)
    (ha : ∀ a ∈ use ++ drops, Inner a) :
    Proper (life f env size use drops).log ∧ Passes f.tag (life f env size use drops).log := by
  obtain ⟨_, h, _⟩ := inv_life he size use drops (Or.inr ha)
  exact ⟨h.proper, h.passes⟩

theorem nil_of_counts {l : List Item} (h : ∀ x, l.count x = 0) : l = [] := by
  rw [List.eq_nil_iff_forall_not_mem]
  intro x hx
  have := List.count_pos_iff.mpr hx
  have := h x
  omega

/-- When the codec gives back all its blocks, none of which has length 0, and the caller what it asked for, then
all memory has been given back. -/
theorem all_returned {f : Funcs} (hw : f.alloc = f.free) {env : Env} (he : env.Fresh) (size : Nat)
    (use drops : List Act) (ht : ∀ a ∈ use ++ drops, Tidy a)
    (hh : (life f env size use drops).held = []) (hl : (life f env size use drops).lent = []) :
    live (life f env size use drops).log = [] := by
  obtain ⟨lost, h, _, d⟩ := inv_life he size use drops (Or.inl hw)
  refine nil_of_counts fun x => ?_
  rw [h.counts, hh, hl, d hw ht]
  simp

/-- When blocks of length 0 are among them, only such blocks are left: nothing is left but pieces of 0 bytes from
the caller. -/
theorem only_empty_left {f : Funcs} (hw : f.alloc = f.free) {env : Env} (he : env.Fresh) (size : Nat)
    (use drops : List Act) (ht : ∀ a ∈ use ++ drops, NoDrop a)
    (hh : (life f env size use drops).held = []) (hl : (life f env size use drops).lent = []) :
    ∀ x ∈ live (life f env size use drops).log, ∃ p, x = (.caller, p, 0) := by
  obtain ⟨lost, h, c, _⟩ := inv_life he size use drops (Or.inl hw)
  intro x hx
  refine c hw ht x ?_
  have := h.counts x
  rw [hh, hl] at this
  simp only [List.flatMap_nil, List.count_nil] at this
  have := List.count_pos_iff.mpr hx
  rw [← List.count_pos_iff]
  omega

theorem free_all {f : Funcs} {env : Env} (k : Nat) (st : St) (hk : st.held.length = k) :
    (acts f env st (List.replicate k (.freeCell 0))).held = [] ∧
    (acts f env st (List.replicate k (.freeCell 0))).lent = st.lent := by
  induction k generalizing st with
  | zero => exact ⟨List.length_eq_zero_iff.mp hk, rfl⟩
  | succ k ih =>
    match hh : st.held with
    | [] => rw [hh] at hk; simp at hk
    | b :: t =>
      have e : act f env st (.freeCell 0) = { st with log := freeCell f b st.log, held := t } := by
        simp [act, hh]
      rw [List.replicate_succ]
      change (acts f env (act f env st (.freeCell 0)) (List.replicate k (.freeCell 0))).held = [] ∧ _ = _
      rw [hh, List.length_cons] at hk
      obtain ⟨a, b⟩ := ih (act f env st (.freeCell 0)) (by rw [e]; simp only; omega)
      refine ⟨a, ?_⟩
      change (acts f env (act f env st (.freeCell 0)) (List.replicate k (.freeCell 0))).lent = _
      rw [b, e]

/-- So it is when the drop of the state gives back each block the codec holds then. -/
theorem freed_all {f : Funcs} (hw : f.alloc = f.free) {env : Env} (he : env.Fresh) (size : Nat) (use : List Act)
    (ht : ∀ a ∈ use, Tidy a) (k : Nat) (hk : (acts f env (new f env size).2 use).held.length = k)
    (hl : (acts f env (new f env size).2 use).lent = []) :
    live (life f env size use (List.replicate k (.freeCell 0))).log = [] := by
  have h : (life f env size use (List.replicate k (.freeCell 0))).held = [] ∧
      (life f env size use (List.replicate k (.freeCell 0))).lent = [] := by
    unfold life free
    cases hf : f.alloc with
    | true =>
      rw [if_pos rfl, if_pos (by rw [← hw, hf])]
      rw [← hl]
      exact free_all k _ hk
    | false =>
      rw [if_neg (by simp)]
      rw [← hl]
      exact free_all k _ hk
  refine all_returned hw he size use _ (fun a ha => ?_) h.1 h.2
  rcases List.mem_append.mp ha with ha | ha
  · exact ht a ha
  · rw [(List.mem_replicate.mp ha).2]; trivial

/-- What is never freed in any case: what is in a hand at the end is taken still. -/
theorem held_is_live {f : Funcs} (hw : f.alloc = f.free) {env : Env} (he : env.Fresh) (size : Nat)
    (use drops : List Act) (b : Block) (hb : b ∈ (life f env size use drops).held) (hz : b.bytes ≠ 0) :
    (if f.alloc then Side.caller else Side.rust, b.ptr, b.bytes) ∈ live (life f env size use drops).log := by
  obtain ⟨lost, h, _⟩ := inv_life he size use drops (Or.inl hw)
  refine mem_of_counts h.counts (Or.inl (List.mem_flatMap.mpr ⟨b, hb, ?_⟩))
  unfold cellItems
  cases f.alloc <;> simp [hz]

/-- The heap of an event. -/
def Ev.side : Ev → Side
  | .take s _ _ _ => s
  | .give s _ _ _ => s

theorem sides_act {f : Funcs} {env : Env} {s : Side} (hs : s = if f.alloc then .caller else .rust) {st : St} (a : Act)
    (ha : f.alloc = f.free ∨ Inner a) (h : ∀ e ∈ st.log, e.side = s) : ∀ e ∈ (act f env st a).log, e.side = s := by
  have hc : ∀ (e : Ev) (log : List Ev), e.side = s → (∀ e ∈ log, e.side = s) → ∀ e' ∈ e :: log, e'.side = s := by
    intro e log h1 h2 e' he'
    rcases List.mem_cons.mp he' with rfl | he'
    · exact h1
    · exact h2 e' he'
  have hca : ∀ n, f.alloc = true → ∀ e ∈ (fromCaller f env n st.log).2, e.side = s := fun n hf =>
    hc _ _ (by simp [Ev.side, hs, hf]) h
  have hru : ∀ n, f.alloc = false → ∀ e ∈ (fromRust f env n st.log).2, e.side = s := by
    intro n hf
    unfold fromRust
    split
    · exact h
    · exact hc _ _ (by simp [Ev.side, hs, hf]) h
  cases a with
  | cell elt size =>
    simp only [act, allocCell]
    cases hf : f.alloc with
    | true => exact hca _ hf
    | false => exact hru _ hf
  | malloc elt n =>
    simp only [act, malloc]
    cases hf : f.alloc with
    | true => exact hca _ hf
    | false => exact hru _ hf
  | dropCell i =>
    simp only [act]
    cases st.held[i]? <;> exact h
  | freeCell i =>
    simp only [act]
    cases st.held[i]? with
    | none => exact h
    | some b =>
      simp only [freeCell]
      cases hf : f.alloc <;> cases f.free <;> simp only [Bool.false_eq_true, if_false, if_true] <;> split <;>
        first
        | exact h
        | exact hc _ _ (by simp [Ev.side, hs, hf]) h
        | (split
           · exact h
           · exact hc _ _ (by simp [Ev.side, hs, hf]) h)
  | freeLent i =>
    simp only [act]
    cases st.lent[i]? with
    | none => exact h
    | some u =>
      have hw : f.alloc = f.free := by
        rcases ha with ha | ha
        · exact ha
        · exact ha.elim
      simp only [freeLent, ← hw]
      cases hf : f.alloc <;> simp only [Bool.false_eq_true, if_false, if_true]
      · split
        · exact h
        · exact hc _ _ (by simp [Ev.side, hs, hf]) h
      · exact hc _ _ (by simp [Ev.side, hs, hf]) h

theorem sides_acts {f : Funcs} {env : Env} {s : Side} (hs : s = if f.alloc then .caller else .rust) (as : List Act)
    {st : St} (ha : f.alloc = f.free ∨ ∀ a ∈ as, Inner a) (h : ∀ e ∈ st.log, e.side = s) :
    ∀ e ∈ (acts f env st as).log, e.side = s := by
  induction as generalizing st with
  | nil => exact h
  | cons a t ih =>
    exact ih (ha.imp id fun hh b hb => hh b (by simp [hb]))
      (sides_act hs a (ha.imp id fun hh => hh a (by simp)) h)

/-- With both functions the codec has its memory from the caller alone, with neither from Rust's heap alone. -/
theorem one_heap {f : Funcs} {env : Env} (size : Nat) (use drops : List Act)
    (ha : f.alloc = f.free ∨ ∀ a ∈ use ++ drops, Inner a) :
    ∀ e ∈ (life f env size use drops).log, e.side = if f.alloc then .caller else .rust := by
  have h0 : ∀ e ∈ (new f env size).2.log, e.side = if f.alloc then .caller else .rust := by
    unfold new fromCaller fromRust
    cases hf : f.alloc
    · simp only [Bool.false_eq_true, if_false]
      split <;> simp [Ev.side]
    · simp [Ev.side]
  have h1 := sides_acts (env := env) rfl use (ha.imp id fun hh a hm => hh a (List.mem_append_left _ hm)) h0
  have had := ha.imp id fun hh a hm => hh a (List.mem_append_right use hm)
  unfold life free
  cases hf : f.alloc with
  | true =>
    simp only [if_true]
    split
    · have := sides_acts (env := env) (f := f) (s := .caller) (by simp [hf]) drops had
        (st := { acts f env (new f env size).2 use with
          log := .give .caller f.tag (new f env size).1 none :: (acts f env (new f env size).2 use).log })
        (by
          intro e he
          rcases List.mem_cons.mp he with rfl | he
          · rfl
          · simpa [hf] using h1 e he)
      exact this
    · simpa [hf] using h1
  | false =>
    simp only [Bool.false_eq_true, if_false]
    have h2 := sides_acts (env := env) rfl drops had h1
    rw [hf] at h2
    intro e he
    split at he
    · exact h2 e he
    · rcases List.mem_cons.mp he with rfl | he
      · rfl
      · exact h2 e he

/-- A call of `alloc_func` for a block asks for the size of its elements, when that is less than 2^64 bytes; the
block is the memory that is got. -/
theorem cell_asks {f : Funcs} (hf : f.alloc = true) (env : Env) (elt size : Nat) (st : St)
    (hb : size * elt < 2 ^ 64) :
    (allocCell f env elt size st).log = .take .caller f.tag (env st.log (size * elt)) (size * elt) :: st.log ∧
    (allocCell f env elt size st).held = ⟨env st.log (size * elt), size * elt, size⟩ :: st.held := by
  unfold allocCell fromCaller
  simp [hf, Nat.mod_eq_of_lt hb]

/-- The same for memory the caller asks for. -/
theorem malloc_asks {f : Funcs} (hf : f.alloc = true) (env : Env) (elt n : Nat) (st : St)
    (hb : n * elt < 2 ^ 64) :
    (malloc f env elt n st).log = .take .caller f.tag (env st.log (n * elt)) (n * elt) :: st.log ∧
    (malloc f env elt n st).lent = ⟨env st.log (n * elt), elt, n⟩ :: st.lent := by
  unfold malloc fromCaller
  simp [hf, Nat.mod_eq_of_lt hb]

/-- **A request for 2^61 words is a request for no bytes**: the size is not checked for overflow, and the caller is
told they have 2^61 words. -/
theorem malloc_wraps {f : Funcs} (hf : f.alloc = true) (env : Env) (st : St) :
    (malloc f env 8 (2 ^ 61) st).log = .take .caller f.tag (env st.log 0) 0 :: st.log ∧
    (malloc f env 8 (2 ^ 61) st).lent = ⟨env st.log 0, 8, 2 ^ 61⟩ :: st.lent := by
  unfold malloc fromCaller
  simp [hf]

/-- **With `alloc_func` alone, memory of the caller is given to Rust's heap** by `divans_…_free_…`. -/
theorem alloc_alone_improper {f : Funcs} (h1 : f.alloc = true) (h2 : f.free = false) (env : Env) (size n : Nat)
    (hn : n ≠ 0) (drops : List Act) : ¬ Proper (life f env size [.malloc 1 n, .freeLent 0] drops).log := by
  simp [life, free, new, acts, act, malloc, freeLent, fromCaller, h1, h2, hn, Proper, live]

/-- **With `free_func` alone, memory of Rust's heap is given to the caller's function.** -/
theorem free_alone_improper {f : Funcs} (h1 : f.alloc = false) (h2 : f.free = true) (env : Env) (size n : Nat)
    (hs : size ≠ 0) (hn : n ≠ 0) : ¬ Proper (life f env size [.malloc 1 n, .freeLent 0] []).log := by
  simp [life, free, new, acts, act, malloc, freeLent, fromRust, h1, h2, hn, hs, Proper, live]

/-- With `alloc_func` alone nothing that came from it is ever given back, not even when freeing. -/
theorem alloc_alone_keeps {f : Funcs} (h1 : f.alloc = true) (h2 : f.free = false) (env : Env) (size : Nat)
    (use drops : List Act) (ha : ∀ a ∈ use, Inner a) :
    ∀ e ∈ (life f env size use drops).log, ∃ o p n, e = .take .caller o p n := by
  have key : ∀ (as : List Act) (st : St), (∀ a ∈ as, Inner a) → (∀ e ∈ st.log, ∃ o p n, e = .take .caller o p n) →
      ∀ e ∈ (acts f env st as).log, ∃ o p n, e = .take .caller o p n := by
    intro as
    induction as with
    | nil => exact fun st _ h => h
    | cons a t ih =>
      intro st hi h
      refine ih (act f env st a) (fun b hb => hi b (by simp [hb])) ?_
      have hia := hi a (by simp)
      cases a with
      | cell elt size =>
        simp only [act, allocCell, h1, if_true, fromCaller]
        intro e he
        rcases List.mem_cons.mp he with rfl | he
        · exact ⟨_, _, _, rfl⟩
        · exact h e he
      | malloc elt n => exact hia.elim
      | freeLent i => exact hia.elim
      | dropCell i => simp only [act]; cases st.held[i]? <;> exact h
      | freeCell i =>
        simp only [act]
        cases st.held[i]? with
        | none => exact h
        | some b => simpa [freeCell, h1, h2] using h
  have := key use (new f env size).2 ha (by simp [new, h1, fromCaller])
  simpa [life, free, h1, h2] using this

/-- **A block of length 0 is asked for and never given back.** -/
theorem empty_block_left {f : Funcs} (h1 : f.alloc = true) (h2 : f.free = true) {env : Env} (he : env.Fresh)
    (size elt : Nat) :
    ∃ p, live (life f env size [.cell elt 0] [.freeCell 0]).log = [(.caller, p, 0)] := by
  refine ⟨env [.take .caller f.tag (env [] (size % 2 ^ 64)) (size % 2 ^ 64)] 0, ?_⟩
  have := he [.take .caller f.tag (env [] (size % 2 ^ 64)) (size % 2 ^ 64)] 0
    (.caller, env [] (size % 2 ^ 64), size % 2 ^ 64) (by simp [live])
  simp only at this
  simp [life, free, new, acts, act, allocCell, freeCell, fromCaller, h1, h2, live, At, List.eraseP_cons, this,
    Ne.symm this]

/-- **A block that goes out of scope is never given back.** -/
theorem dropped_left {f : Funcs} (h1 : f.alloc = true) (h2 : f.free = true) {env : Env} (he : env.Fresh)
    (size elt n : Nat) :
    ∃ p, live (life f env size [.cell elt n] [.dropCell 0]).log = [(.caller, p, n * elt % 2 ^ 64)] := by
  refine ⟨env [.take .caller f.tag (env [] (size % 2 ^ 64)) (size % 2 ^ 64)] (n * elt % 2 ^ 64), ?_⟩
  have := he [.take .caller f.tag (env [] (size % 2 ^ 64)) (size % 2 ^ 64)] (n * elt % 2 ^ 64)
    (.caller, env [] (size % 2 ^ 64), size % 2 ^ 64) (by simp [live])
  simp only at this
  simp [life, free, new, acts, act, allocCell, fromCaller, h1, h2, live, At, List.eraseP_cons, this,
    Ne.symm this]

/-! ## A case -/

/-- Addresses above all that is taken. -/
def above : Env := fun log _ => ((live log).map fun x => x.2.1).sum + 1

theorem above_fresh : above.Fresh := by
  intro log n x hx
  have : x.2.1 ≤ ((live log).map fun x => x.2.1).sum := by
    generalize live log = l at hx
    induction l with
    | nil => simp at hx
    | cons y t ih =>
      simp only [List.map_cons, List.sum_cons]
      rcases List.mem_cons.mp hx with rfl | hx
      · omega
      · have := ih hx; omega
  unfold above
  omega

/-- A life with a block of the codec and memory for the caller: six calls, and nothing is left. -/
example : (life ⟨true, true, 7⟩ above 100 [.cell 4 16, .malloc 8 3, .freeLent 0] [.freeCell 0]).log =
    [.give .caller 7 2 none, .give .caller 7 1 none, .give .caller 7 4 none, .take .caller 7 4 24,
      .take .caller 7 2 64, .take .caller 7 1 100] ∧
    Proper (life ⟨true, true, 7⟩ above 100 [.cell 4 16, .malloc 8 3, .freeLent 0] [.freeCell 0]).log :=
  ⟨by decide, (proper rfl above_fresh _ _ _).1⟩

example : live (life ⟨false, false, 7⟩ above 100 [.cell 4 16, .malloc 8 3, .freeLent 0] [.freeCell 0]).log = [] :=
  all_returned rfl above_fresh _ _ _ (by simp [Tidy]) (by decide) (by decide)

end Divans.CAlloc
