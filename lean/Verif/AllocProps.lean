import Verif.Alloc

/-!
# C29: reuse of blocks never loses or double-frees memory
-/

namespace Divans.Alloc

variable {α : Type}

/-! ## Specification: what the log of the underlying allocator says -/

/-- How often block `id` was given out. -/
def given (log : List Call) (id : Nat) : Nat :=
  log.countP fun | .alloc i _ => i == id | _ => false

/-- How often block `id` was freed. -/
def freed (log : List Call) (id : Nat) : Nat :=
  log.countP fun | .free i => i == some id | _ => false

/-- Cells and caches that are block `id`. -/
def Sys.live (s : Sys α) (id : Nat) : Nat :=
  s.held.countP (fun c => c.mem.id == some id) + s.caches.countP (fun m => m.id == some id)

/-- One for the blocks given out so far. -/
def ind (next id : Nat) : Nat := if id < next then 1 else 0

/-- Each block given out is held once or was freed once. -/
structure Inv (s : Sys α) : Prop where
  given : ∀ id, given s.log id = ind s.next id
  once : ∀ id, s.live id + freed s.log id = ind s.next id
  caches : s.caches ≠ []
  prefixes : ∀ c ∈ s.held, c.len ≤ c.mem.data.length

theorem countP_cons' {β : Type} (p : β → Bool) (x : β) (l : List β) :
    (x :: l).countP p = l.countP p + (p x).toNat := by
  rw [List.countP_cons]; cases p x <;> rfl

theorem countP_eraseIdx {β : Type} (p : β → Bool) : ∀ (l : List β) (k : Nat) (x : β), l[k]? = some x →
    l.countP p = (l.eraseIdx k).countP p + (p x).toNat
  | [], _, _, h => by simp at h
  | y :: l, 0, x, h => by
    simp only [List.getElem?_cons_zero, Option.some.injEq] at h
    subst h
    simp [countP_cons']
  | y :: l, k + 1, x, h => by
    simp only [List.getElem?_cons_succ] at h
    rw [List.eraseIdx_cons_succ, countP_cons', countP_cons', countP_eraseIdx p l k x h]
    omega

theorem countP_modify {β : Type} (p : β → Bool) (f : β → β) (hf : ∀ x, p (f x) = p x) :
    ∀ (l : List β) (k : Nat), (l.modify k f).countP p = l.countP p
  | [], k => by cases k <;> simp
  | y :: l, 0 => by simp [countP_cons', hf]
  | y :: l, k + 1 => by
    rw [List.modify_succ_cons, countP_cons', countP_cons', countP_modify p f hf l k]

theorem given_alloc (log : List Call) (i n id : Nat) :
    given (log ++ [.alloc i n]) id = given log id + (i == id).toNat := by
  rw [given, List.countP_append, countP_cons']; simp [given]

theorem given_free (log : List Call) (i : Option Nat) (id : Nat) :
    given (log ++ [.free i]) id = given log id := by
  rw [given, List.countP_append, countP_cons']; simp [given]

theorem freed_alloc (log : List Call) (i n id : Nat) :
    freed (log ++ [.alloc i n]) id = freed log id := by
  rw [freed, List.countP_append, countP_cons']; simp [freed]

theorem freed_free (log : List Call) (i : Option Nat) (id : Nat) :
    freed (log ++ [.free i]) id = freed log id + (i == some id).toNat := by
  rw [freed, List.countP_append, countP_cons']; simp [freed]

theorem ind_succ (n id : Nat) : ind (n + 1) id = ind n id + (n == id).toNat := by
  unfold ind
  by_cases h : n = id
  · subst h
    rw [if_pos (by omega), if_neg (by omega)]; simp
  · have : (n == id).toNat = 0 := by simp [h]
    rw [this]
    by_cases h' : id < n
    · rw [if_pos h', if_pos (by omega)]
    · rw [if_neg h', if_neg (by omega)]

theorem none_is (id : Nat) : ((none : Option Nat) == some id).toNat = 0 := rfl

theorem some_is (i id : Nat) : (some i == some id).toNat = (i == id).toNat := by
  by_cases h : i = id
  · subst h; simp
  · simp [h]

theorem live_eq (s : Sys α) (h : s.caches ≠ []) (id : Nat) :
    s.live id = s.held.countP (fun c => c.mem.id == some id) + (s.cache.id == some id).toNat +
      s.caches.tail.countP (fun m => m.id == some id) := by
  obtain ⟨caches, held, next, log⟩ := s
  match caches with
  | [] => exact absurd rfl h
  | c :: t =>
    simp only [Sys.live, countP_cons', Sys.cache, List.headD_cons, List.tail_cons]
    omega

theorem inv_new : Inv (new : Sys α) :=
  ⟨fun id => by simp [given, new, ind], fun id => by simp [Sys.live, new, freed, Mem.none, ind],
    by simp [new], by simp [new]⟩

theorem wipe_length (clear : Option α) (d : List α) : (wipe clear d).length = d.length := by
  cases clear <;> simp [wipe]

theorem inv_base (b : Base α) {s : Sys α} (h : Inv s) (size len : Nat) (hl : len ≤ (b.content s.next size).length) :
    Inv { (s.base b size).1 with held := ⟨(s.base b size).2, len⟩ :: (s.base b size).1.held } := by
  obtain ⟨h1, h2, h3, h4⟩ := h
  refine ⟨?_, ?_, h3, ?_⟩
  · intro id
    simp only [Sys.base, given_alloc, ind_succ, h1 id]
  · intro id
    have := h2 id
    simp only [Sys.live, Sys.base, countP_cons', freed_alloc, ind_succ, some_is] at this ⊢
    omega
  · intro c hcm
    rcases List.mem_cons.mp hcm with rfl | hcm
    · exact hl
    · exact h4 c hcm

theorem inv_step (b : Base α) {s : Sys α} (h : Inv s) (op : Op α) : ∃ s', s.step b op = some s' ∧ Inv s' := by
  obtain ⟨h1, h2, h3, h4⟩ := h
  have alive := live_eq s h3
  cases op with
  | allocCached clear size =>
    have hmod : size % 2 ^ 32 ≤ size := Nat.mod_le _ _
    by_cases hc : s.cache.data.length ≥ size
    · have hl := wipe_length clear s.cache.data
      have he : s.allocCached b clear size =
          some (s.setCache Mem.none, ⟨⟨s.cache.id, wipe clear s.cache.data⟩, size % 2 ^ 32⟩) := by
        unfold Sys.allocCached
        rw [if_pos hc, if_pos (by omega)]
      simp only [Sys.step, he, Option.map_some]
      refine ⟨_, rfl, ?_, ?_, ?_, ?_⟩
      · exact h1
      · intro id
        have := h2 id
        rw [alive id] at this
        simp only [Sys.live, Sys.setCache, countP_cons', Mem.none, none_is] at this ⊢
        omega
      · simp [Sys.setCache]
      · intro c hcm
        rcases List.mem_cons.mp hcm with rfl | hcm
        · simp only; omega
        · exact h4 c hcm
    · have he : s.allocCached b clear size = some ((s.base b size).1, ⟨(s.base b size).2, size % 2 ^ 32⟩) := by
        unfold Sys.allocCached
        rw [if_neg hc]
      simp only [Sys.step, he, Option.map_some]
      have := b.enough s.next size
      exact ⟨_, rfl, inv_base b ⟨h1, h2, h3, h4⟩ size _ (by omega)⟩
  | freeCached k =>
    simp only [Sys.step]
    cases hk : s.held[k]? with
    | none => exact ⟨s, rfl, h1, h2, h3, h4⟩
    | some c =>
      refine ⟨_, rfl, ?_⟩
      have hcnt := fun id => countP_eraseIdx (fun c : Cell α => c.mem.id == some id) s.held k c hk
      have hmem : ∀ x ∈ s.held.eraseIdx k, x.len ≤ x.mem.data.length :=
        fun x hx => h4 x (List.mem_of_mem_eraseIdx hx)
      unfold Sys.freeCached
      have hcache : Sys.cache { s with held := s.held.eraseIdx k } = s.cache := rfl
      rw [hcache]
      by_cases hc : c.mem.data.length > s.cache.data.length
      · rw [if_pos hc]
        refine ⟨?_, ?_, by simp [Sys.unbase, Sys.setCache], hmem⟩
        · intro id
          simp only [Sys.unbase, Sys.setCache, given_free, h1 id]
        · intro id
          have := h2 id
          rw [alive id, hcnt id] at this
          simp only [Sys.live, Sys.unbase, Sys.setCache, countP_cons', freed_free] at this ⊢
          omega
      · rw [if_neg hc]
        refine ⟨?_, ?_, h3, hmem⟩
        · intro id
          simp only [Sys.unbase, given_free, h1 id]
        · intro id
          have := h2 id
          simp only [Sys.live] at this
          rw [hcnt id] at this
          simp only [Sys.live, Sys.unbase, freed_free] at this ⊢
          omega
  | alloc size => exact ⟨_, rfl, inv_base b ⟨h1, h2, h3, h4⟩ size _ (Nat.le_refl _)⟩
  | free k =>
    simp only [Sys.step]
    cases hk : s.held[k]? with
    | none => exact ⟨s, rfl, h1, h2, h3, h4⟩
    | some c =>
      have hcnt := fun id => countP_eraseIdx (fun c : Cell α => c.mem.id == some id) s.held k c hk
      refine ⟨_, rfl, ?_, ?_, h3, fun x hx => h4 x (List.mem_of_mem_eraseIdx hx)⟩
      · intro id
        simp only [Sys.unbase, given_free, h1 id]
      · intro id
        have := h2 id
        simp only [Sys.live] at this
        rw [hcnt id] at this
        simp only [Sys.live, Sys.unbase, freed_free] at this ⊢
        omega
  | write k data =>
    refine ⟨_, rfl, h1, ?_, h3, ?_⟩
    · intro id
      have := h2 id
      simp only [Sys.live] at this ⊢
      rw [countP_modify]
      · exact this
      · intro x; unfold Cell.write; split <;> rfl
    · have key : ∀ (l : List (Cell α)) (k : Nat), (∀ c ∈ l, c.len ≤ c.mem.data.length) →
          ∀ c ∈ l.modify k (·.write data), c.len ≤ c.mem.data.length := by
        intro l
        induction l with
        | nil => intro k _ c hc; cases k <;> simp at hc
        | cons y l ih =>
          intro k hl c hc
          cases k with
          | zero =>
            simp only [List.modify_zero_cons] at hc
            rcases List.mem_cons.mp hc with rfl | hc
            · have := hl y (by simp)
              unfold Cell.write
              split
              · simp only; omega
              · exact this
            · exact hl c (by simp [hc])
          | succ k =>
            rw [List.modify_succ_cons] at hc
            rcases List.mem_cons.mp hc with rfl | hc
            · exact hl c (by simp)
            · exact ih k (fun c hc => hl c (by simp [hc])) c hc
      exact key s.held k h4
  | freeRef =>
    refine ⟨_, rfl, ?_, ?_, by simp [Sys.freeRef, Sys.unbase, Sys.setCache], h4⟩
    · intro id
      simp only [Sys.freeRef, Sys.unbase, Sys.setCache, given_free, h1 id]
    · intro id
      have := h2 id
      rw [alive id] at this
      simp only [Sys.live, Sys.freeRef, Sys.unbase, Sys.setCache, countP_cons', freed_free, Mem.none,
        none_is] at this ⊢
      omega
  | nest =>
    refine ⟨_, rfl, h1, ?_, by simp, h4⟩
    intro id
    have := h2 id
    simp only [Sys.live, countP_cons', Mem.none, none_is] at this ⊢
    omega
  | unnest =>
    obtain ⟨caches, held, next, log⟩ := s
    match caches with
    | [] => exact absurd rfl h3
    | [c] => exact ⟨_, rfl, h1, h2, h3, h4⟩
    | c :: d :: t =>
      refine ⟨_, rfl, ?_, ?_, by simp [Sys.unbase], h4⟩
      · intro id
        have := h1 id
        simp only [Sys.unbase, given_free] at this ⊢
        exact this
      · intro id
        have := h2 id
        simp only [Sys.live, Sys.unbase, Sys.cache, List.headD_cons, countP_cons', freed_free] at this ⊢
        omega

theorem run_inv (b : Base α) (ops : List (Op α)) : ∀ {s : Sys α}, Inv s → ∃ s', s.run b ops = some s' ∧ Inv s' := by
  induction ops with
  | nil => intro s h; exact ⟨s, rfl, h⟩
  | cons op ops ih =>
    intro s h
    obtain ⟨s1, e1, h1⟩ := inv_step b h op
    obtain ⟨s2, e2, h2⟩ := ih h1
    exact ⟨s2, by simp only [Sys.run, e1, Option.bind_some, e2], h2⟩

/-! ## The theorems -/

/-- **C29, exactly once.**  For every underlying allocator and every history: if in the end all users
have freed their cells and every allocator put aside has been taken back, then after the allocator is
freed every block the underlying allocator gave out has been freed exactly once. -/
theorem freed_exactly_once (b : Base α) (ops : List (Op α)) (s : Sys α)
    (hr : (new : Sys α).run b ops = some s) (hheld : s.held = []) (hn : s.caches.length = 1) (id : Nat) :
    freed s.freeRef.log id = given s.freeRef.log id ∧ given s.freeRef.log id ≤ 1 := by
  obtain ⟨s', e, h⟩ := run_inv b (ops ++ [.freeRef]) (inv_new (α := α))
  have happ : ∀ (l : List (Op α)) (t : Sys α), t.run b (l ++ [.freeRef]) = (t.run b l).map Sys.freeRef := by
    intro l
    induction l with
    | nil => intro t; rfl
    | cons op l ih =>
      intro t
      simp only [List.cons_append, Sys.run]
      cases t.step b op with
      | none => rfl
      | some t' => simp only [Option.bind_some, ih]
  rw [happ, hr] at e
  simp only [Option.map_some, Option.some.injEq] at e
  subst e
  have h2 := h.once id
  have h1 := h.given id
  have : s.freeRef.live id = 0 := by
    simp only [Sys.live, Sys.freeRef, Sys.unbase, Sys.setCache, hheld]
    match hc : s.caches, hn with
    | [c], _ => simp [Mem.none]
  rw [this] at h2
  refine ⟨by omega, ?_⟩
  rw [h1]
  unfold ind
  split <;> omega

/-- **C29, at any time.**  After any history no block has been freed twice, none is held by two users
or held and kept for reuse, and what is held or kept has not been freed. -/
theorem never_twice (b : Base α) (ops : List (Op α)) (s : Sys α)
    (hr : (new : Sys α).run b ops = some s) (id : Nat) :
    s.live id + freed s.log id = given s.log id ∧ given s.log id ≤ 1 := by
  obtain ⟨s', e, h⟩ := run_inv b ops (inv_new (α := α))
  rw [hr] at e
  cases e
  have h2 := h.once id
  have h1 := h.given id
  refine ⟨by omega, ?_⟩
  rw [h1]
  unfold ind
  split <;> omega

/-- No history makes the allocator panic, and every cell can be looked at. -/
theorem no_panic (b : Base α) (ops : List (Op α)) :
    ∃ s, (new : Sys α).run b ops = some s ∧ ∀ c ∈ s.held, c.slice.isSome := by
  obtain ⟨s, e, h⟩ := run_inv b ops (inv_new (α := α))
  refine ⟨s, e, fun c hc => ?_⟩
  unfold Cell.slice
  rw [if_pos (h.prefixes c hc)]
  rfl

/-- **C29, size.**  In any state, an allocation gives a block of at least the size requested; for sizes
that fit into 32 bits the cell has exactly that size. -/
theorem large_enough (b : Base α) (clear : Option α) (s : Sys α) (size : Nat) :
    ∃ s' c, s.allocCached b clear size = some (s', c) ∧ size ≤ c.mem.data.length ∧
      (size < 2 ^ 32 → ∃ d, c.slice = some d ∧ d.length = size) := by
  have key : ∀ c : Cell α, size ≤ c.mem.data.length → c.len = size % 2 ^ 32 →
      (size < 2 ^ 32 → ∃ d, c.slice = some d ∧ d.length = size) := by
    intro c h1 h2 h3
    rw [Nat.mod_eq_of_lt h3] at h2
    exact ⟨c.mem.data.take c.len, by unfold Cell.slice; rw [if_pos (by omega)], by
      rw [List.length_take]; omega⟩
  unfold Sys.allocCached
  by_cases hc : s.cache.data.length ≥ size
  · have hl : size ≤ (wipe clear s.cache.data).length := by rw [wipe_length]; exact hc
    rw [if_pos hc, if_pos hl]
    exact ⟨_, _, rfl, hl, key _ hl rfl⟩
  · rw [if_neg hc]
    exact ⟨_, _, rfl, b.enough _ _, key _ (b.enough _ _) rfl⟩

/-- **C29, clearing.**  A reused block contains only the default value when clearing is enabled: every
element of what an allocation gives is the default, or the block comes fresh from the underlying
allocator. -/
theorem cleared (b : Base α) (x : α) (s : Sys α) (size : Nat) :
    ∃ s' c, s.allocCached b (some x) size = some (s', c) ∧
      ((∀ y ∈ c.mem.data, y = x) ∨ s'.log = s.log ++ [.alloc s.next size]) := by
  unfold Sys.allocCached
  by_cases hc : s.cache.data.length ≥ size
  · have hl : size ≤ (wipe (some x) s.cache.data).length := by rw [wipe_length]; exact hc
    rw [if_pos hc, if_pos hl]
    refine ⟨_, _, rfl, Or.inl ?_⟩
    intro y hy
    simp only [wipe, List.mem_map] at hy
    obtain ⟨_, _, rfl⟩ := hy
    rfl
  · rw [if_neg hc]
    exact ⟨_, _, rfl, Or.inr rfl⟩

/-- Reuse: when the block kept is large enough the underlying allocator is not asked, and when a larger
cell comes back it is kept. -/
theorem reuse (b : Base α) (clear : Option α) (s : Sys α) (size : Nat) (hs : size ≤ s.cache.data.length) :
    ∃ s' c, s.allocCached b clear size = some (s', c) ∧ s'.log = s.log ∧ c.mem.id = s.cache.id ∧
      s'.cache = Mem.none ∧
      ∀ t : Sys α, t.cache.data.length < c.mem.data.length → (t.freeCached c).cache = c.mem := by
  unfold Sys.allocCached
  have hl : size ≤ (wipe clear s.cache.data).length := by rw [wipe_length]; exact hs
  rw [if_pos hs, if_pos hl]
  refine ⟨_, _, rfl, rfl, rfl, rfl, fun t ht => ?_⟩
  unfold Sys.freeCached
  rw [if_pos ht]
  rfl

/-- Beyond 32 bits a cell is shorter than requested: its length is cut. -/
theorem long_cell_cut (b : Base α) (clear : Option α) (s : Sys α) :
    ∃ s' c, s.allocCached b clear (2 ^ 32) = some (s', c) ∧ c.slice = some [] := by
  obtain ⟨s', c, e, h, -⟩ := large_enough b clear s (2 ^ 32)
  refine ⟨s', c, e, ?_⟩
  have hlen : c.len = 0 := by
    unfold Sys.allocCached at e
    split at e
    · split at e
      · simp only [Option.some.injEq, Prod.mk.injEq] at e
        rw [← e.2]
      · simp at e
    · simp only [Option.some.injEq, Prod.mk.injEq] at e
      rw [← e.2]
  unfold Cell.slice
  rw [hlen, if_pos (Nat.zero_le _), List.take_zero]

/-! ## Not vacuous -/

/-- An underlying allocator that gives zeros. -/
def zeros : Base Nat := ⟨fun _ n => List.replicate n 0, fun _ n => by simp⟩

/-- Two cells, the larger one kept and used again, in a nested allocator too; everything freed. -/
def sample : List (Op Nat) :=
  [.allocCached none 3, .allocCached none 5, .write 0 [1, 2, 3, 4, 5], .freeCached 1, .freeCached 0,
   .allocCached none 4, .nest, .allocCached (some 0) 2, .alloc 7, .freeCached 1, .free 0, .unnest,
   .freeCached 0]

example : ((new : Sys Nat).run zeros sample).map (fun s => (s.held, s.caches, s.log)) =
    some ([], [⟨some 1, [1, 2, 3, 4, 5]⟩],
      [.alloc 0 3, .alloc 1 5, .free none, .free (some 0), .alloc 2 2, .alloc 3 7, .free none,
       .free (some 3), .free (some 2), .free none]) := by decide +kernel

/-- Without clearing a user sees what an earlier one wrote; with clearing it does not. -/
example : (((new : Sys Nat).run zeros (sample ++ [.allocCached none 2])).map fun s => s.held.map Cell.slice) =
      some [some [1, 2]] ∧
    (((new : Sys Nat).run zeros (sample ++ [.allocCached (some 0) 2])).map fun s => s.held.map Cell.slice) =
      some [some [0, 0]] := by decide +kernel

end Divans.Alloc
