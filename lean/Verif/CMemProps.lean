import Verif.CMem

/-!
# C97: the memory functions of the C example are such functions
-/

namespace Divans.CMem

theorem le_length : ∀ k v, (le k v).length = k := by
  intro k
  induction k with
  | zero => intro v; rfl
  | succ k ih => intro v; rw [le, List.length_cons, ih]

theorem val_le : ∀ k v, v < 256 ^ k → val (le k v) = v := by
  intro k
  induction k with
  | zero => intro v h; rw [le, val]; omega
  | succ k ih =>
    intro v h
    rw [le, val, ih _ (by rw [Nat.pow_succ] at h; omega), UInt8.toNat_ofNat', Nat.mod_mod]
    omega

theorem put_out {m : Mem} {a x : Nat} {bs : List UInt8} (h : x < a ∨ a + bs.length ≤ x) : put m a bs x = m x := by
  unfold put
  rw [if_neg (by omega)]

theorem put_in {m : Mem} {a x : Nat} {bs : List UInt8} (h1 : a ≤ x) (h2 : x < a + bs.length) : put m a bs x = bs.getD (x - a) 0 := by
  unfold put
  rw [if_pos ⟨h1, h2⟩]

theorem get_eq {m : Mem} {a k : Nat} {bs : List UInt8} (hl : bs.length = k) (h : ∀ i, i < k → m (a + i) = bs.getD i 0) : get m a k = bs := by
  apply List.ext_getElem?
  intro i
  unfold get
  by_cases hi : i < k
  · rw [List.getElem?_map, List.getElem?_range hi, Option.map_some, h i hi, List.getD_eq_getElem?_getD,
      List.getElem?_eq_getElem (by omega), Option.getD_some]
  · rw [List.getElem?_eq_none (by rw [List.length_map, List.length_range]; omega), List.getElem?_eq_none (by omega)]

theorem align_lt (a : Nat) : align a < 32 := Nat.mod_lt _ (by decide)

/-- The memory after `custom_malloc_f`, place by place. -/
theorem malloc_mem (m : Mem) (a op n x : Nat) : (mallocF m a op n).1 x =
    if x = a + 20 + align a then UInt8.ofNat (align a)
    else if a ≤ x ∧ x < a + 4 then (le 4 science).getD (x - a) 0
    else if a + 4 ≤ x ∧ x < a + 12 then (le 8 op).getD (x - (a + 4)) 0
    else if a + 12 ≤ x ∧ x < a + 20 then (le 8 n).getD (x - (a + 12)) 0
    else if a ≤ x ∧ x < a + 52 then 0x34
    else m x := by
  unfold mallocF
  simp only
  generalize hal : align a = l
  by_cases h0 : x = a + 20 + l
  · rw [if_pos h0, put_in (by omega) (by rw [List.length_singleton]; omega), show x - (a + 20 + l) = 0 by omega]
    rfl
  rw [if_neg h0, put_out (by rw [List.length_singleton]; omega)]
  by_cases h1 : a ≤ x ∧ x < a + 4
  · rw [if_pos h1, put_out (by rw [le_length]; omega), put_out (by rw [le_length]; omega), put_in h1.1 (by rw [le_length]; omega)]
  rw [if_neg h1]
  by_cases h2 : a + 4 ≤ x ∧ x < a + 12
  · rw [if_pos h2, put_out (by rw [le_length]; omega), put_in h2.1 (by rw [le_length]; omega)]
  rw [if_neg h2]
  by_cases h3 : a + 12 ≤ x ∧ x < a + 20
  · rw [if_pos h3, put_in h3.1 (by rw [le_length]; omega)]
  rw [if_neg h3, put_out (by rw [le_length]; omega), put_out (by rw [le_length]; omega), put_out (by rw [le_length]; omega)]
  by_cases h4 : a ≤ x ∧ x < a + 52
  · rw [if_pos h4, put_in h4.1 (by rw [List.length_replicate]; omega), List.getD_eq_getElem?_getD, List.getElem?_replicate, if_pos (by omega)]
    rfl
  · rw [if_neg h4, put_out (by rw [List.length_replicate]; omega)]

/-- **C97.**  The pointer that is returned is a multiple of 32; the `n` bytes behind it lie in the block of `n + 52` bytes, behind at least 21 of
its bytes; and nothing outside of the block's first 52 bytes is written. -/
theorem malloc_place (m : Mem) (a op n : Nat) :
    (mallocF m a op n).2 % 32 = 0 ∧ a + 21 ≤ (mallocF m a op n).2 ∧ (mallocF m a op n).2 + n ≤ a + (n + 52) ∧
    ∀ x, x < a ∨ a + 52 ≤ x → (mallocF m a op n).1 x = m x := by
  have h := align_lt a
  refine ⟨?_, ?_, ?_, fun x hx => ?_⟩
  · show (a + 21 + align a) % 32 = 0
    unfold align
    omega
  · show a + 21 ≤ a + 21 + align a
    omega
  · show a + 21 + align a + n ≤ _
    omega
  · rw [malloc_mem, if_neg (by omega), if_neg (by omega), if_neg (by omega), if_neg (by omega), if_neg (by omega)]

/-- **C97.**  As long as the bytes in front of the pointer are those that `custom_malloc_f` left there, `custom_free_f` finds the block and the
size again and passes both assertions, and with another context the second fails. -/
theorem malloc_free (m m' : Mem) {a op n : Nat} (hop : op < 2 ^ 64) (hn : n < 2 ^ 64)
    (hk : ∀ x, a ≤ x → x < (mallocF m a op n).2 → m' x = (mallocF m a op n).1 x) :
    freeF m' op (mallocF m a op n).2 = .back a n ∧ ∀ op', op' ≠ op → freeF m' op' (mallocF m a op n).2 = .assertion := by
  have hal := align_lt a
  have hp : (mallocF m a op n).2 = a + 21 + align a := rfl
  rw [hp] at hk ⊢
  have hb : m' (a + 20 + align a) = UInt8.ofNat (align a) := by
    rw [hk _ (by omega) (by omega), malloc_mem, if_pos rfl]
  have hq : less (a + 21 + align a - 1) (m' (a + 21 + align a - 1)) - 20 = a := by
    rw [show a + 21 + align a - 1 = a + 20 + align a by omega, hb]
    unfold less
    rw [UInt8.toNat_ofNat', Nat.mod_eq_of_lt (by omega), if_pos (by omega)]
    omega
  have g1 : get m' a 4 = le 4 science := by
    apply get_eq (le_length _ _)
    intro i hi
    rw [hk _ (by omega) (by omega), malloc_mem, if_neg (by omega), if_pos (by omega), show a + i - a = i by omega]
  have g2 : get m' (a + 4) 8 = le 8 op := by
    apply get_eq (le_length _ _)
    intro i hi
    rw [hk _ (by omega) (by omega), malloc_mem, if_neg (by omega), if_neg (by omega), if_pos (by omega), show a + 4 + i - (a + 4) = i by omega]
  have g3 : get m' (a + 12) 8 = le 8 n := by
    apply get_eq (le_length _ _)
    intro i hi
    rw [hk _ (by omega) (by omega), malloc_mem, if_neg (by omega), if_neg (by omega), if_neg (by omega), if_pos (by omega),
      show a + 12 + i - (a + 12) = i by omega]
  have e : ∀ op', freeF m' op' (a + 21 + align a) = if op ≠ op' then .assertion else .back a n := by
    intro op'
    unfold freeF
    rw [if_neg (by omega)]
    simp only
    rw [hq, g1, g2, g3, val_le 4 science (by decide), val_le 8 op (by omega), val_le 8 n (by omega), if_neg (not_not.2 rfl)]
  refine ⟨?_, fun op' h => ?_⟩
  · rw [e, if_neg (not_not.2 rfl)]
  · rw [e, if_pos h.symm]

/-! ## Any history -/

/-- Two blocks have no byte in common. -/
def Apart (b c : Nat × Nat) : Prop := b.1 + (b.2 + 52) ≤ c.1 ∨ c.1 + (c.2 + 52) ≤ b.1

theorem apart_of {l : List (Nat × Nat)} (h : l.Pairwise Apart) {b c : Nat × Nat} (hb : b ∈ l) (hc : c ∈ l) (hne : b ≠ c) : Apart b c := by
  induction l with
  | nil => cases hb
  | cons x t ih =>
    obtain ⟨h1, h2⟩ := List.pairwise_cons.1 h
    rcases List.mem_cons.1 hb with rfl | hb' <;> rcases List.mem_cons.1 hc with rfl | hc'
    · exact absurd rfl hne
    · exact h1 c hc'
    · exact (h1 b hb').symm
    · exact ih h2 hb' hc'

/-- The memory, and the blocks in use: the address of each and the size asked for. -/
structure St where
  mem : Mem
  live : List (Nat × Nat)

/-- The pointer a caller has for a block. -/
def ptr (b : Nat × Nat) : Nat := b.1 + 21 + align b.1

/-- What a program does that uses memory as it may: it asks for a block, and the system (or the bump allocator) has one that is
apart from those in use; it writes into what it was given; it frees a block, and from then on what is in it may change. -/
inductive Step (op : Nat) : St → St → Prop
  | alloc (s : St) (a n : Nat) (hn : n + 52 < 2 ^ 64) (h : ∀ c ∈ s.live, Apart (a, n) c) : Step op s ⟨(mallocF s.mem a op n).1, (a, n) :: s.live⟩
  | write (s : St) (b : Nat × Nat) (hb : b ∈ s.live) (x : Nat) (h1 : ptr b ≤ x) (h2 : x < ptr b + b.2) (v : UInt8) :
      Step op s ⟨put s.mem x [v], s.live⟩
  | free (s : St) (b : Nat × Nat) (hb : b ∈ s.live) (m : Mem) (h : ∀ x, x < b.1 ∨ b.1 + (b.2 + 52) ≤ x → m x = s.mem x) :
      Step op s ⟨m, s.live.erase b⟩

/-- Any number of such steps from a state without blocks. -/
inductive Reached (op : Nat) : St → Prop
  | start (m : Mem) : Reached op ⟨m, []⟩
  | step {s t : St} (h : Reached op s) (hs : Step op s t) : Reached op t

/-- The control area of a block is as `custom_malloc_f` left it. -/
def Intact (op : Nat) (m : Mem) (b : Nat × Nat) : Prop := ∀ x, b.1 ≤ x → x < ptr b → m x = (mallocF (fun _ => 0) b.1 op b.2).1 x

theorem intact_new (m : Mem) (a op n : Nat) : Intact op (mallocF m a op n).1 (a, n) := by
  intro x h1 h2
  have hal := align_lt a
  simp only [ptr] at h1 h2
  simp only [malloc_mem]
  rw [if_pos (show a ≤ x ∧ x < a + 52 by omega), if_pos (show a ≤ x ∧ x < a + 52 by omega)]

theorem reached_ok {op : Nat} {s : St} (h : Reached op s) :
    s.live.Pairwise Apart ∧ ∀ b ∈ s.live, Intact op s.mem b ∧ b.2 < 2 ^ 64 := by
  induction h with
  | start m => exact ⟨List.Pairwise.nil, by (intro b hb; cases hb)⟩
  | @step s t h hs ih =>
    obtain ⟨ih1, ih2⟩ := ih
    have two : ∀ b ∈ s.live, ∀ c ∈ s.live, b ≠ c → Apart b c := fun b hb c hc hne => apart_of ih1 hb hc hne
    cases hs with
    | alloc a n hn hap =>
      refine ⟨List.Pairwise.cons hap ih1, ?_⟩
      intro b hb
      rcases List.mem_cons.1 hb with rfl | hb
      · exact ⟨intact_new _ _ _ _, by simp only; omega⟩
      · refine ⟨fun x h1 h2 => ?_, (ih2 b hb).2⟩
        have hal := align_lt b.1
        have := hap b hb
        simp only [ptr] at h2
        simp only [Apart] at this
        show (mallocF s.mem a op n).1 x = _
        rw [(malloc_place s.mem a op n).2.2.2 x (by omega)]
        exact (ih2 b hb).1 x h1 h2
    | write b hb x h1 h2 v =>
      refine ⟨ih1, fun c hc => ⟨fun y g1 g2 => ?_, (ih2 c hc).2⟩⟩
      have hne : y ≠ x := by
        rintro rfl
        by_cases e : b = c
        · subst e; omega
        · have hap := two b hb c hc e
          have := align_lt b.1
          have := align_lt c.1
          simp only [ptr] at h1 h2 g2
          simp only [Apart] at hap
          omega
      show put s.mem x [v] y = _
      rw [put_out (by rw [List.length_singleton]; omega)]
      exact (ih2 c hc).1 y g1 g2
    | free b hb m hm =>
      have hnd : s.live.Nodup := by
        apply ih1.imp
        rintro b c hap rfl
        simp only [Apart] at hap
        omega
      refine ⟨ih1.sublist List.erase_sublist, fun c hc => ?_⟩
      obtain ⟨hne, hc'⟩ := hnd.mem_erase_iff.1 hc
      refine ⟨fun y g1 g2 => ?_, (ih2 c hc').2⟩
      have hap := two c hc' b hb hne
      have := align_lt c.1
      simp only [ptr] at g2
      simp only [Apart] at hap
      show m y = _
      rw [hm y (by omega)]
      exact (ih2 c hc').1 y g1 g2

/-- **C97.**  After any history, what callers were given is aligned and apart, and freeing any block in use passes the assertions and gives
the system exactly the block that it had given. -/
theorem any_history {op : Nat} (hop : op < 2 ^ 64) {s : St} (h : Reached op s) :
    (∀ b ∈ s.live, ptr b % 32 = 0 ∧ freeF s.mem op (ptr b) = .back b.1 b.2) ∧
    s.live.Pairwise fun b c => ptr b + b.2 ≤ ptr c ∨ ptr c + c.2 ≤ ptr b := by
  obtain ⟨h1, h2⟩ := reached_ok h
  refine ⟨fun b hb => ⟨(malloc_place (fun _ => 0) b.1 op b.2).1, (malloc_free (fun _ => 0) s.mem hop (h2 b hb).2 (h2 b hb).1).1⟩, ?_⟩
  apply h1.imp
  intro b c hap
  have := align_lt b.1
  have := align_lt c.1
  simp only [Apart] at hap
  simp only [ptr]
  omega

/-- **C97, beyond.**  A size of `2 ^ 64 - 52` or more wraps around: the block is smaller than the control area that is written. -/
theorem amount_spec {n : Nat} (h : n < 2 ^ 64) : (n + 52 < 2 ^ 64 → amount n = n + 52) ∧ (2 ^ 64 ≤ n + 52 → amount n < 52) := by
  unfold amount
  constructor
  · intro h; exact Nat.mod_eq_of_lt h
  · intro h; omega

/-! ## The bump allocator -/

/-- Histories of the bump allocator, with the number of blocks that were asked for. -/
inductive Bumped (base : Nat) : Nat → Bump → Prop
  | start : Bumped base 0 ⟨0, []⟩
  | alloc {k : Nat} {s : Bump} (h : Bumped base k s) (n : Nat) : Bumped base (k + 1) (s.alloc base n)
  | free {k : Nat} {s : Bump} (h : Bumped base k s) (b : Nat × Nat) (hb : b ∈ s.live) : Bumped base k (s.free base b)

/-- The sum of the sizes of the blocks in use, less what is left of each when it has been freed. -/
def held (l : List (Nat × Nat)) : Nat := (l.map fun b => b.2 + 20).sum

theorem held_erase {l : List (Nat × Nat)} {b : Nat × Nat} (h : b ∈ l) : held l = (b.2 + 20) + held (l.erase b) := by
  induction l with
  | nil => cases h
  | cons x t ih =>
    unfold held at ih ⊢
    by_cases e : x = b
    · subst e
      rw [List.erase_cons_head, List.map_cons, List.sum_cons]
    · rw [List.erase_cons_tail (by simpa using e), List.map_cons, List.sum_cons, List.map_cons, List.sum_cons,
        ih ((List.mem_cons.1 h).resolve_left fun h => e h.symm)]
      omega

theorem bumped_ok {base k : Nat} {s : Bump} (h : Bumped base k s) :
    s.live.Pairwise Apart ∧ (∀ b ∈ s.live, base ≤ b.1 ∧ b.1 + (b.2 + 52) ≤ base + s.offset) ∧ 32 * k + held s.live ≤ s.offset := by
  induction h with
  | start => exact ⟨List.Pairwise.nil, by (intro b hb; cases hb), Nat.le_refl _⟩
  | @alloc k s h n ih =>
    obtain ⟨i1, i2, i3⟩ := ih
    refine ⟨List.Pairwise.cons (fun c hc => .inr (i2 c hc).2) i1, ?_, ?_⟩
    · intro b hb
      simp only [Bump.alloc] at hb ⊢
      rcases List.mem_cons.1 hb with rfl | hb
      · simp only; omega
      · have := i2 b hb; omega
    · simp only [Bump.alloc, held, List.map_cons, List.sum_cons]
      unfold held at i3
      omega
  | @free k s h b hb ih =>
    obtain ⟨i1, i2, i3⟩ := ih
    have hnd : s.live.Nodup := by
      apply i1.imp
      rintro b c hap rfl
      simp only [Apart] at hap
      omega
    have hsum : held s.live = (b.2 + 20) + held (s.live.erase b) := by
      exact held_erase hb
    refine ⟨i1.sublist List.erase_sublist, ?_, ?_⟩
    · intro c hc
      simp only [Bump.free] at hc ⊢
      obtain ⟨hne, hc'⟩ := hnd.mem_erase_iff.1 hc
      have hcb := i2 c hc'
      have hbb := i2 b hb
      have hal := align_lt b.1
      by_cases e : base + s.offset = b.1 + 21 + align b.1 + b.2
      · rw [if_pos e]
        have hap : Apart c b := apart_of i1 hc' hb hne
        simp only [Apart] at hap
        omega
      · rw [if_neg e]; exact hcb
    · simp only [Bump.free]
      split <;> omega

/-- **C97.**  Also the bump allocator only hands out blocks that are apart from those in use and lie in what it has marked as used. -/
theorem bump_apart {base k : Nat} {s : Bump} (h : Bumped base k s) (n : Nat) :
    ∀ c ∈ s.live, Apart (base + s.offset, n) c := fun c hc => .inr ((bumped_ok h).2.1 c hc).2

/-- **C97, finding.**  Every block ever asked for costs at least 32 bytes of the buffer for good, freed or not, and the end of the buffer is
not looked at: after 8355840 requests, whatever their sizes and however soon they are freed, the next block lies outside of the
buffer of 255 MiB. -/
theorem bump_runs_out {base k : Nat} {s : Bump} (h : Bumped base k s) (hk : 8355840 ≤ k) (n : Nat) :
    ∃ b ∈ (s.alloc base n).live, base + 1024 * 1024 * 255 ≤ b.1 := by
  have := (bumped_ok h).2.2
  exact ⟨(base + s.offset, n), List.mem_cons_self, by simp only; omega⟩

/-- **C97, finding.**  Where the buffer begins at a multiple of 32, as compilers place it, a block at its beginning is not given back at all when it is freed. -/
theorem bump_leaks {base n : Nat} (hb : base % 32 = 0) : ((Bump.alloc base ⟨0, []⟩ n).free base (base, n)).offset = n + 52 := by
  unfold Bump.free Bump.alloc align
  simp only
  rw [if_neg (by omega)]
  omega

/-! ## The theorems are not vacuous -/

/-- Two blocks, a byte written into the first, the second freed. -/
example : ∃ s, Reached 7 s ∧ s.live = [(1000, 5)] ∧ s.mem 1024 = 99 ∧ freeF s.mem 7 1024 = .back 1000 5 := by
  have h1 : Reached 7 _ := .step (.start fun _ => 1) (.alloc _ 1000 5 (by decide) (by (intro c hc; cases hc)))
  have h2 : Reached 7 _ := .step h1 (.alloc _ 2000 9 (by decide) (by (intro c hc; rw [List.mem_singleton.1 hc]; exact .inr (by decide))))
  have h3 : Reached 7 _ := .step h2 (.write _ (1000, 5) (by simp) 1024 (by decide) (by decide) 99)
  have h4 : Reached 7 _ := .step h3 (.free _ (2000, 9) (by simp) _ fun _ _ => rfl)
  exact ⟨_, h4, by decide, by decide +kernel, by decide +kernel⟩

example : Bumped 64 2 (((Bump.alloc 64 ⟨0, []⟩ 127).free 64 (64, 127)).alloc 64 3) := .alloc (.free (.alloc .start _) _ (by decide)) _

end Divans.CMem
