import Verif.Grow

/-
C30: the growable buffer.  Committed elements are kept for every history; a request is always
honoured if and only if it is for at most 33000 elements.
-/
namespace Divans.Grow

variable {α : Type} [Inhabited α]

/-- One use of the buffer, as its callers do it: ask for `min` elements, write into what was handed
out (`fill`, which may look at it, and may write more than is committed), commit `n` of them. -/
structure Use (α : Type) where
  /-- requested space -/
  min : Option Nat
  /-- what the caller leaves in the slice -/
  fill : List α → List α
  /-- how many elements are committed -/
  n : Nat

/-- The caller stays within the slice it was given. -/
def Use.Legal (u : Use α) : Prop :=
  (∀ l, (u.fill l).length = l.length)

/-- `Uses b us c out`: from `b` the uses `us` lead to `c`, and `out` are the elements committed, in
order.  No step panics. -/
inductive Uses : Buf α → List (Use α) → Buf α → List α → Prop
  | nil (b) : Uses b [] b []
  | cons {b c l us d out} (u : Use α) : u.Legal → checkout b u.min = some (c, l) → u.n ≤ l.length →
      Uses (commit c (u.fill l) u.n) us d out →
      Uses b (u :: us) d ((u.fill l).take u.n ++ out)

/-- A buffer some history leads to. -/
def Reachable (b : Buf α) : Prop := ∃ us out, Uses new us b out

theorem firstSize_eq : firstSize = 66000 := rfl

/-- The size of the cell after a checkout. -/
def cap (b : Buf α) (m : Nat) : Nat :=
  if b.data.length = 0 then firstSize
  else if b.size + m > b.data.length then b.size * 2 else b.data.length

/-- What a checkout does, for a buffer whose committed part is inside the cell. -/
theorem checkout_spec {b : Buf α} (h : b.size ≤ b.data.length) (m : Option Nat) :
    ∃ c l, checkout b m = some (c, l) ∧ c.size = b.size ∧ c.size + l.length = c.data.length ∧
      c.data.take c.size = b.data.take b.size ∧ c.data.length = cap b (m.getD 1) := by
  unfold cap
  by_cases h1 : b.data = []
  · have h0 : b.size = 0 := by rw [h1] at h; simpa using h
    have he : checkout b m = some (⟨List.replicate firstSize default, b.size⟩,
        (List.replicate firstSize default).drop b.size) := by
      unfold checkout ensure
      rw [if_pos h1]
      simp [h0]
    refine ⟨_, _, he, rfl, ?_, ?_, ?_⟩
    · simp [h0]
    · simp [h0]
    · rw [if_pos (by simp [h1]), List.length_replicate]
  · have h1' : b.data.length ≠ 0 := by simpa using h1
    rw [if_neg h1']
    by_cases h2 : b.size + m.getD 1 > b.data.length
    · have hl : (b.data.take b.size ++ List.replicate (b.size * 2 - b.size) (default : α)).length
          = b.size * 2 := by
        simp only [List.length_append, List.length_take, List.length_replicate]; omega
      have he : checkout b m
          = some (⟨b.data.take b.size ++ List.replicate (b.size * 2 - b.size) default, b.size⟩,
        (b.data.take b.size ++ List.replicate (b.size * 2 - b.size) default).drop b.size) := by
        unfold checkout ensure
        rw [if_neg h1, if_pos h2, if_neg (by omega)]
        simp only
        rw [if_neg (by rw [hl]; omega)]
      refine ⟨_, _, he, rfl, ?_, ?_, ?_⟩
      · rw [List.length_drop, hl]; simp only; omega
      · simp only
        rw [List.take_append_of_le_length (by rw [List.length_take]; omega), List.take_take,
          Nat.min_self]
      · rw [if_pos h2]; exact hl
    · have he : checkout b m = some (b, b.data.drop b.size) := by
        unfold checkout ensure
        rw [if_neg h1, if_neg h2]
        simp only
        rw [if_neg (by omega)]
      refine ⟨_, _, he, rfl, ?_, rfl, ?_⟩
      · rw [List.length_drop]; omega
      · rw [if_neg h2]

theorem commit_length {c : Buf α} {l w : List α} {n : Nat} (h : c.size + l.length = c.data.length)
    (hw : w.length = l.length) : (commit c w n).data.length = c.data.length := by
  simp only [commit, List.length_append, List.length_take]
  omega

/-- The committed elements are inside the cell after every history. -/
theorem uses_inside {b c : Buf α} {us : List (Use α)} {out : List α} (h : b.size ≤ b.data.length)
    (hu : Uses b us c out) : c.size ≤ c.data.length := by
  induction hu with
  | nil => exact h
  | @cons b c l us d out u hl hc hn _ ih =>
    obtain ⟨c', l', hc', hs, hlen, ht, -⟩ := checkout_spec h u.min
    rw [hc] at hc'
    cases hc'
    apply ih
    rw [commit_length hlen (hl l)]
    simp only [commit]
    omega

theorem uses_slice {b c : Buf α} {us : List (Use α)} {out : List α} (h : b.size ≤ b.data.length)
    (hu : Uses b us c out) : c.data.take c.size = b.data.take b.size ++ out := by
  induction hu with
  | nil => simp
  | @cons b c l us d out u hl hc hn _ ih =>
    obtain ⟨c', l', hc', hs, hlen, ht, -⟩ := checkout_spec h u.min
    rw [hc] at hc'
    cases hc'
    rw [ih (by rw [commit_length hlen (hl l)]; simp only [commit]; omega), ← ht]
    simp only [commit]
    rw [List.take_append, List.take_of_length_le (by rw [List.length_take]; omega)]
    simp only [List.length_take]
    rw [Nat.min_eq_left (by omega), Nat.add_sub_cancel_left, List.append_assoc]

/-- **C30, second half.** After every history of checkouts and commits, with any requests and any
writing by the caller within the slices handed out, the buffer shows exactly the committed elements,
in order. -/
theorem committed_kept {us : List (Use α)} {c : Buf α} {out : List α} (hu : Uses new us c out) :
    slice c = some out ∧ len c = out.length := by
  have h1 := uses_slice (by simp [new]) hu
  have h2 := uses_inside (by simp [new]) hu
  simp only [new, List.take_nil, List.nil_append] at h1
  unfold slice len
  rw [if_neg (by omega), h1]
  refine ⟨rfl, ?_⟩
  rw [← h1, List.length_take]; omega

/-- No checkout panics: every request is answered from every reachable buffer, so histories can always
be continued. -/
theorem checkout_total {us : List (Use α)} {c : Buf α} {out : List α} (hu : Uses new us c out)
    (m : Option Nat) : ∃ d l, checkout c m = some (d, l) := by
  obtain ⟨d, l, h, _⟩ := checkout_spec (uses_inside (by simp [new]) hu) m
  exact ⟨d, l, h⟩

/-- The request is honoured: at least that many elements are handed out. -/
def Honours (b : Buf α) (m : Option Nat) : Prop :=
  ∃ c l, checkout b m = some (c, l) ∧ m.getD 1 ≤ l.length

theorem honours_iff {b : Buf α} (h : b.size ≤ b.data.length) (m : Option Nat) :
    Honours b m ↔ b.size + m.getD 1 ≤ cap b (m.getD 1) := by
  obtain ⟨c, l, hc, hs, hlen, ht, hcap⟩ := checkout_spec h m
  constructor
  · rintro ⟨c', l', hc', hl⟩
    rw [hc] at hc'
    cases hc'
    omega
  · intro hh
    exact ⟨c, l, hc, by omega⟩

/-- The capacity never shrinks below the first allocation as long as no request exceeds its half. -/
theorem capacity {b c : Buf α} {us : List (Use α)} {out : List α}
    (h : b.size ≤ b.data.length) (hb : b.data.length = 0 ∨ firstSize ≤ b.data.length)
    (hm : ∀ u ∈ us, u.min.getD 1 ≤ 33000) (hu : Uses b us c out) :
    c.data.length = 0 ∨ firstSize ≤ c.data.length := by
  induction hu with
  | nil => exact hb
  | @cons b c l us d out u hl hc hn _ ih =>
    obtain ⟨c', l', hc', hs, hlen, ht, hcap⟩ := checkout_spec h u.min
    rw [hc] at hc'
    cases hc'
    have hmu := hm u (by simp)
    have hw := commit_length (n := u.n) hlen (hl l)
    have hf := firstSize_eq
    apply ih
    · rw [hw]; simp only [commit]; omega
    · right
      rw [hw, hcap]
      unfold cap
      split
      · omega
      · split <;> omega
    · intro v hv; exact hm v (by simp [hv])

/-- The default request (one element) is honoured after every history. -/
theorem one_more_honoured {us : List (Use α)} {c : Buf α} {out : List α} (hu : Uses new us c out) :
    Honours c none := by
  have h := uses_inside (by simp [new]) hu
  have hf := firstSize_eq
  rw [honours_iff h]
  unfold cap
  simp only [Option.getD_none]
  split
  · omega
  · split <;> omega

/-- **C30, first half, the part that holds.** If no request of the history, nor the present one, is
for more than 33000 elements, at least as many as requested are handed out.  (The program asks for 1
and for 256.)  Missing: larger requests, for which it is false, see `requests_honoured_iff`. -/
theorem request_honoured_partial {us : List (Use α)} {c : Buf α} {out : List α}
    (hu : Uses new us c out) (hm : ∀ u ∈ us, u.min.getD 1 ≤ 33000) {m : Option Nat}
    (h : m.getD 1 ≤ 33000) : Honours c m := by
  have h0 := uses_inside (by simp [new]) hu
  have hb := capacity (by simp [new]) (Or.inl rfl) hm hu
  have hf := firstSize_eq
  rw [honours_iff h0]
  unfold cap
  split
  · omega
  · split <;> omega

/-- A fresh buffer asked for more than 66000 elements hands out 66000. -/
theorem first_request_too_small (n : Nat) (h : firstSize < n) : ¬ Honours (new : Buf α) (some n) := by
  rw [honours_iff (by simp [new])]
  unfold cap new
  simp only [List.length_nil, if_true, Option.getD_some]
  omega

/-- The first use of a new buffer, leaving the elements as they are and committing `n`. -/
theorem first_use {n : Nat} (hn : n ≤ firstSize) :
    ∃ b : Buf α, Uses new [⟨none, id, n⟩] b (List.replicate n default) ∧ b.size = n ∧
      b.data.length = firstSize := by
  obtain ⟨k, hk⟩ : ∃ k, k = firstSize := ⟨_, rfl⟩
  have hc : checkout (new : Buf α) none = some (⟨List.replicate k default, 0⟩,
      List.replicate k default) := by
    unfold checkout ensure new
    rw [if_pos rfl, ← hk]
    simp
  have := Uses.cons (α := α) ⟨none, id, n⟩ (by intro l; rfl) hc (by rw [hk]; simpa using hn)
    (Uses.nil _)
  rw [← hk] at hn ⊢
  refine ⟨_, by simpa [List.take_replicate, Nat.min_eq_left hn] using this, ?_, ?_⟩
  · simp [commit]
  · simp [commit]

/-- A buffer holding `66001 - n` elements, asked for `n` (more than 33000), allocates twice what it
holds, which is not enough. -/
theorem later_request_too_small {b : Buf α} (n : Nat) (h1 : 33000 < n) (h2 : n ≤ firstSize)
    (hs : b.size = firstSize + 1 - n) (hl : b.data.length = firstSize) : ¬ Honours b (some n) := by
  have hf := firstSize_eq
  rw [honours_iff (by omega)]
  unfold cap
  simp only [Option.getD_some]
  rw [if_neg (by omega), if_pos (by omega)]
  omega

/-- **C30, first half, exactly.** Requests of up to `n` elements are always honoured (after every
history of such requests) if and only if `n` is at most 33000. -/
theorem requests_honoured_iff (n : Nat) (hn : 1 ≤ n) :
    (∀ (us : List (Use α)) c out, Uses new us c out → (∀ u ∈ us, u.min.getD 1 ≤ n) →
      ∀ m : Option Nat, m.getD 1 ≤ n → Honours c m) ↔ n ≤ 33000 := by
  have hf := firstSize_eq
  constructor
  · intro h
    by_cases h1 : firstSize < n
    · exact absurd (h [] new [] (Uses.nil _) (by simp) (some n) (by simp))
        (first_request_too_small n h1)
    · by_cases h2 : n ≤ 33000
      · exact h2
      · obtain ⟨b, hu, hs, hl⟩ := first_use (α := α) (n := firstSize + 1 - n) (by omega)
        exact absurd (h _ _ _ hu (by simpa using hn) (some n) (by simp))
          (later_request_too_small n (by omega) (by omega) hs hl)
  · intro h us c out hu hm m hm'
    exact request_honoured_partial hu (fun u hu => Nat.le_trans (hm u hu) h) (Nat.le_trans hm' h)

/-- With nothing committed, a second request that does not fit leaves the caller with no space at all. -/
theorem request_gets_nothing : ∃ (us : List (Use α)) (b : Buf α), Uses new us b [] ∧
    ∃ c, checkout b (some 66001) = some (c, []) := by
  obtain ⟨b, hu, hs, hl⟩ := first_use (α := α) (n := 0) (by omega)
  refine ⟨_, b, by simpa using hu, ?_⟩
  obtain ⟨c, l, hc, hcs, hlen, -, hcap⟩ := checkout_spec (b := b) (by omega) (some 66001)
  refine ⟨c, ?_⟩
  have hf := firstSize_eq
  unfold cap at hcap
  simp only [Option.getD_some] at hcap
  rw [if_neg (by omega), if_pos (by omega)] at hcap
  have : l = [] := List.length_eq_zero_iff.mp (by omega)
  rw [hc, this]

/-- A concrete history: three bytes committed, the rest of the slice scribbled over, then one more
byte after a request of 256. -/
example : ∃ c, Uses (new : Buf UInt8)
    [⟨none, fun l => l.map fun _ => 7, 3⟩, ⟨some 256, fun l => l.map fun x => x + 1, 1⟩] c
    [7, 7, 7, 8] ∧ slice c = some [7, 7, 7, 8] := by
  obtain ⟨k, hk⟩ : ∃ k, k + 300 = firstSize := ⟨65700, by rw [firstSize_eq]⟩
  have hc : checkout (new : Buf UInt8) none
      = some (⟨List.replicate (k + 300) 0, 0⟩, List.replicate (k + 300) 0) := by
    unfold checkout ensure new
    rw [if_pos rfl, ← hk]
    simp
    rfl
  have hc2 : checkout (⟨List.replicate (k + 300) 7, 3⟩ : Buf UInt8) (some 256)
      = some (⟨List.replicate (k + 300) 7, 3⟩, List.replicate (k + 297) 7) := by
    unfold checkout ensure
    rw [if_neg (by simp), if_neg (by simp)]
    simp
  have h2 := Uses.cons (α := UInt8) ⟨some 256, fun l => l.map fun x => x + 1, 1⟩
    (by intro l; simp) hc2 (by simp) (Uses.nil _)
  have h1 := Uses.cons (α := UInt8) (us := [⟨some 256, fun l => l.map fun x => x + 1, 1⟩])
    ⟨none, fun l => l.map fun _ => 7, 3⟩ (by intro l; simp) hc (by simp)
    (by simpa [commit] using h2)
  have e1 : min 3 (k + 300) = 3 := by omega
  have e3 : (List.take 3 ((List.replicate (k + 300) (0 : UInt8)).map fun _ => (7 : UInt8))) ++ [8]
      = [7, 7, 7, 8] := by
    simp only [List.map_replicate, List.take_replicate, e1]
    rfl
  rw [e3] at h1
  exact ⟨_, h1, (committed_kept h1).1⟩

end Divans.Grow
