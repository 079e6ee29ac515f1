import Verif.CVec
import Mathlib.Tactic.Ring

/-!
# C95: what the C example collects is what was pushed, and the numbers it prints
-/

namespace Divans.CVec

/-! ## Rounding up -/

theorem smear_bits {n x w : Nat} (h : ∀ i, x.testBit i = true ↔ ∃ j, j < n ∧ w.testBit (i + j) = true) (i : Nat) :
    (smear n x).testBit i = true ↔ ∃ j, j < 2 * n ∧ w.testBit (i + j) = true := by
  unfold smear
  rw [Nat.testBit_or, Nat.testBit_shiftRight, Bool.or_eq_true, h, h]
  constructor
  · rintro (⟨j, h1, h2⟩ | ⟨j, h1, h2⟩)
    · exact ⟨j, by omega, h2⟩
    · exact ⟨n + j, by omega, by rw [show i + (n + j) = n + i + j by omega]; exact h2⟩
  · rintro ⟨j, h1, h2⟩
    by_cases hj : j < n
    · exact .inl ⟨j, hj, h2⟩
    · exact .inr ⟨j - n, by omega, by rw [show n + i + (j - n) = i + j by omega]; exact h2⟩

theorem smears {w k : Nat} (h1 : 2 ^ k ≤ w) (h2 : w < 2 ^ (k + 1)) (hk : k < 64) :
    smear 32 (smear 16 (smear 8 (smear 4 (smear 2 (smear 1 w))))) = 2 ^ (k + 1) - 1 := by
  have a0 : ∀ i, w.testBit i = true ↔ ∃ j, j < 1 ∧ w.testBit (i + j) = true := by
    intro i
    constructor
    · intro h; exact ⟨0, by omega, h⟩
    · rintro ⟨j, h1, h2⟩
      rw [show j = 0 by omega] at h2
      exact h2
  have a6 := smear_bits (smear_bits (smear_bits (smear_bits (smear_bits (smear_bits a0)))))
  apply Nat.eq_of_testBit_eq
  intro i
  rw [Nat.testBit_two_pow_sub_one, Bool.eq_iff_iff, decide_eq_true_iff]
  refine (a6 i).trans ⟨?_, fun hi => ⟨k - i, by omega, ?_⟩⟩
  · rintro ⟨j, -, h⟩
    by_contra hc
    rw [Nat.testBit_lt_two_pow (Nat.lt_of_lt_of_le h2 (Nat.pow_le_pow_right (by omega) (by omega)))] at h
    cases h
  · rw [show i + (k - i) = k by omega]
    rw [Nat.testBit_eq_decide_div_mod_eq, decide_eq_true_iff]
    have : w / 2 ^ k = 1 := by
      apply Nat.div_eq_of_lt_le
      · omega
      · rw [show (1 + 1) * 2 ^ k = 2 ^ (k + 1) by rw [Nat.pow_succ]; omega]
        exact h2
    rw [this]

theorem log_bounds {w : Nat} (h : 0 < w) : 2 ^ w.log2 ≤ w ∧ w < 2 ^ (w.log2 + 1) :=
  ⟨Nat.log2_self_le (by omega), Nat.lt_log2_self⟩

/-- **C95.**  From 1 to `2 ^ 63` the rounded number is a power of two, not less, and less than twice as much; 0 is rounded to 0; and
from there on all numbers are. -/
theorem roundUp_spec {v : Nat} (hv : v < 2 ^ 64) :
    (v = 0 → roundUp v = 0) ∧ (2 ^ 63 < v → roundUp v = 0) ∧
    (0 < v → v ≤ 2 ^ 63 → ∃ k, k ≤ 63 ∧ roundUp v = 2 ^ k ∧ v ≤ 2 ^ k ∧ 2 ^ k < 2 * v) := by
  have hw : ∀ w, (v + (2 ^ 64 - 1)) % 2 ^ 64 = w → 0 < w → roundUp v = 2 ^ (w.log2 + 1) % 2 ^ 64 ∧ w.log2 < 64 := by
    intro w e h0
    obtain ⟨b1, b2⟩ := log_bounds h0
    have hlt : w < 2 ^ 64 := by rw [← e]; exact Nat.mod_lt _ (by decide)
    have hk : w.log2 < 64 := by
      by_contra hc
      have := Nat.pow_le_pow_right (n := 2) (by omega) (show 64 ≤ w.log2 by omega)
      omega
    refine ⟨?_, hk⟩
    unfold roundUp
    rw [e, smears b1 b2 hk, Nat.sub_add_cancel Nat.one_le_two_pow]
  refine ⟨?_, ?_, ?_⟩
  · rintro rfl
    decide +kernel
  · intro h
    have e : (v + (2 ^ 64 - 1)) % 2 ^ 64 = v - 1 := by
      rw [show v + (2 ^ 64 - 1) = v - 1 + 2 ^ 64 by omega, Nat.add_mod_right, Nat.mod_eq_of_lt (by omega)]
    obtain ⟨g1, g2⟩ := hw _ e (by omega)
    obtain ⟨b1, b2⟩ := log_bounds (w := v - 1) (by omega)
    have : (v - 1).log2 = 63 := by
      by_contra hc
      have := Nat.pow_le_pow_right (n := 2) (by omega) (show (v - 1).log2 + 1 ≤ 63 by omega)
      omega
    rw [g1, this]
    exact Nat.mod_self _
  · intro h0 h
    by_cases h1 : v = 1
    · subst h1
      exact ⟨0, by decide +kernel⟩
    · have e : (v + (2 ^ 64 - 1)) % 2 ^ 64 = v - 1 := by
        rw [show v + (2 ^ 64 - 1) = v - 1 + 2 ^ 64 by omega, Nat.add_mod_right, Nat.mod_eq_of_lt (by omega)]
      obtain ⟨g1, g2⟩ := hw _ e (by omega)
      obtain ⟨b1, b2⟩ := log_bounds (w := v - 1) (by omega)
      have hk : (v - 1).log2 + 1 ≤ 63 := by
        by_contra hc
        have := Nat.pow_le_pow_right (n := 2) (by omega) (show 63 ≤ (v - 1).log2 by omega)
        omega
      have hp := Nat.pow_le_pow_right (n := 2) (by omega) hk
      refine ⟨_, hk, by rw [g1, Nat.mod_eq_of_lt (by omega)], by omega, ?_⟩
      rw [Nat.pow_succ]
      omega

theorem roundUp_ge {v : Nat} (h0 : 0 < v) (h : v ≤ 2 ^ 63) : v ≤ roundUp v := by
  obtain ⟨k, -, e, h1, -⟩ := (roundUp_spec (v := v) (by omega)).2.2 h0 h
  omega

theorem roundUp_mono {v w : Nat} (h0 : 0 < v) (h : v ≤ w) (hw : w ≤ 2 ^ 63) : roundUp v ≤ roundUp w := by
  obtain ⟨k, -, e, h1, h2⟩ := (roundUp_spec (v := v) (by omega)).2.2 h0 (by omega)
  obtain ⟨j, -, e', h1', h2'⟩ := (roundUp_spec (v := w) (by omega)).2.2 (by omega) hw
  rw [e, e']
  apply Nat.pow_le_pow_right (by omega)
  by_contra hc
  have := Nat.pow_le_pow_right (n := 2) (by omega) (show j + 1 ≤ k by omega)
  rw [Nat.pow_succ] at this
  omega

/-! ## Collecting -/

/-- The blocks taken, in order. -/
def tookIds (l : List Ev) : List Nat := l.filterMap fun
  | .took id _ => some id
  | .gave _ => none

/-- The blocks given back, in order. -/
def gaveIds (l : List Ev) : List Nat := l.filterMap fun
  | .took _ _ => none
  | .gave id => some id

/-- What holds between two calls: `content` was pushed since the heap was `h0`. -/
structure Holds (h0 : Heap) (content : List UInt8) (h : Heap) (v : Vec) : Prop where
  size : v.size = content.length
  small : content.length ≤ 2 ^ 63
  log : ∃ l, h.log = h0.log ++ l ∧ tookIds l = List.range' h0.next (h.next - h0.next) ∧ h0.next ≤ h.next ∧
    tookIds l = gaveIds l ++ (match v.data with | none => [] | some x => [x.1])
  place : (v.data = none ∧ content = []) ∨
    ∃ id mem, v.data = some (id, mem) ∧ content ≠ [] ∧ mem.length = roundUp content.length ∧ mem.take content.length = content

theorem holds_new (h0 : Heap) : Holds h0 [] h0 .new :=
  ⟨rfl, by simp, ⟨[], by simp, by simp [tookIds], by simp, by simp [tookIds, gaveIds, Vec.new]⟩, .inl ⟨rfl, rfl⟩⟩

theorem tookIds_append (a b : List Ev) : tookIds (a ++ b) = tookIds a ++ tookIds b := List.filterMap_append ..
theorem gaveIds_append (a b : List Ev) : gaveIds (a ++ b) = gaveIds a ++ gaveIds b := List.filterMap_append ..

/-- Filling a block that is long enough. -/
theorem fill_spec {h : Heap} {id : Nat} {mem content bs : List UInt8} {cap : Nat} (hc : mem.length = cap) (hm : mem.take content.length = content)
    (hl : content.length + bs.length ≤ cap) :
    ∃ mem', fill h ⟨some (id, mem), content.length⟩ cap (content.length + bs.length) bs =
        .ok (h, ⟨some (id, mem'), content.length + bs.length⟩) ∧
      mem'.length = cap ∧ mem'.take (content.length + bs.length) = content ++ bs := by
  refine ⟨mem.take content.length ++ bs ++ mem.drop (content.length + bs.length), ?_, ?_, ?_⟩
  · unfold fill
    rw [if_neg (by omega)]
    simp only
    rw [if_pos (by omega)]
  · rw [hm]
    simp only [List.length_append, List.length_drop]
    omega
  · rw [hm, List.take_append_of_le_length (by simp), List.take_of_length_le (by simp)]

/-- The block that takes the place of the old one. -/
theorem grown {old content fresh : List UInt8} {P C : Nat} (h1 : P = old.length) (h2 : old.take content.length = content) (h3 : P ≤ C)
    (h4 : fresh.length = C) (h5 : content.length ≤ P) :
    (old.take P ++ fresh.drop P).length = C ∧ (old.take P ++ fresh.drop P).take content.length = content := by
  constructor
  · simp only [List.length_append, List.length_take, List.length_drop]
    omega
  · rw [List.take_append_of_le_length (by rw [List.length_take]; omega), List.take_take, Nat.min_eq_left h5, h2]

/-- **C95.**  A call of `push_vec_u8`, up to `2 ^ 63` bytes in all. -/
theorem push_spec (junk : Junk) {h0 h : Heap} {v : Vec} {content : List UInt8} (hv : Holds h0 content h v) (bs : List UInt8)
    (hl : content.length + bs.length ≤ 2 ^ 63) :
    ∃ h' v', push junk h v bs = .ok (h', v') ∧ Holds h0 (content ++ bs) h' v' := by
  obtain ⟨hs, hsm, ⟨l, q1, q2, q3, q4⟩, hp⟩ := hv
  by_cases hb : bs.length = 0
  · refine ⟨h, v, by unfold push; rw [if_pos (.inl hb)], ?_⟩
    rw [List.length_eq_zero_iff.1 hb, List.append_nil]
    exact ⟨hs, hsm, ⟨l, q1, q2, q3, q4⟩, hp⟩
  have ht : (v.size + bs.length) % 2 ^ 64 = content.length + bs.length := by
    rw [hs, Nat.mod_eq_of_lt (by omega)]
  have hne : content ++ bs ≠ [] := by
    intro h0
    have := congrArg List.length h0
    rw [List.length_append, List.length_nil] at this
    omega
  have hcap := roundUp_ge (v := content.length + bs.length) (by omega) hl
  unfold push
  simp only [ht]
  rw [if_neg (by omega)]
  by_cases hg : v.size = 0 ∨ roundUp v.size ≠ roundUp (content.length + bs.length)
  · rw [if_pos hg]
    -- the old part that is copied
    have hmin : min (roundUp v.size) (roundUp (content.length + bs.length)) = roundUp content.length := by
      rw [hs]
      by_cases hz : content.length = 0
      · rw [hz, (roundUp_spec (v := 0) (by decide)).1 rfl, Nat.zero_min]
      · exact Nat.min_eq_left (roundUp_mono (by omega) (by omega) hl)
    have hbytes : roundUp content.length = v.bytes.length ∧ v.bytes.take content.length = content := by
      unfold Vec.bytes
      rcases hp with ⟨p1, p2⟩ | ⟨id, mem, p1, p2, p3, p4⟩
      · rw [p1, p2]
        exact ⟨(roundUp_spec (v := 0) (by decide)).1 rfl, rfl⟩
      · rw [p1]
        exact ⟨p3.symm, p4⟩
    have hge : content.length ≤ v.bytes.length := by
      have := congrArg List.length hbytes.2
      rw [List.length_take] at this
      omega
    have hle : roundUp content.length ≤ roundUp (content.length + bs.length) := by
      rw [← hmin]
      exact Nat.min_le_right _ _
    have hgr := grown (fresh := (List.range (roundUp (content.length + bs.length))).map (junk h.next)) hbytes.1 hbytes.2 hle
      (by rw [List.length_map, List.length_range]) (Nat.le_trans hge (Nat.le_of_eq hbytes.1.symm))
    rw [hmin, if_pos (Nat.le_of_eq hbytes.1), hs]
    obtain ⟨mem', e1, e2, e3⟩ := fill_spec (h := v.freed ⟨h.next + 1, h.log ++ [.took h.next (roundUp (content.length + bs.length))]⟩)
      (id := h.next) (mem := v.bytes.take (roundUp content.length) ++
          ((List.range (roundUp (content.length + bs.length))).map (junk h.next)).drop (roundUp content.length)) (content := content) (bs := bs)
      (cap := roundUp (content.length + bs.length))
      hgr.1 hgr.2 hcap
    refine ⟨_, _, e1, by rw [List.length_append], by rw [List.length_append]; exact hl, ?_,
      .inr ⟨_, mem', rfl, hne, by rw [List.length_append]; exact e2, by rw [List.length_append]; exact e3⟩⟩
    rcases hp with ⟨p1, p2⟩ | ⟨id, mem, p1, p2, p3, p4⟩
    · unfold Vec.freed
      rw [p1] at q4 ⊢
      simp only [List.append_nil] at q4 ⊢
      refine ⟨l ++ [.took h.next (roundUp (content.length + bs.length))], by rw [q1, List.append_assoc], ?_, by omega, ?_⟩
      · rw [tookIds_append, q2, show h.next + 1 - h0.next = (h.next - h0.next) + 1 by omega, List.range'_concat]
        simp [tookIds]
        omega
      · rw [tookIds_append, gaveIds_append, q4]
        simp [tookIds, gaveIds]
    · unfold Vec.freed
      rw [p1] at q4 ⊢
      simp only at q4 ⊢
      refine ⟨l ++ [.took h.next (roundUp (content.length + bs.length)), .gave id], by rw [q1]; simp, ?_, by omega, ?_⟩
      · rw [tookIds_append, q2, show h.next + 1 - h0.next = (h.next - h0.next) + 1 by omega, List.range'_concat]
        simp [tookIds]
        omega
      · rw [tookIds_append, gaveIds_append, q4]
        simp [tookIds, gaveIds]
  · rw [if_neg hg]
    have hz : v.size ≠ 0 ∧ roundUp v.size = roundUp (content.length + bs.length) := by
      constructor
      · exact fun h => hg (.inl h)
      · by_contra h; exact hg (.inr h)
    rcases hp with ⟨p1, p2⟩ | ⟨id, mem, p1, p2, p3, p4⟩
    · rw [p2] at hs
      exact absurd hs hz.1
    · obtain ⟨mem', e1, e2, e3⟩ := fill_spec (h := h) (id := id) (mem := mem) (content := content) (bs := bs)
        (cap := roundUp (content.length + bs.length)) (p3.trans ((congrArg roundUp hs.symm).trans hz.2)) p4 hcap
      have hv : v = ⟨some (id, mem), content.length⟩ := by
        cases v
        simp only at p1 hs
        rw [p1, hs]
      rw [hv]
      refine ⟨_, _, e1, by rw [List.length_append], by rw [List.length_append]; exact hl, ⟨l, q1, q2, q3, ?_⟩,
        .inr ⟨_, mem', rfl, hne, by rw [List.length_append]; exact e2, by rw [List.length_append]; exact e3⟩⟩
      rw [p1] at q4
      exact q4

theorem pushes_spec (junk : Junk) : ∀ (pieces : List (List UInt8)) {h0 h : Heap} {v : Vec} {content : List UInt8}, Holds h0 content h v →
    content.length + pieces.flatten.length ≤ 2 ^ 63 →
    ∃ h' v', pushes junk h v pieces = .ok (h', v') ∧ Holds h0 (content ++ pieces.flatten) h' v' := by
  intro pieces
  induction pieces with
  | nil => intro h0 h v content hv _; exact ⟨h, v, rfl, by simpa using hv⟩
  | cons bs rest ih =>
    intro h0 h v content hv hl
    rw [List.flatten_cons, List.length_append] at hl
    obtain ⟨h1, v1, e1, g1⟩ := push_spec junk hv bs (by omega)
    obtain ⟨h2, v2, e2, g2⟩ := ih g1 (by rw [List.length_append]; omega)
    refine ⟨h2, v2, ?_, by rw [List.flatten_cons, ← List.append_assoc]; exact g2⟩
    rw [pushes, e1]
    exact e2

/-- **C95.**  Any number of pieces of any lengths, up to `2 ^ 63` bytes in all, pushed into a new buffer, with anything in fresh memory:
no call aborts or touches memory outside of a block; the buffer holds the pieces one behind the other; its block has
less than twice that size; each block that was taken has been given back, in the same order, but for the one in use; and
releasing the buffer gives that one back too and leaves an empty buffer. -/
theorem collects (junk : Junk) (h0 : Heap) (pieces : List (List UInt8)) (hl : pieces.flatten.length ≤ 2 ^ 63) :
    ∃ h v l, pushes junk h0 .new pieces = .ok (h, v) ∧ v.size = pieces.flatten.length ∧ v.bytes.take v.size = pieces.flatten ∧
      v.size ≤ v.bytes.length ∧ (v.size ≠ 0 → v.bytes.length < 2 * v.size) ∧ (release h v).2 = .new ∧
      (release h v).1.log = h0.log ++ l ∧ gaveIds l = tookIds l ∧ (tookIds l).Nodup ∧ ∀ id ∈ tookIds l, h0.next ≤ id := by
  obtain ⟨h, v, e, hs, hsm, ⟨l, q1, q2, q3, q4⟩, hp⟩ := pushes_spec junk pieces (holds_new h0) (by simpa using hl)
  rw [List.nil_append] at hs hsm hp
  have hnd : (tookIds l).Nodup := by rw [q2]; exact List.nodup_range'
  have hge : ∀ id ∈ tookIds l, h0.next ≤ id := by
    rw [q2]
    intro id hid
    exact (List.mem_range'_1.1 hid).1
  rcases hp with ⟨p1, p2⟩ | ⟨id, mem, p1, p2, p3, p4⟩
  · have hz : v.size = 0 := by rw [hs, p2]; rfl
    have hv : v = .new := by
      cases v
      simp only at p1 hz
      rw [p1, hz]
      rfl
    rw [p1, List.append_nil] at q4
    refine ⟨h, v, l, e, hs, ?_, by omega, fun h => absurd hz h, ?_, ?_, q4.symm, hnd, hge⟩
    · rw [p2, hz]; rfl
    · unfold release
      rw [if_neg (by simp [hz]), hv]
    · unfold release
      rw [if_neg (by simp [hz]), q1]
  · have hlen : 0 < pieces.flatten.length := List.length_pos_iff.2 p2
    obtain ⟨k, -, e1, e2, e3⟩ := (roundUp_spec (v := pieces.flatten.length) (by omega)).2.2 hlen hl
    have hb : v.bytes = mem := by unfold Vec.bytes; rw [p1]
    rw [p1] at q4
    simp only at q4
    refine ⟨h, v, l ++ [.gave id], e, hs, by rw [hb, hs]; exact p4, by rw [hb, hs]; omega, fun _ => by rw [hb, hs]; omega, ?_, ?_, ?_, ?_, ?_⟩
    · unfold release
      rw [if_pos (by omega)]
    · unfold release Vec.freed
      rw [if_pos (by omega), p1]
      simp only
      rw [q1, List.append_assoc]
    · rw [gaveIds_append, tookIds_append, q4]
      simp [tookIds, gaveIds]
    · rw [tookIds_append]
      simpa [tookIds] using hnd
    · rw [tookIds_append]
      simpa [tookIds] using hge

/-- **C95, beyond.**  With more than `2 ^ 63` bytes in all the program is aborted; with `2 ^ 64` or more the call returns and the bytes are
not there. -/
theorem push_too_much (junk : Junk) {h0 h : Heap} {v : Vec} {content : List UInt8} (hv : Holds h0 content h v) (bs : List UInt8)
    (hb : bs.length < 2 ^ 64) :
    (2 ^ 63 < content.length + bs.length → content.length + bs.length < 2 ^ 64 → push junk h v bs = .abort) ∧
    (2 ^ 64 ≤ content.length + bs.length → push junk h v bs = .ok (h, v)) := by
  obtain ⟨hs, hsm, -, hp⟩ := hv
  constructor
  · intro h1 h2
    have ht : (v.size + bs.length) % 2 ^ 64 = content.length + bs.length := by
      rw [hs, Nat.mod_eq_of_lt h2]
    have hr : roundUp (content.length + bs.length) = 0 := (roundUp_spec h2).2.1 h1
    unfold push
    simp only [ht, hr]
    rw [if_neg (by omega)]
    have hf : ∀ (h : Heap) (v : Vec), fill h v 0 (content.length + bs.length) bs = .abort := by
      intro h v
      unfold fill
      rw [if_pos (by omega)]
    by_cases hg : v.size = 0 ∨ roundUp v.size ≠ 0
    · rw [if_pos hg, if_pos (by rw [Nat.min_zero]; omega), hf]
    · rw [if_neg hg, hf]
  · intro h1
    unfold push
    have ht : (v.size + bs.length) % 2 ^ 64 = content.length + bs.length - 2 ^ 64 := by
      rw [hs, show content.length + bs.length = content.length + bs.length - 2 ^ 64 + 2 ^ 64 by omega, Nat.add_mod_right,
        Nat.mod_eq_of_lt (by omega)]
      omega
    simp only [ht]
    rw [if_pos (.inr (by omega))]

/-- The cases of `push_too_much` occur: from the empty buffer, and behind one byte. -/
example : (∃ bs : List UInt8, bs.length < 2 ^ 64 ∧ 2 ^ 63 < ([] : List UInt8).length + bs.length ∧ ([] : List UInt8).length + bs.length < 2 ^ 64 ∧
      push (fun _ _ => 0) ⟨0, []⟩ .new bs = .abort) ∧
    ∃ h v, Holds ⟨0, []⟩ [5] h v ∧ ∃ bs : List UInt8, bs.length < 2 ^ 64 ∧ 2 ^ 64 ≤ ([5] : List UInt8).length + bs.length ∧
      push (fun _ _ => 0) h v bs = .ok (h, v) := by
  constructor
  · refine ⟨List.replicate (2 ^ 63 + 1) 0, ?_⟩
    have e : (List.replicate (2 ^ 63 + 1) (0 : UInt8)).length = 2 ^ 63 + 1 := List.length_replicate
    generalize List.replicate (2 ^ 63 + 1) (0 : UInt8) = bs at e
    exact ⟨by omega, by rw [List.length_nil]; omega, by rw [List.length_nil]; omega,
      (push_too_much (fun _ _ => 0) (holds_new ⟨0, []⟩) bs (by omega)).1 (by rw [List.length_nil]; omega) (by rw [List.length_nil]; omega)⟩
  · obtain ⟨h, v, -, g⟩ := push_spec (fun _ _ => 0) (holds_new ⟨0, []⟩) [5] (by decide)
    refine ⟨h, v, g, List.replicate (2 ^ 64 - 1) 0, ?_⟩
    have e : (List.replicate (2 ^ 64 - 1) (0 : UInt8)).length = 2 ^ 64 - 1 := List.length_replicate
    generalize List.replicate (2 ^ 64 - 1) (0 : UInt8) = bs at e
    have l : ([5] : List UInt8).length + bs.length = 2 ^ 64 := by rw [List.length_singleton]; omega
    exact ⟨by omega, Nat.le_of_eq l.symm, (push_too_much _ g bs (by omega)).2 (Nat.le_of_eq l.symm)⟩

/-- Three pieces, the second of which needs a bigger block. -/
example : ∃ h v, pushes (fun _ _ => 7) ⟨0, []⟩ .new [[1, 2, 3], [4, 5], [6]] = .ok (h, v) ∧ v.size = 6 ∧ v.bytes = [1, 2, 3, 4, 5, 6, 7, 7] ∧
    h.log = [.took 0 4, .took 1 8, .gave 0] := ⟨_, _, rfl, rfl, rfl, rfl⟩

example : ([[1, 2, 3], [4, 5], [6]] : List (List UInt8)).flatten.length ≤ 2 ^ 63 := by decide

/-! ## Numbers as text -/

/-- Decimal text for a number: read from the left, each digit counts ten times the next; only digits; no digits in vain. -/
structure Decimal (t : List UInt8) (n : Nat) : Prop where
  value : t.foldl (fun a b => 10 * a + (b.toNat - 48)) 0 = n
  digit : ∀ b ∈ t, 48 ≤ b.toNat ∧ b.toNat ≤ 57
  first : t.length = 1 ∨ ∃ b rest, t = b :: rest ∧ b ≠ 48

theorem swap_get {l : List UInt8} {i : Nat} (hi : i < l.length) (j : Nat) :
    (swap l i)[j]? = if j = i ∨ j = l.length - i - 1 then l[l.length - 1 - j]? else l[j]? := by
  unfold swap
  rw [List.getElem?_set, List.getElem?_set, List.length_set]
  have g : ∀ k, k < l.length → some (l.getD k 0) = l[k]? := by
    intro k hk
    rw [List.getD_eq_getElem?_getD, List.getElem?_eq_getElem hk, Option.getD_some]
  by_cases h1 : l.length - i - 1 = j
  · rw [if_pos h1, if_pos (by omega), if_pos (.inr h1.symm), g i hi]
    congr 1
    omega
  · rw [if_neg h1]
    by_cases h2 : i = j
    · rw [if_pos h2, if_pos hi, if_pos (.inl h2.symm), g _ (by omega)]
      congr 1
      omega
    · rw [if_neg h2, if_neg (by omega)]

theorem swap_length (l : List UInt8) (i : Nat) : (swap l i).length = l.length := by
  unfold swap
  rw [List.length_set, List.length_set]

theorem swapped (l : List UInt8) : ∀ k, k ≤ l.length / 2 → ((List.range k).foldl swap l).length = l.length ∧
    ∀ j, ((List.range k).foldl swap l)[j]? =
      if j < l.length ∧ (j < k ∨ l.length - k ≤ j) then l[l.length - 1 - j]? else l[j]? := by
  intro k
  induction k with
  | zero =>
    intro _
    refine ⟨rfl, fun j => ?_⟩
    rw [if_neg (by omega)]
    rfl
  | succ k ih =>
    intro hk
    obtain ⟨h1, h2⟩ := ih (by omega)
    rw [List.range_succ, List.foldl_append, List.foldl_cons, List.foldl_nil]
    refine ⟨by rw [swap_length, h1], fun j => ?_⟩
    rw [swap_get (by omega), h1]
    by_cases hj : j = k ∨ j = l.length - k - 1
    · rw [if_pos hj, if_pos (by omega), h2, if_neg (by omega)]
    · rw [if_neg hj, h2]
      by_cases hc : j < l.length ∧ (j < k ∨ l.length - k ≤ j)
      · rw [if_pos hc, if_pos (by omega)]
      · rw [if_neg hc, if_neg (by omega)]

theorem swaps_reverse (l : List UInt8) : swaps l = l.reverse := by
  apply List.ext_getElem?
  intro j
  unfold swaps
  rw [(swapped l _ (Nat.le_refl _)).2 j]
  by_cases hj : j < l.length
  · rw [List.getElem?_reverse hj]
    by_cases hc : j < l.length ∧ (j < l.length / 2 ∨ l.length - l.length / 2 ≤ j)
    · rw [if_pos hc]
    · rw [if_neg hc]
      congr 1
      omega
  · rw [if_neg (by omega), List.getElem?_eq_none (by omega), List.getElem?_eq_none (by rw [List.length_reverse]; omega)]

theorem digit_byte {d : Nat} (h : d < 10) : (UInt8.ofNat (48 + d)).toNat = 48 + d := by
  rw [UInt8.toNat_ofNat', Nat.mod_eq_of_lt (by omega)]

theorem rawDigits_pos {n : Nat} (h : n ≠ 0) : rawDigits n = UInt8.ofNat (48 + n % 10) :: rawDigits (n / 10) := by
  rw [rawDigits, dif_neg h]

theorem rawDigits_zero : rawDigits 0 = [] := by rw [rawDigits, dif_pos rfl]

theorem rawDigits_spec : ∀ n, n ≠ 0 → Decimal (rawDigits n).reverse n := by
  intro n
  induction n using Nat.strongRecOn with
  | _ n ih =>
    intro h
    rw [rawDigits_pos h, List.reverse_cons]
    have hd := digit_byte (d := n % 10) (Nat.mod_lt _ (by omega))
    by_cases h0 : n / 10 = 0
    · rw [h0, rawDigits_zero]
      refine ⟨?_, ?_, .inl rfl⟩
      · simp only [List.reverse_nil, List.nil_append, List.foldl_cons, List.foldl_nil, hd]
        omega
      · intro b hb
        simp only [List.reverse_nil, List.nil_append, List.mem_singleton] at hb
        rw [hb, hd]
        omega
    · obtain ⟨g1, g2, g3⟩ := ih (n / 10) (by omega) h0
      refine ⟨?_, ?_, .inr ?_⟩
      · rw [List.foldl_append, g1]
        simp only [List.foldl_cons, List.foldl_nil, hd]
        omega
      · intro b hb
        rcases List.mem_append.1 hb with hb | hb
        · exact g2 b hb
        · rw [List.mem_singleton.1 hb, hd]
          omega
      · rcases g3 with g3 | ⟨b, rest, e, g3⟩
        · obtain ⟨b, e⟩ := List.length_eq_one_iff.1 g3
          rw [e] at g1 g2 ⊢
          refine ⟨b, _, rfl, ?_⟩
          rintro rfl
          simp only [List.foldl_cons, List.foldl_nil] at g1
          exact h0 g1.symm
        · exact ⟨b, rest ++ _, by rw [e]; rfl, g3⟩

/-- **C95.**  `custom_atoi` writes the number in decimal digits. -/
theorem atoi_spec (n : Nat) : Decimal (atoi n) n := by
  unfold atoi
  by_cases h : n = 0
  · rw [if_pos h, h]
    exact ⟨rfl, by decide, .inl rfl⟩
  · rw [if_neg h, swaps_reverse]
    exact rawDigits_spec n h

theorem rawDigits_length : ∀ k n, n < 10 ^ k → (rawDigits n).length ≤ k := by
  intro k
  induction k with
  | zero => intro n h; rw [show n = 0 by omega, rawDigits_zero]; exact Nat.le_refl _
  | succ k ih =>
    intro n h
    by_cases h0 : n = 0
    · rw [h0, rawDigits_zero]; exact Nat.zero_le _
    · rw [rawDigits_pos h0, List.length_cons]
      have := ih (n / 10) (by rw [Nat.pow_succ] at h; omega)
      omega

/-- **C95.**  With its zero byte the text needs 21 bytes of the 512 the program has for it. -/
theorem atoi_length {n : Nat} (h : n < 2 ^ 64) : (atoi n).length ≤ 20 := by
  unfold atoi
  by_cases h0 : n = 0
  · rw [if_pos h0]; decide
  · rw [if_neg h0, swaps_reverse, List.length_reverse]
    exact rawDigits_length 20 n (Nat.lt_trans h (by decide))

example : atoi 120345 = [49, 50, 48, 51, 52, 53] := by decide +kernel
example : atoi 0 = [48] := by decide +kernel

/-! ## The percentage -/

/-- Ten thousandths of a percent, rounded to the nearest (half up). -/
def exactly (len size : Nat) : Nat := (size * 1000000 + len / 2) / len

/-- Ten thousandths of a percent, as printed: the two numbers the program works out. -/
def printed (len size : Nat) : Nat :=
  (size * 100 % 2 ^ 64 / len) * 10000 + (size * 1000000 % 2 ^ 64 + len / 2) % 2 ^ 64 / len % 10000

theorem carry {a len : Nat} (hl : 0 < len) :
    (a % (len * 10000) + len / 2 < len * 10000 → a / (len * 10000) * 10000 + (a + len / 2) / len % 10000 = (a + len / 2) / len) ∧
    (len * 10000 ≤ a % (len * 10000) + len / 2 →
      a / (len * 10000) * 10000 + (a + len / 2) / len % 10000 + 10000 = (a + len / 2) / len) := by
  have e2 : (a + len / 2) / len / 10000 = (a + len / 2) / (len * 10000) := Nat.div_div_eq_div_mul ..
  have e3 := Nat.div_add_mod ((a + len / 2) / len) 10000
  have e4 := Nat.div_add_mod a (len * 10000)
  have hm := Nat.mod_lt a (show 0 < len * 10000 by omega)
  have e5 : (a + len / 2) / (len * 10000) = a / (len * 10000) + (a % (len * 10000) + len / 2) / (len * 10000) := by
    conv_lhs => rw [← e4, Nat.add_assoc, Nat.mul_add_div (by omega)]
  constructor
  · intro hr
    rw [Nat.div_eq_of_lt hr] at e5
    omega
  · intro hr
    rw [show (a % (len * 10000) + len / 2) / (len * 10000) = 1 from Nat.div_eq_of_lt_le (by omega) (by omega)] at e5
    omega

/-- **C95.**  What is printed, while the products fit: the right percentage, but one percent too little exactly when rounding
carries into the percents. -/
theorem printed_spec {len size : Nat} (hl : 0 < len) (hf : size * 1000000 + len / 2 < 2 ^ 64) :
    (size * 1000000 % (len * 10000) + len / 2 < len * 10000 → printed len size = exactly len size) ∧
    (len * 10000 ≤ size * 1000000 % (len * 10000) + len / 2 → printed len size + 10000 = exactly len size) := by
  have e1 : size * 100 / len = size * 1000000 / (len * 10000) := by
    rw [show size * 1000000 = size * 100 * 10000 by rw [Nat.mul_assoc], Nat.mul_div_mul_right _ _ (by decide)]
  have l2 : size * 1000000 < 2 ^ 64 := Nat.lt_of_le_of_lt (Nat.le_add_right _ _) hf
  have l1 : size * 100 < 2 ^ 64 := Nat.lt_of_le_of_lt (Nat.mul_le_mul_left _ (by decide)) l2
  unfold printed exactly
  generalize 2 ^ 64 = N at *
  rw [Nat.mod_eq_of_lt l1, Nat.mod_eq_of_lt l2, Nat.mod_eq_of_lt hf, e1]
  exact carry hl

/-- A third is printed as `33.3333%`, two thirds as `66.6667%`. -/
example : report 3 1 = [[51], [49], [51, 51], [51, 51, 51, 51]] ∧ report 3 2 = [[51], [50], [54, 54], [54, 54, 54, 55]] ∧
    2 * 1000000 + 3 / 2 < 2 ^ 64 ∧ 2 * 1000000 % (3 * 10000) + 3 / 2 < 3 * 10000 := by decide +kernel

/-- **C95, finding.**  A file of 9999996 bytes for 10000000 bytes of data has 99.99996 percent; `99.0000%` is printed. -/
theorem report_wrong : report 10000000 9999996 =
      [[49, 48, 48, 48, 48, 48, 48, 48], [57, 57, 57, 57, 57, 57, 54], [57, 57], [48, 48, 48, 48]] ∧
    exactly 10000000 9999996 = 1000000 ∧ printed 10000000 9999996 = 990000 := by decide +kernel

/-- **C95.**  The four numbers of the line: the length, the size, and a percentage with four decimals. -/
theorem report_spec (len size : Nat) : ∃ a b c d, report len size = [a, b, c, d] ∧ Decimal a len ∧ Decimal b size ∧
    d.length = 4 ∧ (∀ x ∈ d, 48 ≤ x.toNat ∧ x.toNat ≤ 57) ∧ ∃ p q, Decimal c p ∧
      d.foldl (fun a b => 10 * a + (b.toNat - 48)) 0 = q ∧ printed len size = p * 10000 + q := by
  have h : ∀ q, q < 10000 → ((atoi (q + 10000)).drop 1).length = 4 ∧
      ((atoi (q + 10000)).drop 1).foldl (fun a b => 10 * a + (b.toNat - 48)) 0 = q := by
    intro q hq
    have e : atoi (q + 10000) = [49, UInt8.ofNat (48 + q / 1000), UInt8.ofNat (48 + q / 100 % 10), UInt8.ofNat (48 + q / 10 % 10),
        UInt8.ofNat (48 + q % 10)] := by
      unfold atoi
      rw [if_neg (by omega), swaps_reverse, rawDigits_pos (by omega), rawDigits_pos (by omega), rawDigits_pos (by omega), rawDigits_pos (by omega),
        rawDigits_pos (by omega), show (q + 10000) / 10 / 10 / 10 / 10 / 10 = 0 by omega, rawDigits_zero,
        show (q + 10000) / 10 / 10 / 10 / 10 % 10 = 1 by omega, show (q + 10000) / 10 / 10 / 10 % 10 = q / 1000 by omega,
        show (q + 10000) / 10 / 10 % 10 = q / 100 % 10 by omega, show (q + 10000) / 10 % 10 = q / 10 % 10 by omega,
        show (q + 10000) % 10 = q % 10 by omega]
      rfl
    rw [e]
    refine ⟨rfl, ?_⟩
    simp only [List.drop_succ_cons, List.drop_zero, List.foldl_cons, List.foldl_nil, digit_byte (show q / 1000 < 10 by omega),
      digit_byte (show q / 100 % 10 < 10 by omega), digit_byte (show q / 10 % 10 < 10 by omega), digit_byte (show q % 10 < 10 by omega)]
    omega
  have hq := h ((size * 1000000 % 2 ^ 64 + len / 2) % 2 ^ 64 / len % 10000) (Nat.mod_lt _ (by omega))
  exact ⟨_, _, _, _, rfl, atoi_spec _, atoi_spec _, hq.1, fun x hx => (atoi_spec _).digit x (List.mem_of_mem_drop hx), _, _, atoi_spec _, hq.2, rfl⟩

end Divans.CVec
