import Verif.RawCmdProps
import Mathlib.Tactic.Ring
import Mathlib.Tactic.Tauto

/-!
# Which lengths of raw input are sent without loss

The assembler sends its ring of `L` bytes off whenever it is full.  The first time that is after `L` bytes; each time one byte of the
ring less is used, because a full ring is told from an empty one by leaving a byte free.  So the place where the next bytes go moves
towards the beginning of the ring, and the call that comes next must bring at least as many bytes as there are from there to the end.
-/

namespace Divans.RawCmd

/-- How many bytes the assembler needs in one piece when it has taken `t` bytes, not to send old ones again: as a rule none; when the
last two digits of `t`, in base `L`, add up to `L`, the upper one of them. -/
def owed (L t : Nat) : Nat := if t % L + t / L % L = L then t / L % L else 0

/-- The lengths that can be sent without loss: the last two digits in base `L` add up to at most `L`. -/
def Fair (L n : Nat) : Prop := n % L + n / L % L ≤ L

instance (L n : Nat) : Decidable (Fair L n) := inferInstanceAs (Decidable (_ ≤ _))

/-- Every length up to three rings less two bytes is fair. -/
theorem fair_three {L n : Nat} (hL : 2 ≤ L) (h : n ≤ 3 * L - 2) : Fair L n := by
  unfold Fair
  have hb := Nat.div_add_mod n L
  have hr := Nat.mod_lt n (show 0 < L by omega)
  have hm : n / L % L ≤ n / L := Nat.mod_le _ _
  have hq : n / L < 3 := by rw [Nat.div_lt_iff_lt_mul (by omega)]; omega
  have hs : n / L ≤ 1 ∨ n / L = 2 := by omega
  rcases hs with hs | hs
  · omega
  · rw [hs] at hb
    omega

/-- The state of the assembler after `t` bytes. -/
def At (L t : Nat) (s : St) : Prop :=
  s.ring.length = L ∧ ∃ m,
    (s.out = 0 ∧ s.dec < L ∧ t = m * (L * L) + s.dec) ∨
    (∃ k, k < L ∧ s.out + k = L ∧ t + k = m * (L * L) + (k + 1) * L ∧ s.dec = s.out) ∨
    (∃ k, k + 1 < L ∧ s.out + k = L ∧ s.dec + 1 < s.out ∧ t = m * (L * L) + (k + 1) * L + s.dec)

theorem digits {L a b m : Nat} (hb : b < L) (ha : a < L) :
    (m * (L * L) + a * L + b) % L = b ∧ (m * (L * L) + a * L + b) / L % L = a := by
  have h : m * (L * L) + a * L + b = L * (m * L + a) + b := by ring_nf
  have hL : 0 < L := by omega
  constructor
  · rw [h, Nat.mul_add_mod, Nat.mod_eq_of_lt hb]
  · rw [h, Nat.mul_add_div hL, Nat.div_eq_of_lt hb, Nat.add_zero, Nat.mul_comm m L, Nat.mul_add_mod, Nat.mod_eq_of_lt ha]

theorem deficit_stream (s : St) (inp : List UInt8) (room : Nat) :
    deficit s (.stream inp room) = if s.out ≤ s.dec ∧ s.out ≠ 0 then s.ring.length - s.dec - inp.length else 0 := rfl

/-- What is owed, and that a state that is reached without loss has a fair length. -/
theorem at_owed {L t : Nat} {s : St} (h2 : 2 ≤ L) (h : At L t s) (inp : List UInt8) (room : Nat) :
    deficit s (.stream inp room) = owed L t - inp.length ∧ Fair L t := by
  obtain ⟨hl, m, h⟩ := h
  rw [deficit_stream]
  unfold owed Fair
  rcases h with ⟨h1, h3, h4⟩ | ⟨k, h1, h3, h4, h5⟩ | ⟨k, h1, h3, h4, h5⟩
  · obtain ⟨d1, d2⟩ := digits (L := L) (a := 0) (b := s.dec) (m := m) h3 (by omega)
    rw [Nat.zero_mul, Nat.add_zero, ← h4] at d1 d2
    rw [if_neg (by omega), d1, d2, if_neg (by omega)]
    omega
  · rcases Nat.eq_zero_or_pos k with hk | hk
    · subst hk
      obtain ⟨d1, d2⟩ := digits (L := L) (a := 1) (b := 0) (m := m) (by omega) (by omega)
      have : t = m * (L * L) + 1 * L + 0 := by simp only [Nat.zero_add] at h4; omega
      rw [← this] at d1 d2
      rw [d1, d2, if_neg (by omega : ¬ (0 + 1 = L))]
      constructor
      · split <;> omega
      · omega
    · obtain ⟨d1, d2⟩ := digits (L := L) (a := k) (b := L - k) (m := m) (by omega) h1
      have : t = m * (L * L) + k * L + (L - k) := by rw [Nat.succ_mul] at h4; omega
      rw [← this] at d1 d2
      rw [d1, d2, if_pos (by omega), if_pos (by omega)]
      omega
  · obtain ⟨d1, d2⟩ := digits (L := L) (a := k + 1) (b := s.dec) (m := m) (by omega) h1
    rw [← h5] at d1 d2
    rw [if_neg (by omega), d1, d2, if_neg (by omega)]
    omega

/-- Flushing a full ring, with room for it. -/
theorem flush_dec {s s' : St} {cs : List Cmd} {r : Res} {room : Nat} (hi : Inv s) (hr : 3 ≤ room)
    (e : flush s room = some (s', cs, r)) :
    s'.ring = s.ring ∧ s'.dec = (if s.dec < s.out ∧ s.dec = s.ring.length then 0 else s.dec) ∧ s'.out = s'.dec := by
  have tail : ∀ (s : St) (cs0 : List Cmd) (room : Nat), Inv s → s.out ≤ s.dec → 1 ≤ room → ∀ s' cs r,
      flushTail s cs0 room = some (s', cs, r) → s'.ring = s.ring ∧ s'.dec = s.dec ∧ s'.out = s'.dec := by
    intro s cs0 room hi ho hr s' cs r e
    unfold flushTail at e
    by_cases h1 : s.dec = s.out
    · rw [if_pos h1] at e; cases e; exact ⟨rfl, rfl, h1.symm⟩
    · rw [if_neg h1, if_neg (by omega), if_neg (by omega)] at e
      rw [piece_spec (by have := hi.1; omega)] at e
      simp only at e
      rw [if_pos hi.1] at e
      cases e
      exact ⟨rfl, rfl, rfl⟩
  have wrap : ∀ (s : St) (cs0 : List Cmd) (room : Nat), Inv s → 2 ≤ room → ∀ s' cs r,
      flushWrap s cs0 room = some (s', cs, r) →
      s'.ring = s.ring ∧ s'.dec = (if s.dec < s.out ∧ s.dec = s.ring.length then 0 else s.dec) ∧ s'.out = s'.dec := by
    intro s cs0 room hi hr s' cs r e
    unfold flushWrap at e
    by_cases h1 : s.dec < s.out
    · have h2 := hi.2
      rw [if_pos h1, if_neg (by omega)] at e
      simp only at e
      have hd : ¬ s.dec = s.ring.length := by omega
      rw [if_neg hd] at e
      rw [if_neg (by omega : ¬ (s.dec < s.out ∧ s.dec = s.ring.length))]
      by_cases h3 : s.ring.length - s.out = 0
      · rw [if_neg (by simpa using h3)] at e
        exact tail ⟨s.ring, s.dec, 0, s.hdr⟩ _ _ ⟨hi.1, Nat.zero_le _⟩ (Nat.zero_le _) (by omega) _ _ _ e
      · rw [if_pos h3, if_neg (by omega), piece_spec (by omega)] at e
        exact tail ⟨s.ring, s.dec, 0, s.hdr⟩ _ _ ⟨hi.1, Nat.zero_le _⟩ (Nat.zero_le _) (by omega) _ _ _ e
    · rw [if_neg h1] at e
      rw [if_neg (by omega : ¬ (s.dec < s.out ∧ s.dec = s.ring.length))]
      exact tail _ _ _ hi (by omega) (by omega) _ _ _ e
  unfold flush at e
  rw [if_neg (by omega)] at e
  by_cases hh : s.hdr = false
  · rw [if_pos hh, if_neg (by omega)] at e
    exact wrap { s with hdr := true } _ _ hi (by omega) _ _ _ e
  · rw [if_neg hh] at e
    exact wrap s _ _ hi (by omega) _ _ _ e

/-- The indices after a call of `stream`. -/
theorem stream_moves {s s' : St} {inp : List UInt8} {room n : Nat} {cs : List Cmd} {r : Res} (hi : Inv s) (hr : 3 ≤ room)
    (e : stream s inp room = some (s', n, cs, r)) :
    ∃ d, n ≤ inp.length ∧ s'.ring.length = s.ring.length ∧
      (s.out ≤ s.dec ∧ s.out = 0 ∧ n = min (s.ring.length - s.dec) inp.length ∧ d = s.dec + n ∨
       s.out ≤ s.dec ∧ s.out ≠ 0 ∧ (∃ n1, n1 = min (s.ring.length - s.dec) inp.length ∧ d = min (s.out - 1) (inp.length - n1) ∧
        n = n1 + d) ∨
       s.dec < s.out ∧ n = min (s.out - 1 - s.dec) inp.length ∧ d = s.dec + n) ∧
      (if d = s.ring.length ∨ d + 1 = s.out then s'.dec = d ∧ s'.out = d else s'.dec = d ∧ s'.out = s.out) := by
  obtain ⟨ring, dec, out, hdr⟩ := s
  have hi' := hi
  obtain ⟨i1, i2⟩ := hi
  simp only at i1 i2 ⊢
  -- the end
  have fin : ∀ (t : St) (left : Nat), Inv t → t.ring.length = ring.length → t.out = out → ¬ t.dec = t.ring.length ∨ ¬ t.dec < t.out →
      ∀ s' cs r, finish t left room = some (s', cs, r) →
      s'.ring.length = ring.length ∧
      (if t.dec = ring.length ∨ t.dec + 1 = out then s'.dec = t.dec ∧ s'.out = t.dec else s'.dec = t.dec ∧ s'.out = out) := by
    intro t left it tl tq hn s' cs r e
    have hfull := full_iff t
    rw [tl, tq] at hfull
    unfold finish at e
    by_cases hf : full t = true
    · rw [if_pos ⟨by omega, hf⟩] at e
      rw [if_pos (hfull.1 hf)]
      cases hq : flush t room with
      | none => rw [hq] at e; cases e
      | some x =>
        obtain ⟨x1, x2, x3⟩ := x
        rw [hq] at e
        obtain ⟨f1, f2, f3⟩ := flush_dec it hr hq
        rw [if_neg (by omega)] at f2
        have : s' = x1 := by
          cases x3 <;> simp only [Option.some.injEq, Prod.mk.injEq] at e <;> exact e.1.symm
        subst this
        exact ⟨by rw [f1, tl], f2, by rw [f3, f2]⟩
    · rw [if_neg (by tauto), if_neg (by omega)] at e
      rw [if_neg (fun h => hf (hfull.2 h))]
      by_cases hl : left = 0
      · rw [if_pos hl] at e
        cases e
        exact ⟨tl, rfl, tq⟩
      · rw [if_neg hl] at e; cases e
  unfold stream at e
  obtain ⟨s1, n1, e1, j1, j2, j3, j4, -, -, -, j5, -⟩ := fillEnd_spec (s := ⟨ring, dec, out, hdr⟩) hi' inp
  obtain ⟨s2, n2, e2, k1, k2, k3, k4, -, -, -, -⟩ := fillStart_spec j1 (inp.drop n1) j5
  rw [e1] at e
  simp only at e
  rw [e2] at e
  simp only at e
  simp only at j3 j4
  cases e3 : finish s2 (inp.length - (n1 + n2)) room with
  | none => rw [e3] at e; cases e
  | some x =>
    obtain ⟨x1, x2, x3⟩ := x
    rw [e3] at e
    simp only [Option.some.injEq, Prod.mk.injEq] at e
    obtain ⟨rfl, rfl, rfl, rfl⟩ := e
    rw [List.length_drop] at k2
    have hd1 : (out ≤ dec → n1 = min (ring.length - dec) inp.length ∧ s1.dec = if out ≠ 0 then 0 else dec + n1) ∧
        (¬ out ≤ dec → n1 = 0 ∧ s1.dec = dec) := by
      unfold fillEnd at e1
      simp only [ge_iff_le] at e1
      constructor
      · intro h
        rw [if_pos h, if_neg (by omega)] at e1
        simp only [Option.some.injEq, Prod.mk.injEq] at e1
        obtain ⟨q1, rfl⟩ := e1
        rw [← q1]
        exact ⟨rfl, rfl⟩
      · intro h
        rw [if_neg h] at e1
        simp only [Option.some.injEq, Prod.mk.injEq] at e1
        obtain ⟨q1, rfl⟩ := e1
        rw [← q1]
        exact ⟨rfl, rfl⟩
    have hd2 : (s1.dec < s1.out → n2 = min (s1.out - 1 - s1.dec) (inp.length - n1) ∧ s2.dec = s1.dec + n2) ∧
        (¬ s1.dec < s1.out → n2 = 0 ∧ s2.dec = s1.dec) := by
      unfold fillStart at e2
      constructor
      · intro h
        rw [if_pos h] at e2
        simp only [List.length_drop] at e2
        split at e2
        · simp only [Option.some.injEq, Prod.mk.injEq] at e2
          obtain ⟨q1, rfl⟩ := e2
          rw [← q1]
          exact ⟨rfl, rfl⟩
        · cases e2
      · intro h
        rw [if_neg h] at e2
        simp only [Option.some.injEq, Prod.mk.injEq] at e2
        obtain ⟨q1, rfl⟩ := e2
        rw [← q1]
        exact ⟨rfl, rfl⟩
    have hb : ¬ s2.dec = s2.ring.length ∨ ¬ s2.dec < s2.out := by
      have := k1.2
      omega
    obtain ⟨g1, g2⟩ := fin s2 _ k1 (by omega) (by omega) hb _ _ _ e3
    refine ⟨s2.dec, by omega, g1, ?_, g2⟩
    by_cases h1 : out ≤ dec
    · obtain ⟨p1, p2⟩ := hd1.1 h1
      by_cases h0 : out = 0
      · rw [if_neg (by simpa using h0)] at p2
        obtain ⟨p3, p4⟩ := hd2.2 (by omega)
        left
        omega
      · rw [if_pos h0] at p2
        obtain ⟨p3, p4⟩ := hd2.1 (by omega)
        right; left
        refine ⟨h1, h0, n1, p1, ?_, ?_⟩ <;> omega
    · obtain ⟨p1, p2⟩ := hd1.2 h1
      obtain ⟨p3, p4⟩ := hd2.1 (by omega)
      right; right
      subst p1
      omega

/-- Where a call of `stream` leaves the assembler: bytes that will be sent again count like input. -/
theorem at_stream {L t : Nat} {s s' : St} {inp : List UInt8} {room n : Nat} {cs : List Cmd} {r : Res} (h2 : 2 ≤ L) (hi : Inv s)
    (h : At L t s) (hr : 3 ≤ room) (e : stream s inp room = some (s', n, cs, r)) :
    At L (t + n + deficit s (.stream inp room)) s' := by
  obtain ⟨d, hn, hl, hm, hd⟩ := stream_moves hi hr e
  obtain ⟨rl, m, h⟩ := h
  refine ⟨by omega, ?_⟩
  rw [rl] at hm hd
  rw [deficit_stream]
  rcases h with ⟨h1, h3, h4⟩ | ⟨k, h1, h3, h4, h5⟩ | ⟨k, h1, h3, h4, h5⟩
  · have hm : n = min (L - s.dec) inp.length ∧ d = s.dec + n := by
      rcases hm with hm | ⟨-, q, -⟩ | hm
      · exact hm.2.2
      · exact absurd h1 q
      · omega
    rw [if_neg (by omega)]
    by_cases hf : d = L
    · rw [if_pos (.inl hf)] at hd
      refine ⟨m, .inr (.inl ⟨0, by omega, by omega, ?_, by omega⟩)⟩
      rw [Nat.zero_add, Nat.one_mul]
      omega
    · rw [if_neg (by omega)] at hd
      exact ⟨m, .inl ⟨by omega, by omega, by omega⟩⟩
  · rw [if_pos (by omega)]
    rcases hm with hm | ⟨-, -, n1, q1, q2, q3⟩ | hm
    · omega
    · by_cases hf : d + 1 = s.out
      · rw [if_pos (.inr hf)] at hd
        have hdef : s.ring.length - s.dec - inp.length + n1 = k := by omega
        have hs : (k + 1 + 1) * L = (k + 1) * L + L := Nat.succ_mul _ _
        by_cases hk : k + 1 = L
        · refine ⟨m + 1, .inl ⟨by omega, by omega, ?_⟩⟩
          have hh : (m + 1) * (L * L) = m * (L * L) + L * L := Nat.succ_mul _ _
          have hh2 : (k + 1) * L = L * L := by rw [hk]
          omega
        · exact ⟨m, .inr (.inl ⟨k + 1, by omega, by omega, by omega, by omega⟩)⟩
      · rw [if_neg (by omega)] at hd
        have hdef : s.ring.length - s.dec - inp.length + n1 = k := by omega
        exact ⟨m, .inr (.inr ⟨k, by omega, by omega, by omega, by omega⟩)⟩
    · omega
  · have hm : n = min (s.out - 1 - s.dec) inp.length ∧ d = s.dec + n := by
      rcases hm with hm | ⟨q, -⟩ | hm
      · omega
      · omega
      · exact hm.2
    rw [if_neg (by omega)]
    by_cases hf : d + 1 = s.out
    · rw [if_pos (.inr hf)] at hd
      have hs : (k + 1 + 1) * L = (k + 1) * L + L := Nat.succ_mul _ _
      exact ⟨m, .inr (.inl ⟨k + 1, by omega, by omega, by omega, by omega⟩)⟩
    · rw [if_neg (by omega)] at hd
      exact ⟨m, .inr (.inr ⟨k, by omega, by omega, by omega, by omega⟩)⟩

/-- Only `stream` calls with room for all the commands of a call. -/
def Roomy (ops : List Op) : Prop := ∀ op ∈ ops, ∃ inp room, 3 ≤ room ∧ op = .stream inp room

theorem Roomy.streams {ops : List Op} (h : Roomy ops) : OnlyStreams ops := fun op ho => by
  obtain ⟨a, b, -, e⟩ := h op ho
  exact ⟨a, b, e⟩

theorem at_new {ring : List UInt8} (h : 2 ≤ ring.length) : At ring.length 0 (new ring) :=
  ⟨rfl, 0, .inl ⟨rfl, by simp only [new]; omega, by simp [new]⟩⟩

theorem at_run {L : Nat} (h2 : 2 ≤ L) : ∀ (ops : List Op) {t : Nat} {s s' : St} {i : List UInt8} {cs : List Cmd}, Roomy ops →
    Inv s → At L t s → run s ops = some (s', i, cs) → At L (t + i.length + deficits s ops) s' ∧ Inv s' := by
  intro ops
  induction ops with
  | nil =>
    intro t s s' i cs _ hi h e
    cases e
    exact ⟨by simpa [deficits] using h, hi⟩
  | cons op ops ih =>
    intro t s s' i cs ho hi h e
    obtain ⟨inp, room, hr, rfl⟩ := ho op (by simp)
    obtain ⟨s1, n, c1, r, e1, i1, l1, -⟩ := stream_spec hi inp room
    have hst : step s (.stream inp room) = some (s1, inp.take n, c1) := by rw [step, e1]; rfl
    have h1 := at_stream h2 hi h hr e1
    rw [run, hst] at e
    simp only [Option.map_eq_some_iff] at e
    obtain ⟨⟨y1, y2, y3⟩, e2, he⟩ := e
    cases he
    obtain ⟨h3, h4⟩ := ih (fun x hx => ho x (by simp [hx])) i1 h1 e2
    refine ⟨?_, h4⟩
    have hd : deficits s (.stream inp room :: ops) = deficit s (.stream inp room) + deficits s1 ops := by
      simp only [deficits, hst]
    rw [hd, List.length_append, List.length_take, Nat.min_eq_left l1]
    have : t + (n + y2.length) + (deficit s (.stream inp room) + deficits s1 ops) =
        t + n + deficit s (.stream inp room) + y2.length + deficits s1 ops := by omega
    rw [this]
    exact h3

theorem deficits_append {s s1 : St} : ∀ {ops : List Op} {i : List UInt8} {cs : List Cmd} (ops' : List Op),
    run s ops = some (s1, i, cs) → deficits s (ops ++ ops') = deficits s ops + deficits s1 ops' := by
  intro ops
  induction ops generalizing s with
  | nil => intro i cs ops' e; cases e; simp [deficits]
  | cons op ops ih =>
    intro i cs ops' e
    rw [run] at e
    cases hs : step s op with
    | none => rw [hs] at e; cases e
    | some x =>
      rw [hs] at e
      simp only [Option.map_eq_some_iff] at e
      obtain ⟨⟨y1, y2, y3⟩, e2, he⟩ := e
      cases he
      have := ih ops' e2
      simp only [List.cons_append, deficits, hs] at this ⊢
      omega

/-- What one call of `encode` does with the assembler: it offers its input, and what is left of it, until all is taken or it stops. -/
inductive Chain : St → List UInt8 → List Op → Nat → St → Prop where
  | nil {s : St} {inp : List UInt8} : Chain s inp [] 0 s
  | cons {s s1 s2 : St} {inp : List UInt8} {room n n2 : Nat} {cs : List Cmd} {r : Res} {ops : List Op} :
      stream s inp room = some (s1, n, cs, r) → 3 ≤ room → (ops ≠ [] → n < inp.length) → Chain s1 (inp.drop n) ops n2 s2 →
      Chain s inp (.stream inp room :: ops) (n + n2) s2

/-- A caller who has given `t` bytes and offers the next `len` in one piece gives enough. -/
def Ample (L t len : Nat) : Prop := ∀ t', t ≤ t' → t' < t + len ∨ t' = t → t' + owed L t' ≤ t + len

theorem chain_good {L : Nat} (h2 : 2 ≤ L) {s s' : St} {inp : List UInt8} {ops : List Op} {n : Nat} (h : Chain s inp ops n s') :
    ∀ {t : Nat}, Inv s → At L t s → Ample L t inp.length → deficits s ops = 0 ∧ At L (t + n) s' := by
  induction h with
  | nil => intro t _ h _; exact ⟨rfl, by simpa using h⟩
  | @cons s s1 s2 inp room n n2 cs r ops e hr hne hc ih =>
    intro t hi h ha
    obtain ⟨h1, h1'⟩ := at_owed h2 h inp room
    have h3 := ha t (Nat.le_refl _) (.inr rfl)
    have hz : deficit s (.stream inp room) = 0 := by omega
    have h4 := at_stream h2 hi h hr e
    rw [hz, Nat.add_zero] at h4
    obtain ⟨s1', n', c1, r', e1, i1, l1, -⟩ := stream_spec hi inp room
    rw [e] at e1
    cases e1
    have hst : step s (.stream inp room) = some (s1, inp.take n, cs) := by rw [step, e]; rfl
    have hd : deficits s (.stream inp room :: ops) = deficits s1 ops := by
      simp only [deficits, hst, hz]
      omega
    rw [hd, ← Nat.add_assoc]
    by_cases ho : ops = []
    · subst ho
      cases hc
      exact ⟨rfl, by simpa using h4⟩
    · have hlt := hne ho
      refine ih i1 h4 fun t' q1 q2 => ?_
      rw [List.length_drop] at q2 ⊢
      have := ha t' (by omega) (by omega)
      omega

/-- Bytes are sent twice only when all that was offered is taken, at a place where that is not enough. -/
theorem chain_few {L : Nat} (h2 : 2 ≤ L) {s s' : St} {inp : List UInt8} {ops : List Op} {n : Nat} (h : Chain s inp ops n s') :
    ∀ {t : Nat}, Inv s → At L t s → (t + n ≤ 2 * L - 2 ∨ inp ≠ [] ∧ t + n ≤ 3 * L - 2) → deficits s ops = 0 := by
  induction h with
  | nil => intro t _ h _; rfl
  | @cons s s1 s2 inp room n n2 cs r ops e hr hne hc ih =>
    intro t hi h ha
    obtain ⟨h1, h1'⟩ := at_owed h2 h inp room
    have h4 := at_stream h2 hi h hr e
    obtain ⟨d, hn, -, hm, -⟩ := stream_moves hi hr e
    have hz : deficit s (.stream inp room) = 0 := by
      by_contra hz
      have hni : n = inp.length := by
        rw [deficit_stream] at hz
        split at hz
        · rename_i hs
          rcases hm with hm | ⟨-, -, n1, g1, -, g3⟩ | hm
          · omega
          · omega
          · omega
        · exact absurd rfl hz
      have ho : inp.length < owed L t := by omega
      unfold owed at ho
      split at ho
      · rename_i he
        have hb := Nat.div_add_mod t L
        have hr := Nat.mod_lt t (show 0 < L by omega)
        have hq : t / L % L ≤ t / L := Nat.mod_le _ _
        rcases ha with ha | ⟨ha, ha'⟩
        · have : L * 1 ≤ L * (t / L) := Nat.mul_le_mul_left _ (by omega)
          by_cases h5 : t / L < 2
          · have : L * (t / L) = L := by rw [show t / L = 1 by omega, Nat.mul_one]
            omega
          · have : L * 2 ≤ L * (t / L) := Nat.mul_le_mul_left _ (by omega)
            omega
        · have hl : 0 < inp.length := List.length_pos_iff.2 ha
          by_cases h5 : t / L < 3
          · have : L * (t / L) = L * 2 := by rw [show t / L = 2 by omega]
            omega
          · have : L * 3 ≤ L * (t / L) := Nat.mul_le_mul_left _ (by omega)
            omega
      · omega
    rw [hz, Nat.add_zero] at h4
    obtain ⟨s1', n', c1, r', e1, i1, l1, -⟩ := stream_spec hi inp room
    rw [e] at e1
    cases e1
    have hst : step s (.stream inp room) = some (s1, inp.take n, cs) := by rw [step, e]; rfl
    have hd : deficits s (.stream inp room :: ops) = deficits s1 ops := by
      simp only [deficits, hst, hz]
      omega
    rw [hd]
    by_cases ho : ops = []
    · subst ho
      rfl
    · have hlt := hne ho
      refine ih i1 h4 ?_
      rcases ha with ha | ⟨-, ha⟩
      · exact .inl (by omega)
      · refine .inr ⟨fun h0 => ?_, by omega⟩
        have := congrArg List.length h0
        rw [List.length_drop, List.length_nil] at this
        omega

/-! ## Offers that give enough -/

/-- All of the data that is left, in one piece, if the length is fair. -/
theorem ample_rest {L n t : Nat} (hL : 2 ≤ L) (h : Fair L n) (ht : t < n) : Ample L t (n - t) := by
  intro t' h1 h3
  rw [show t + (n - t) = n by omega]
  have hlt : t' < n := by omega
  unfold owed
  split
  · rename_i he
    unfold Fair at h
    by_contra hc
    have hq : t' / L % L < L := Nat.mod_lt _ (by omega)
    have e1 : n / L = t' / L := by
      have hb := Nat.div_add_mod t' L
      have hr := Nat.mod_lt t' (show 0 < L by omega)
      apply Nat.div_eq_of_lt_le
      · rw [Nat.mul_comm]; omega
      · rw [Nat.succ_mul, Nat.mul_comm]; omega
    have e2 := Nat.div_add_mod n L
    have e3 := Nat.div_add_mod t' L
    rw [e1] at e2 h
    omega
  · omega

/-- Any piece that is not empty, as long as not more than three rings less two bytes are given. -/
theorem ample_three {L t len : Nat} (hL : 2 ≤ L) (hlen : 0 < len) (h : t + len ≤ 3 * L - 2) : Ample L t len := by
  intro t' h1 h3
  unfold owed
  split
  · rename_i he
    have hb := Nat.div_add_mod t' L
    have hr := Nat.mod_lt t' (show 0 < L by omega)
    have hq : t' / L < 3 := by
      rw [Nat.div_lt_iff_lt_mul (by omega)]; omega
    have hm : t' / L % L ≤ t' / L := Nat.mod_le _ _
    have hs : t' / L = 0 ∨ t' / L = 1 ∨ t' / L = 2 := by omega
    rcases hs with hs | hs | hs
    · rw [hs] at hm he ⊢; omega
    · rw [hs] at hm he ⊢
      rw [hs] at hb
      have : 1 % L ≤ 1 := Nat.mod_le _ _
      omega
    · rw [hs] at hm he ⊢
      rw [hs] at hb
      have : 2 % L ≤ 2 := Nat.mod_le _ _
      omega
  · omega

/-- Anything at all, as long as not more than two rings less two bytes are given. -/
theorem ample_two {L t len : Nat} (hL : 2 ≤ L) (h : t + len ≤ 2 * L - 2) : Ample L t len := by
  intro t' h1 h3
  unfold owed
  split
  · rename_i he
    have hb := Nat.div_add_mod t' L
    have hr := Nat.mod_lt t' (show 0 < L by omega)
    have hq : t' / L < 2 := by
      rw [Nat.div_lt_iff_lt_mul (by omega)]; omega
    have hm : t' / L % L ≤ t' / L := Nat.mod_le _ _
    have hs : t' / L = 0 ∨ t' / L = 1 := by omega
    rcases hs with hs | hs
    · rw [hs] at hm he ⊢; omega
    · rw [hs] at hm he ⊢
      rw [hs] at hb
      have : 1 % L ≤ 1 := Nat.mod_le _ _
      omega
  · omega

/-- Pieces of `p` bytes and a last shorter one, each offered again as far as it was not taken: enough for a fair length, if `p` is a
multiple of the ring, or the ring is a multiple of `p` and there are not more than `p` rings full. -/
theorem ample_blocks {L p n t : Nat} (hL : 2 ≤ L) (hp : 0 < p) (h : Fair L n) (ht : t < n)
    (hd : L ∣ p ∨ p ∣ L ∧ n < (p + 1) * L) : Ample L t (min n ((t / p + 1) * p) - t) := by
  by_cases hmin : n ≤ (t / p + 1) * p
  · rw [Nat.min_eq_left hmin]
    exact ample_rest hL h ht
  · rw [Nat.min_eq_right (by omega)]
    have htp : t < (t / p + 1) * p := by
      have := Nat.div_add_mod t p
      have := Nat.mod_lt t hp
      rw [Nat.succ_mul, Nat.mul_comm]
      omega
    intro t' h1 h3
    rw [show t + ((t / p + 1) * p - t) = (t / p + 1) * p by omega]
    have hlt : t' < (t / p + 1) * p := by omega
    unfold owed
    split
    · rename_i he
      have hb := Nat.div_add_mod t' L
      have hr := Nat.mod_lt t' (show 0 < L by omega)
      -- the next multiple of the ring
      have hM : t' + t' / L % L = (t' / L + 1) * L := by
        rw [Nat.succ_mul, Nat.mul_comm (t' / L) L]; omega
      rw [hM]
      rcases hd with ⟨c, rfl⟩ | ⟨⟨c, hc⟩, hn⟩
      · -- boundaries are multiples of the ring
        have : (t / (L * c) + 1) * (L * c) = ((t / (L * c) + 1) * c) * L := by ring
        rw [this] at hlt ⊢
        apply Nat.mul_le_mul_right
        have : t' / L < (t / (L * c) + 1) * c := by
          rw [Nat.div_lt_iff_lt_mul (by omega)]; exact hlt
        omega
      · -- the ring is a multiple of the pieces
        have hk : t' / L ≤ p := by
          have : t' / L < p + 1 := by
            rw [Nat.div_lt_iff_lt_mul (by omega)]; omega
          omega
        have hk2 : t' / L % L ≤ p := Nat.le_trans (Nat.mod_le _ _) hk
        have e1 : (t' / L + 1) * L = ((t' / L + 1) * c) * p := by rw [hc]; ring
        rw [e1] at hM ⊢
        apply Nat.mul_le_mul_right
        by_contra hcon
        have h5 : (t / p + 1 + 1) * p ≤ ((t' / L + 1) * c) * p := Nat.mul_le_mul_right _ (by omega)
        rw [Nat.succ_mul] at h5
        omega
    · omega

end Divans.RawCmd
