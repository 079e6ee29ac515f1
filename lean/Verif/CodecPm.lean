import Verif.CodecSmall

/-!
# Prediction mode commands

The nibbles of a prediction mode command carry mode, mixing choice, speeds, both context maps and the
mixing values.
-/

namespace Divans.Codec
open Divans.Num Divans.Cdf

/-! ## What arrives -/

/-- The first `m.length` entries of a buffer are replaced. -/
def overlay {α : Type} (m buf : List α) : List α := m ++ buf.drop m.length

/-- The context map that is sent: nothing when context maps are switched off. -/
def sentMap (o : Opts) (c : PmIn) (k : MapKind) : List UInt8 := if o.doContextMap then cmdMap c k else []

/-- The nibble with mixing choice and context map flag. -/
def packed (o : Opts) (c : PmIn) : Nat := o.mixing ||| (c.adv * 8)

/-- The mixing value sent for position `i`. -/
def sentMix (o : Opts) (c : PmIn) (i : Nat) : Nat :=
  if !o.doContextMap then 4
  else if packed o c = 0 then 0
  else if c.speeds.isSome then c.mixing.getD i 0
  else 0

/-- A speed as it is sent: two bytes of seven bits. -/
def speedSent (sp : Speed) : Nat × Nat := (Weights.speedToU8 sp.inc % 128, Weights.speedToU8 sp.lim % 128)

/-- A speed as it arrives in the buffer. -/
def speedArrives (sp : Speed) : Nat × Nat := (speedKept (speedSent sp)).getD (0, 0)

/-- The buffer after a prediction mode command with the speeds `w`, given its previous contents. -/
def pmGot (o : Opts) (c : PmIn) (w : List Speed) (old : Pm) : Pm :=
  { mode := c.mode
    mixMath := packed o c % 4
    adv := packed o c / 4
    speeds := w.map speedArrives
    litMap := overlay (sentMap o c .lit) old.litMap
    distMap := overlay (sentMap o c .dist) old.distMap
    mixing := (List.range 8192).map (sentMix o c) }

/-- The bookkeeping after a prediction mode command: recency list and distance context map follow
the distance map sent. -/
def pmBk (o : Opts) (c : PmIn) (b : Bk) : Bk :=
  { b with
    cmap := (sentMap o c .dist).foldl touch ((List.range 13).map fun i => UInt8.ofNat i)
    distMap := overlay (sentMap o c .dist) ((List.range 1024).map fun i => UInt8.ofNat (i % 4)) }

/-- The buffer has the sizes of `/repo/src/codec/context_map.rs:84-96`. -/
structure PmOk (p : Pm) : Prop where
  lit : p.litMap.length = 16384
  dist : p.distMap.length = 1024
  mix : p.mixing.length = 8192

theorem pmOk_init : PmOk Pm.init :=
  ⟨List.length_replicate, List.length_replicate, List.length_replicate⟩

/-- Commands whose parts fit their nibbles and buffers. -/
structure PmIn.Valid (o : Opts) (c : PmIn) (w : List Speed) : Prop where
  mode : c.mode ≤ 3
  adv : c.adv ≤ 1
  mixing : o.mixing < 8
  depth : o.priorDepth < 16
  speeds : wantedSpeeds o c = some w
  lit : c.litMap.length ≤ 16384
  dist : c.distMap.length ≤ 1024
  values : c.speeds.isSome = true → c.mixing.length = 8192 ∧ ∀ v ∈ c.mixing, v < 16

/-! ## Steps -/

/-- One step of the encoder inside a prediction mode command. -/
def PmStep (o : Opts) (c : PmIn) (x : Bk × Pm × PmAt) (nib : Nat) (y : Bk × Pm × PmAt) : Prop :=
  (∃ a, pmAsk x.2.1 x.2.2 = some a) ∧ pmOffer x.1 o c x.2.2 = .ok nib ∧ nib < 16 ∧
    pmTake x.1 x.2.1 x.2.2 nib = .ok y

theorem ask_pm_simple (p : Pm) : ∀ s : PmAt, (∀ i c, s ≠ .values i c) → s ≠ .done →
    ∃ a, pmAsk p s = some a := by
  intro s h1 h2
  cases s with
  | values i c => exact absurd rfl (h1 _ _)
  | done => exact absurd rfl h2
  | mnem i k c =>
    cases k <;> simp [pmAsk, MapKind.index, ask?, key?, collapse, layout, linearize, tabSize]
  | first i k c =>
    cases k <;> simp [pmAsk, MapKind.index, ask?, key?, collapse, layout, linearize, tabSize]
  | second i k h c =>
    cases k <;> simp [pmAsk, MapKind.index, ask?, key?, collapse, layout, linearize, tabSize]
  | speed i acc c =>
    have : i % 4 < 4 := Nat.mod_lt _ (by decide)
    simp [pmAsk, ask?, key?, collapse, layout, linearize, tabSize, this]
    omega
  | _ => simp [pmAsk, ask?, key?, collapse, layout, linearize, tabSize]

theorem ask_pm_values (p : Pm) (i : Nat) (comb : Bool) (h : i < p.mixing.length + 256) :
    ∃ a, pmAsk p (.values i comb) = some a := by
  have hv : ∀ v, v < 17 → ∃ a, ask? .pm .pmMixingValue [v] plane = some a := by
    intro v hv
    simp [ask?, key?, collapse, layout, linearize, tabSize, hv]
    omega
  simp only [pmAsk]
  split
  · rw [List.getElem?_eq_getElem (by omega)]
    exact hv _ (Nat.lt_trans (Nat.mod_lt _ (by decide)) (by decide))
  · exact hv 16 (by decide)

/-! ### Mode, mixing, depth -/

theorem pack_lt : ∀ m a : Nat, m < 8 → a ≤ 1 → m ||| (a * 8) < 16 := by
  have h : ∀ m : Fin 8, ∀ a : Fin 2, m.val ||| (a.val * 8) < 16 := by decide
  intro m a hm ha
  exact h ⟨m, hm⟩ ⟨a, by omega⟩

theorem pm_head {o : Opts} {c : PmIn} {w : List Speed} (hv : c.Valid o w) (b : Bk) (p : Pm) :
    Run (PmStep o c) (b, p, .begin) [c.mode, packed o c, o.priorDepth]
      (resetDistMap (resetCmap b),
        { p with mode := c.mode, mixMath := packed o c % 4, adv := packed o c / 4 },
        .speed 0 (List.replicate 4 (0, 0)) (decide (packed o c ≠ 0))) := by
  have hm := hv.mode
  have ha := hv.adv
  have hx := hv.mixing
  have s1 : PmStep o c (b, p, .begin) c.mode
      (resetDistMap (resetCmap b), { p with mode := c.mode }, .mixing) := by
    refine ⟨ask_pm_simple _ _ (by simp) (by simp), rfl, by omega, ?_⟩
    simp only [pmTake]
    rw [if_neg (by omega)]
  have s2 : PmStep o c (resetDistMap (resetCmap b), { p with mode := c.mode }, .mixing) (packed o c)
      (resetDistMap (resetCmap b),
        { p with mode := c.mode, mixMath := packed o c % 4, adv := packed o c / 4 },
        .depth (decide (packed o c ≠ 0))) := by
    refine ⟨ask_pm_simple _ _ (by simp) (by simp), ?_, pack_lt _ _ hx ha, rfl⟩
    simp only [pmOffer]
    rw [if_neg (by omega), if_neg (by omega)]
    rfl
  exact .cons s1 (.cons s2 (.one ⟨ask_pm_simple _ _ (by simp) (by simp), rfl, hv.depth, rfl⟩))

/-! ### Speeds -/

theorem speed_bits (x : Nat) (h : x < 128) : (0 ||| ((x / 8) <<< 3)) ||| (x % 8) = x := by
  have hd : ∀ x : Fin 128, (0 ||| ((x.val / 8) <<< 3)) ||| (x.val % 8) = x.val := by decide +kernel
  exact hd ⟨x, h⟩

theorem store4 (acc : List (Nat × Nat)) (j : Nat) (sp : Speed) (h : acc[j]? = some (0, 0)) :
    speedStore (speedStore (speedStore (speedStore acc (4 * j) (speedNibble sp 0)) (4 * j + 1)
      (speedNibble sp 1)) (4 * j + 2) (speedNibble sp 2)) (4 * j + 3) (speedNibble sp 3) =
      acc.set j (speedSent sp) := by
  obtain ⟨x, hx⟩ : ∃ x, x = Weights.speedToU8 sp.inc % 128 := ⟨_, rfl⟩
  obtain ⟨y, hy⟩ : ∃ y, y = Weights.speedToU8 sp.lim % 128 := ⟨_, rfl⟩
  have hx1 := speed_bits x (by omega)
  have hy1 := speed_bits y (by omega)
  have hlen : j < acc.length := by
    rcases List.getElem?_eq_some_iff.1 h with ⟨hl, _⟩
    exact hl
  have e0 : speedNibble sp 0 = x / 8 := by simp [speedNibble, hx]
  have e1 : speedNibble sp 1 = x % 8 := by simp [speedNibble, hx]
  have e2 : speedNibble sp 2 = y / 8 := by simp [speedNibble, hy]
  have e3 : speedNibble sp 3 = y % 8 := by simp [speedNibble, hy]
  have s0 : speedStore acc (4 * j) (x / 8) = acc.set j (0 ||| (x / 8) <<< 3, 0) := by
    unfold speedStore
    rw [show 4 * j / 4 = j by omega, show 4 * j % 4 = 0 by omega, List.getD_eq_getElem?_getD, h]
    rfl
  have s1 : ∀ q : Nat × Nat, speedStore (acc.set j q) (4 * j + 1) (x % 8) =
      acc.set j (q.1 ||| x % 8, q.2) := by
    intro q
    unfold speedStore
    rw [show (4 * j + 1) / 4 = j by omega, show (4 * j + 1) % 4 = 1 by omega,
      List.getD_eq_getElem?_getD, List.getElem?_set_self hlen]
    simp
  have s2 : ∀ q : Nat × Nat, speedStore (acc.set j q) (4 * j + 2) (y / 8) =
      acc.set j (q.1, q.2 ||| (y / 8) <<< 3) := by
    intro q
    unfold speedStore
    rw [show (4 * j + 2) / 4 = j by omega, show (4 * j + 2) % 4 = 2 by omega,
      List.getD_eq_getElem?_getD, List.getElem?_set_self hlen]
    simp
  have s3 : ∀ q : Nat × Nat, speedStore (acc.set j q) (4 * j + 3) (y % 8) =
      acc.set j (q.1, q.2 ||| y % 8) := by
    intro q
    unfold speedStore
    rw [show (4 * j + 3) / 4 = j by omega, show (4 * j + 3) % 4 = 3 by omega,
      List.getD_eq_getElem?_getD, List.getElem?_set_self hlen]
    simp
  rw [e0, e1, e2, e3, s0, s1, s2, s3]
  simp only [hx1, hy1]
  rw [speedSent, ← hx, ← hy]

theorem speedNibble_lt (sp : Speed) (k : Nat) : speedNibble sp k < 16 := by
  unfold speedNibble
  simp only
  split_ifs <;> omega

theorem speedKept_some {f : Nat × Nat} (h1 : f.1 < 128) (h2 : f.2 < 128) : ∃ q, speedKept f = some q := by
  have h : ∀ d : Fin 128, (Weights.u8ToSpeed d.val).isSome = true := by decide +kernel
  obtain ⟨a, ha⟩ := Option.isSome_iff_exists.1 (h ⟨f.1, h1⟩)
  obtain ⟨b, hb⟩ := Option.isSome_iff_exists.1 (h ⟨f.2, h2⟩)
  simp only at ha hb
  simp [speedKept, ha, hb]

theorem speedKept_sent (sp : Speed) : speedKept (speedSent sp) = some (speedArrives sp) := by
  obtain ⟨q, hq⟩ := speedKept_some (f := speedSent sp) (Nat.mod_lt _ (by decide)) (Nat.mod_lt _ (by decide))
  rw [speedArrives, hq]
  rfl

theorem wantedSpeeds_four {o : Opts} {c : PmIn} {w : List Speed} (h : wantedSpeeds o c = some w) :
    ∃ s0 s1 s2 s3, w = [s0, s1, s2, s3] := by
  unfold wantedSpeeds at h
  simp only at h
  cases ha : o.adaptation with
  | some q =>
    obtain ⟨a, b, c', d⟩ := q
    rw [ha] at h
    simp only [Option.map_eq_some_iff] at h
    obtain ⟨_, _, rfl⟩ := h
    exact ⟨_, _, _, _, rfl⟩
  | none =>
    rw [ha] at h
    simp only at h
    cases hs : c.speeds with
    | none =>
      rw [hs] at h
      simp only [Option.some.injEq] at h
      exact ⟨_, _, _, _, h.symm⟩
    | some v =>
      rw [hs] at h
      simp only [Option.bind_eq_bind, Option.bind_eq_some_iff, Option.pure_def, Option.some.injEq] at h
      obtain ⟨_, _, _, _, _, _, _, _, rfl⟩ := h
      exact ⟨_, _, _, _, rfl⟩

/-- Four nibbles send one speed. -/
theorem pm_speed_one {o : Opts} {c : PmIn} {w : List Speed} (hw : wantedSpeeds o c = some w) (b : Bk)
    (p : Pm) (comb : Bool) (acc : List (Nat × Nat)) (j : Nat) (sp : Speed) (hj : j < 3)
    (hsp : w[j]? = some sp) (hacc : acc[j]? = some (0, 0)) :
    ∃ ns, Run (PmStep o c) (b, p, .speed (4 * j) acc comb) ns
      (b, p, .speed (4 * (j + 1)) (acc.set j (speedSent sp)) comb) := by
  have hoff : ∀ i a, i / 4 = j → pmOffer b o c (.speed i a comb) = .ok (speedNibble sp (i % 4)) := by
    intro i a hi
    simp only [pmOffer, hw, Option.bind_some, hi, hsp]
  have hst : ∀ i a, i / 4 = j → PmStep o c (b, p, .speed i a comb) (speedNibble sp (i % 4))
      (b, p, .speed (i + 1) (speedStore a i (speedNibble sp (i % 4))) comb) := by
    intro i a hi
    refine ⟨ask_pm_simple _ _ (by simp) (by simp), hoff i a hi, speedNibble_lt _ _, ?_⟩
    simp only [pmTake]
    rw [if_neg (by omega)]
  have h0 := hst (4 * j) acc (by omega)
  have h1 := hst (4 * j + 1) (speedStore acc (4 * j) (speedNibble sp 0)) (by omega)
  have h2 := hst (4 * j + 2) (speedStore (speedStore acc (4 * j) (speedNibble sp 0)) (4 * j + 1)
      (speedNibble sp 1)) (by omega)
  have h3 := hst (4 * j + 3) (speedStore (speedStore (speedStore acc (4 * j) (speedNibble sp 0))
      (4 * j + 1) (speedNibble sp 1)) (4 * j + 2) (speedNibble sp 2)) (by omega)
  rw [show 4 * j % 4 = 0 by omega] at h0
  rw [show (4 * j + 1) % 4 = 1 by omega] at h1
  rw [show (4 * j + 2) % 4 = 2 by omega] at h2
  rw [show (4 * j + 3) % 4 = 3 by omega, store4 acc j sp hacc] at h3
  exact ⟨_, .cons h0 (.cons h1 (.cons h2 (.one h3)))⟩

theorem pm_speeds {o : Opts} {c : PmIn} {w : List Speed} (hw : wantedSpeeds o c = some w) (b : Bk)
    (p : Pm) (comb : Bool) :
    ∃ ns, Run (PmStep o c) (b, p, .speed 0 (List.replicate 4 (0, 0)) comb) ns
      (b, { p with speeds := w.map speedArrives }, .mnem 0 .lit comb) := by
  obtain ⟨s0, s1, s2, s3, rfl⟩ := wantedSpeeds_four hw
  obtain ⟨n0, r0⟩ := pm_speed_one hw b p comb [(0, 0), (0, 0), (0, 0), (0, 0)] 0 s0 (by omega) rfl rfl
  obtain ⟨n1, r1⟩ := pm_speed_one hw b p comb [speedSent s0, (0, 0), (0, 0), (0, 0)] 1 s1 (by omega)
    rfl rfl
  obtain ⟨n2, r2⟩ := pm_speed_one hw b p comb [speedSent s0, speedSent s1, (0, 0), (0, 0)] 2 s2
    (by omega) rfl rfl
  have hoff : ∀ i a, i / 4 = 3 →
      pmOffer b o c (.speed i a comb) = .ok (speedNibble s3 (i % 4)) := by
    intro i a hi
    simp only [pmOffer, hw, Option.bind_some, hi]
    rfl
  have hst : ∀ i a, i / 4 = 3 → i < 15 → PmStep o c (b, p, .speed i a comb) (speedNibble s3 (i % 4))
      (b, p, .speed (i + 1) (speedStore a i (speedNibble s3 (i % 4))) comb) := by
    intro i a hi h15
    refine ⟨ask_pm_simple _ _ (by simp) (by simp), hoff i a hi, speedNibble_lt _ _, ?_⟩
    simp only [pmTake]
    rw [if_neg (by omega)]
  have t4 := store4 [speedSent s0, speedSent s1, speedSent s2, (0, 0)] 3 s3 rfl
  have k0 := hst 12 [speedSent s0, speedSent s1, speedSent s2, (0, 0)] rfl (by omega)
  obtain ⟨a1, ha1⟩ : ∃ a1, a1 = speedStore [speedSent s0, speedSent s1, speedSent s2, (0, 0)] 12
    (speedNibble s3 0) := ⟨_, rfl⟩
  obtain ⟨a2, ha2⟩ : ∃ a2, a2 = speedStore a1 13 (speedNibble s3 1) := ⟨_, rfl⟩
  obtain ⟨a3, ha3⟩ : ∃ a3, a3 = speedStore a2 14 (speedNibble s3 2) := ⟨_, rfl⟩
  have k0 : PmStep o c (b, p, .speed 12 [speedSent s0, speedSent s1, speedSent s2, (0, 0)] comb)
      (speedNibble s3 0) (b, p, .speed 13 a1 comb) := ha1 ▸ k0
  have k1 : PmStep o c (b, p, .speed 13 a1 comb) (speedNibble s3 1) (b, p, .speed 14 a2 comb) :=
    ha2 ▸ hst 13 a1 rfl (by omega)
  have k2 : PmStep o c (b, p, .speed 14 a2 comb) (speedNibble s3 2) (b, p, .speed 15 a3 comb) :=
    ha3 ▸ hst 14 a2 rfl (by omega)
  have t4 : speedStore a3 15 (speedNibble s3 3) =
      [speedSent s0, speedSent s1, speedSent s2, speedSent s3] := by
    rw [ha3, ha2, ha1]
    exact t4
  refine ⟨n0 ++ (n1 ++ (n2 ++ [speedNibble s3 0, speedNibble s3 1, speedNibble s3 2, speedNibble s3 3])),
    r0.append (r1.append (r2.append (.cons k0 (.cons k1 (.cons k2 (.one
      ⟨ask_pm_simple _ _ (by simp) (by simp), hoff 15 a3 rfl, speedNibble_lt _ _, ?_⟩))))))⟩
  simp only [pmTake, t4]
  simp [List.mapM_cons, speedKept_sent]

/-! ### Context maps -/

theorem lastIdx_aux (v : UInt8) : ∀ (l : List UInt8) (n r : Nat),
    let q := (l.zipIdx n).foldl (fun r e => if e.1 = v then e.2 else r) r
    (q = r ∧ v ∉ l) ∨ (n ≤ q ∧ q < n + l.length ∧ l[q - n]? = some v) := by
  intro l
  induction l with
  | nil =>
    intro n r
    simp
  | cons a t ih =>
    intro n r
    simp only [List.zipIdx_cons, List.foldl_cons]
    have h := ih (n + 1) (if a = v then n else r)
    simp only at h
    rcases h with ⟨h1, h2⟩ | ⟨h1, h2, h3⟩
    · rw [h1]
      by_cases ha : a = v
      · rw [if_pos ha]
        right
        refine ⟨Nat.le_refl _, by simp, by simp [ha]⟩
      · rw [if_neg ha]
        left
        refine ⟨rfl, ?_⟩
        simp only [List.mem_cons, not_or]
        exact ⟨fun e => ha e.symm, h2⟩
    · right
      obtain ⟨q, hq⟩ : ∃ q, q = (t.zipIdx (n + 1)).foldl (fun r e => if e.1 = v then e.2 else r)
        (if a = v then n else r) := ⟨_, rfl⟩
      rw [← hq] at h1 h2 h3 ⊢
      refine ⟨by omega, by simp only [List.length_cons]; omega, ?_⟩
      rw [show q - n = (q - (n + 1)) + 1 by omega, List.getElem?_cons_succ]
      exact h3

theorem lastIdx_spec (l : List UInt8) (v : UInt8) :
    lastIdx l v = 15 ∨ (lastIdx l v < l.length ∧ l[lastIdx l v]? = some v) := by
  have h := lastIdx_aux v l 0 15
  simp only at h
  unfold lastIdx
  rcases h with ⟨h1, _⟩ | ⟨_, h2, h3⟩
  · exact Or.inl h1
  · exact Or.inr ⟨by simpa using h2, by simpa using h3⟩

theorem touch_length {l : List UInt8} (v : UInt8) (h : l ≠ []) : (touch l v).length = l.length := by
  have hl : 0 < l.length := List.length_pos_iff.2 h
  unfold touch
  split
  · simp only [List.length_cons, List.length_append, List.length_take, List.length_drop]
    omega
  · simp only [List.length_cons, List.length_take]
    omega

theorem touch_foldl_length (m : List UInt8) : ∀ l : List UInt8, l ≠ [] →
    (m.foldl touch l).length = l.length := by
  induction m with
  | nil => intro l _; rfl
  | cons v t ih =>
    intro l hl
    have h := touch_length v hl
    rw [List.foldl_cons, ih _ (by intro e; rw [e] at h; exact hl (List.length_eq_zero_iff.1 h.symm)), h]

theorem overlay_length {α : Type} {m buf : List α} (h : m.length ≤ buf.length) :
    (overlay m buf).length = buf.length := by
  simp only [overlay, List.length_append, List.length_drop]
  omega

/-- Writing the next entry extends the overlay. -/
theorem overlay_step {α : Type} {m buf : List α} {i : Nat} {v : α} (hv : m[i]? = some v)
    (h : m.length ≤ buf.length) :
    (overlay (m.take i) buf).set i v = overlay (m.take (i + 1)) buf := by
  obtain ⟨hi, hv'⟩ := List.getElem?_eq_some_iff.1 hv
  have h1 : (m.take i).length = i := by simp; omega
  have h2 : (m.take (i + 1)).length = i + 1 := by simp; omega
  unfold overlay
  rw [h1, h2, List.set_append, h1, if_neg (by omega), Nat.sub_self, List.take_add_one, hv]
  simp only [Option.toList_some, List.append_assoc]
  rw [List.drop_eq_getElem_cons (l := buf) (i := i) (by omega)]
  rfl

theorem overlay_nil {α : Type} (buf : List α) : overlay ([] : List α) buf = buf := by simp [overlay]

/-- One entry of a context map reaches the other side. -/
theorem pm_entry {o : Opts} {c : PmIn} {b b' : Bk} {p p' : Pm} {i : Nat} {k : MapKind} {v : UInt8}
    (comb : Bool) (hdo : o.doContextMap = true) (hv : (cmdMap c k)[i]? = some v)
    (hc : b.cmap.length = 13) (hobs : obsCmap b k i v = .ok b') (hst : pmStore p k i v = .ok p') :
    ∃ ns, Run (PmStep o c) (b, p, .mnem i k comb) ns (b', p', .mnem (i + 1) k comb) := by
  have hask : ∃ a, pmAsk p (.mnem i k comb) = some a := ask_pm_simple _ _ (by simp) (by simp)
  have hoff : pmOffer b o c (.mnem i k comb) =
      .ok (if v = maxOf b.cmap + 1 then 13 else lastIdx b.cmap v) := by
    simp only [pmOffer, hdo, if_true, mnemOffer, hv]
  by_cases hmax : v = maxOf b.cmap + 1
  · refine ⟨[13], .one ⟨hask, by rw [hoff, if_pos hmax], by omega, ?_⟩⟩
    simp only [pmTake]
    rw [if_neg (by omega), if_neg (by omega), if_pos trivial, ← hmax, hobs]
    simp only [Res.bind, hst]
  · rw [if_neg hmax] at hoff
    rcases lastIdx_spec b.cmap v with h15 | ⟨hlt, hget⟩
    · rw [h15] at hoff
      have hn : v.toNat < 256 := v.toNat_lt
      refine ⟨[15, v.toNat / 16, v.toNat % 16],
        .cons (s1 := (b, p, .first i k comb)) ⟨hask, hoff, by omega, rfl⟩
          (.cons (s1 := (b, p, .second i k (v.toNat / 16) comb))
            ⟨ask_pm_simple _ _ (by simp) (by simp), ?_, by omega, rfl⟩
            (.one ⟨ask_pm_simple _ _ (by simp) (by simp), ?_, by omega, ?_⟩))⟩
      · simp only [pmOffer, hv]
      · simp only [pmOffer, hv]
      · simp only [pmTake, u8_shl_or, hst, Res.bind, hobs]
    · rw [hc] at hlt
      refine ⟨[lastIdx b.cmap v], .one ⟨hask, hoff, by omega, ?_⟩⟩
      simp only [pmTake]
      rw [if_neg (by omega), if_neg (by omega), if_neg (by omega), List.getD_eq_getElem?_getD, hget]
      simp only [Option.getD_some, hobs, Res.bind, hst]

theorem foldl_touch_take {m l : List UInt8} {i : Nat} {v : UInt8} (hv : m[i]? = some v) :
    (m.take (i + 1)).foldl touch l = touch ((m.take i).foldl touch l) v := by
  rw [List.take_add_one, hv]
  simp

/-- The literal context map reaches the other side. -/
theorem pm_lit_map {o : Opts} {c : PmIn} (comb : Bool) (b : Bk) (p : Pm)
    (hdo : o.doContextMap = true) (hc : b.cmap.length = 13) (hlen : c.litMap.length ≤ p.litMap.length) :
    ∀ n i, i + n = c.litMap.length →
      ∃ ns, Run (PmStep o c)
        ({ b with cmap := (c.litMap.take i).foldl touch b.cmap },
          { p with litMap := overlay (c.litMap.take i) p.litMap }, .mnem i .lit comb) ns
        ({ b with cmap := c.litMap.foldl touch b.cmap },
          { p with litMap := overlay c.litMap p.litMap }, .mnem c.litMap.length .lit comb) := by
  intro n
  induction n with
  | zero =>
    intro i hi
    rw [show i = c.litMap.length by omega, List.take_length]
    exact ⟨[], .nil _⟩
  | succ n ih =>
    intro i hi
    have hv : c.litMap[i]? = some (c.litMap[i]'(by omega)) := List.getElem?_eq_getElem (by omega)
    obtain ⟨v, hvv⟩ : ∃ v, v = c.litMap[i]'(by omega) := ⟨_, rfl⟩
    rw [← hvv] at hv
    obtain ⟨ns, hr⟩ := ih (i + 1) (by omega)
    have hl : (overlay (c.litMap.take i) p.litMap).length = p.litMap.length :=
      overlay_length (by simp; omega)
    obtain ⟨ms, hs⟩ := pm_entry (o := o) (c := c) (k := .lit) (i := i) (v := v)
      (b := { b with cmap := (c.litMap.take i).foldl touch b.cmap })
      (b' := { b with cmap := (c.litMap.take (i + 1)).foldl touch b.cmap })
      (p := { p with litMap := overlay (c.litMap.take i) p.litMap })
      (p' := { p with litMap := overlay (c.litMap.take (i + 1)) p.litMap })
      comb hdo hv
      (by
        simp only
        rw [touch_foldl_length _ _ (by intro e; rw [e] at hc; simp at hc), hc])
      (by simp only [obsCmap, foldl_touch_take hv])
      (by
        simp only [pmStore]
        rw [if_pos (by omega), overlay_step hv hlen])
    exact ⟨ms ++ ns, hs.append hr⟩

/-- The distance context map reaches the other side. -/
theorem pm_dist_map {o : Opts} {c : PmIn} (comb : Bool) (b : Bk) (p : Pm) (m : List UInt8)
    (hm : m = cmdMap c .dist)
    (hdo : o.doContextMap = true) (hc : b.cmap.length = 13) (hlen : m.length ≤ p.distMap.length)
    (hlen2 : m.length ≤ b.distMap.length) :
    ∀ n i, i + n = m.length →
      ∃ ns, Run (PmStep o c)
        ({ b with cmap := (m.take i).foldl touch b.cmap, distMap := overlay (m.take i) b.distMap },
          { p with distMap := overlay (m.take i) p.distMap }, .mnem i .dist comb) ns
        ({ b with cmap := m.foldl touch b.cmap, distMap := overlay m b.distMap },
          { p with distMap := overlay m p.distMap }, .mnem m.length .dist comb) := by
  intro n
  induction n with
  | zero =>
    intro i hi
    rw [show i = m.length by omega, List.take_length]
    exact ⟨[], .nil _⟩
  | succ n ih =>
    intro i hi
    have hv : m[i]? = some (m[i]'(by omega)) := List.getElem?_eq_getElem (by omega)
    obtain ⟨v, hvv⟩ : ∃ v, v = m[i]'(by omega) := ⟨_, rfl⟩
    rw [← hvv] at hv
    obtain ⟨ns, hr⟩ := ih (i + 1) (by omega)
    have hl : (overlay (m.take i) p.distMap).length = p.distMap.length :=
      overlay_length (by simp; omega)
    have hl2 : (overlay (m.take i) b.distMap).length = b.distMap.length :=
      overlay_length (by simp; omega)
    obtain ⟨ms, hs⟩ := pm_entry (o := o) (c := c) (k := .dist) (i := i) (v := v)
      (b := { b with cmap := (m.take i).foldl touch b.cmap, distMap := overlay (m.take i) b.distMap })
      (b' := { b with
        cmap := (m.take (i + 1)).foldl touch b.cmap, distMap := overlay (m.take (i + 1)) b.distMap })
      (p := { p with distMap := overlay (m.take i) p.distMap })
      (p' := { p with distMap := overlay (m.take (i + 1)) p.distMap })
      comb hdo (hm ▸ hv)
      (by
        simp only
        rw [touch_foldl_length _ _ (by intro e; rw [e] at hc; simp at hc), hc])
      (by
        simp only [obsCmap, foldl_touch_take hv]
        rw [if_pos (by omega), overlay_step hv hlen2])
      (by
        simp only [pmStore]
        rw [if_pos (by omega), overlay_step hv hlen])
    exact ⟨ms ++ ns, hs.append hr⟩

/-- Both context maps. -/
theorem pm_maps {o : Opts} {c : PmIn} {w : List Speed} (hv : c.Valid o w) (comb : Bool) (b : Bk) (p : Pm)
    (hc : b.cmap.length = 13) (hd : b.distMap.length = 1024) (hp : PmOk p) :
    ∃ ns, Run (PmStep o c) (b, p, .mnem 0 .lit comb) ns
      ({ b with
          cmap := (sentMap o c .dist).foldl touch ((List.range 13).map fun i => UInt8.ofNat i)
          distMap := overlay (sentMap o c .dist) b.distMap },
        { p with
          litMap := overlay (sentMap o c .lit) p.litMap
          distMap := overlay (sentMap o c .dist) p.distMap },
        .values 0 comb) := by
  have hask : ∀ p i k, ∃ a, pmAsk p (.mnem i k comb) = some a := fun _ _ _ =>
    ask_pm_simple _ _ (by simp) (by simp)
  by_cases hdo : o.doContextMap = true
  · have hl : sentMap o c .lit = c.litMap := by simp [sentMap, hdo, cmdMap]
    have hdm : sentMap o c .dist = cmdMap c .dist := by simp [sentMap, hdo]
    rw [hl, hdm]
    obtain ⟨m, hm⟩ : ∃ m, m = cmdMap c .dist := ⟨_, rfl⟩
    have hml : m.length ≤ 1024 := by
      rw [hm]
      simp only [cmdMap]
      split
      · exact hv.dist
      · simp
    rw [← hm]
    obtain ⟨ns, h1⟩ := pm_lit_map (o := o) (c := c) comb b p hdo hc (by rw [hp.lit]; exact hv.lit)
      c.litMap.length 0 (by omega)
    obtain ⟨ms, h2⟩ := pm_dist_map (o := o) (c := c) comb
      (resetCmap { b with cmap := c.litMap.foldl touch b.cmap })
      { p with litMap := overlay c.litMap p.litMap } m hm hdo (by simp [resetCmap])
      (by simp only [hp.dist]; exact hml) (by simp only [resetCmap, hd]; exact hml) m.length 0 (by omega)
    simp only [List.take_zero, overlay_nil, List.foldl_nil] at h1 h2
    refine ⟨ns ++ 14 :: (ms ++ [14]), h1.append (.cons ⟨hask _ _ _, ?_, by omega, rfl⟩
      (h2.append (.one ⟨hask _ _ _, ?_, by omega, ?_⟩)))⟩
    · simp [pmOffer, hdo, mnemOffer, cmdMap]
    · simp only [pmOffer, hdo, if_true, mnemOffer, ← hm]
      rw [List.getElem?_eq_none (Nat.le_refl _)]
    · simp [pmTake, resetCmap]
  · have hdo' : o.doContextMap = false := by simpa using hdo
    have hl : ∀ k, sentMap o c k = [] := by simp [sentMap, hdo']
    rw [hl, hl]
    simp only [overlay_nil, List.foldl_nil]
    refine ⟨[14, 14], .cons (s1 := (resetCmap b, p, .mnem 0 .dist comb)) ⟨hask _ _ _, ?_, by omega, rfl⟩
      (.one ⟨hask _ _ _, ?_, by omega, rfl⟩)⟩
    · simp [pmOffer, hdo', mnemOffer]
    · simp [pmOffer, hdo', mnemOffer]

/-! ### Mixing values -/

theorem pm_value_offer {o : Opts} {c : PmIn} {w : List Speed} (hv : c.Valid o w) (b : Bk) (i : Nat)
    (hi : i < 8192) :
    pmOffer b o c (.values i (decide (packed o c ≠ 0))) = .ok (sentMix o c i) ∧ sentMix o c i < 16 := by
  unfold pmOffer sentMix
  by_cases hdo : o.doContextMap = true
  · rw [hdo]
    by_cases hp : packed o c = 0
    · simp [hp]
    · by_cases hs : c.speeds.isSome = true
      · obtain ⟨hlen, hlt⟩ := hv.values hs
        have hg : c.mixing[i]? = some (c.mixing[i]'(by omega)) := List.getElem?_eq_getElem (by omega)
        have hlt' := hlt _ (List.getElem_mem (l := c.mixing) (n := i) (by omega))
        simp [hp, hs, hg, List.getD_eq_getElem?_getD, Res.ofOption, hlt']
      · simp [hp, hs]
  · simp [hdo]

theorem pm_values {o : Opts} {c : PmIn} {w : List Speed} (hv : c.Valid o w) (b : Bk) (p : Pm)
    (hp : p.mixing.length = 8192) :
    ∀ n i, i + n + 1 = 8192 →
      ∃ ns, Run (PmStep o c)
        (b, { p with mixing := overlay ((List.range i).map (sentMix o c)) p.mixing },
          .values i (decide (packed o c ≠ 0))) ns
        (b, { p with mixing := (List.range 8192).map (sentMix o c) }, .done) := by
  have hlenI : ∀ i, i ≤ 8192 →
      (overlay ((List.range i).map (sentMix o c)) p.mixing).length = 8192 := by
    intro i hi
    rw [overlay_length (by simp; omega), hp]
  have hset : ∀ i, i < 8192 →
      (overlay ((List.range i).map (sentMix o c)) p.mixing).set i (sentMix o c i) =
        overlay ((List.range (i + 1)).map (sentMix o c)) p.mixing := by
    intro i hi
    have h := overlay_step (m := (List.range (i + 1)).map (sentMix o c)) (buf := p.mixing) (i := i)
      (v := sentMix o c i) (by simp) (by simp; omega)
    rw [← List.map_take, ← List.map_take, List.take_range, List.take_range,
      Nat.min_eq_left (by omega), Nat.min_self] at h
    exact h
  have hfull : overlay ((List.range 8192).map (sentMix o c)) p.mixing =
      (List.range 8192).map (sentMix o c) := by
    unfold overlay
    rw [List.drop_eq_nil_of_le (by rw [hp, List.length_map, List.length_range]; exact Nat.le_refl _)]
    exact List.append_nil _
  intro n
  induction n with
  | zero =>
    intro i hi
    have hi' : i < 8192 := by omega
    obtain ⟨ho, hlt⟩ := pm_value_offer hv b i hi'
    refine ⟨[sentMix o c i], .one ⟨ask_pm_values _ _ _ ?_, ho, hlt, ?_⟩⟩
    · simp only [hlenI i (by omega)]
      omega
    · simp only [pmTake, hset i hi']
      rw [if_pos (by rw [hlenI i (by omega)]; exact hi'), if_pos (by omega),
        show i + 1 = 8192 by omega, hfull]
  | succ n ih =>
    intro i hi
    have hi' : i < 8192 := by omega
    obtain ⟨ho, hlt⟩ := pm_value_offer hv b i hi'
    obtain ⟨ns, hr⟩ := ih (i + 1) (by omega)
    refine ⟨sentMix o c i :: ns, .cons ⟨ask_pm_values _ _ _ ?_, ho, hlt, ?_⟩ hr⟩
    · simp only [hlenI i (by omega)]
      omega
    · simp only [pmTake, hset i hi']
      rw [if_pos (by rw [hlenI i (by omega)]; exact hi'), if_neg (by omega)]

/-! ### The whole command -/

theorem pm_run {o : Opts} {c : PmIn} {w : List Speed} (hv : c.Valid o w) {b : Bk} (hb : BkOk b) {p : Pm}
    (hp : PmOk p) :
    ∃ ns, Run (PmStep o c) (b, p, .begin) ns (pmBk o c b, pmGot o c w p, .done) := by
  have h1 := pm_head hv b p
  obtain ⟨n2, h2⟩ := pm_speeds hv.speeds (resetDistMap (resetCmap b))
    { p with mode := c.mode, mixMath := packed o c % 4, adv := packed o c / 4 }
    (decide (packed o c ≠ 0))
  obtain ⟨n3, h3⟩ := pm_maps hv (decide (packed o c ≠ 0)) (resetDistMap (resetCmap b))
    { p with
      mode := c.mode, mixMath := packed o c % 4, adv := packed o c / 4,
      speeds := w.map speedArrives }
    (by simp [resetDistMap, resetCmap]) (by simp [resetDistMap, resetCmap, hb.map])
    ⟨hp.lit, hp.dist, hp.mix⟩
  obtain ⟨n4, h4⟩ := pm_values hv (pmBk o c b)
    { p with
      mode := c.mode, mixMath := packed o c % 4, adv := packed o c / 4,
      speeds := w.map speedArrives
      litMap := overlay (sentMap o c .lit) p.litMap
      distMap := overlay (sentMap o c .dist) p.distMap } hp.mix 8191 0 (by omega)
  simp only [List.range_zero, List.map_nil, overlay_nil] at h4
  have hbk : ({ resetDistMap (resetCmap b) with
      cmap := (sentMap o c .dist).foldl touch ((List.range 13).map fun i => UInt8.ofNat i)
      distMap := overlay (sentMap o c .dist) (resetDistMap (resetCmap b)).distMap } : Bk) =
      pmBk o c b := by
    simp only [resetDistMap, resetCmap, pmBk, hb.map]
  rw [hbk] at h3
  exact ⟨_, h1.append (h2.append (h3.append h4))⟩

theorem emits_of_pmRun {o : Opts} {c : PmIn} {x y : Bk × Pm × PmAt} {ns : List Nat}
    (h : Run (PmStep o c) x ns y) (hx : x.2.2 ≠ .done) (hy : y.2.2 = .done) :
    Emits o (.pm c) ⟨x.1, x.2.1, .pm x.2.2⟩ ns (finish y.1 y.2.1 (.pm y.2.1)) (.pm y.2.1) := by
  induction h with
  | nil s => exact absurd hy hx
  | @cons s s1 s2 nib ns hs hr ih =>
    obtain ⟨⟨a, ha⟩, ho, hn, ht⟩ := hs
    by_cases hd : s1.2.2 = .done
    · cases hr with
      | nil =>
        refine .last a ha ho hn ?_
        simp only [coreTake, ht, Res.bind]
        rw [if_pos hd]
      | cons hs' _ =>
        obtain ⟨⟨a', ha'⟩, _⟩ := hs'
        simp [pmAsk, hd] at ha'
    · refine .more a ha ho hn ?_ (ih hd hy)
      simp only [coreTake, ht, Res.bind]
      rw [if_neg hd]

end Divans.Codec
