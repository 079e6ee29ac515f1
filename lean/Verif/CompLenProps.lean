import Verif.CompLen

/-!
# C94: which lengths of data are compressed without loss when the commands are chosen without brotli
-/

namespace Divans.Compressor
open Divans.Adaptive Divans.Pipe Divans.Frame Divans.Eng

/-- A caller of `encode` who does not call it with nothing: how many bytes of the rest of `inp` a call offers may depend on how
many were taken, `t`.  Returns the compressor, the number of bytes taken, the output and the result codes. -/
def feeds (o : Codec.Opts) (dw : Nat → Nat → Nat → List UInt8) (fuel : Nat) :
    List ((Nat → Nat) × Nat) → Comp → Nat → List UInt8 → Option (Comp × Nat × List UInt8 × List Code)
  | [], c, _, _ => some (c, 0, [], [])
  | (k, room) :: calls, c, t, inp =>
    if inp.take (k t) = [] then feeds o dw fuel calls c t inp
    else
      match c.encode o dw fuel (inp.take (k t)) room with
      | none => none
      | some (c', n, out, code) =>
        (feeds o dw fuel calls c' (t + n) (inp.drop n)).map fun z => (z.1, n + z.2.1, out ++ z.2.2.1, code :: z.2.2.2)

/-- Each offer gives enough (`RawCmd.Ample`) or nothing. -/
def Enough (L len : Nat) (calls : List ((Nat → Nat) × Nat)) : Prop :=
  ∀ x ∈ calls, ∀ t, t < len → 0 < x.1 t → RawCmd.Ample L t (min (x.1 t) (len - t))

theorem feeds_spec {g : Cfg} (hpm : (Item.pm rawPm).Valid g.o g.dw g.ring) (E : Prop) : ∀ (calls : List ((Nat → Nat) × Nat))
    {c : Comp} {out : List UInt8} {ops : List RawCmd.Op} {taken : List UInt8} {done fr : List RawCmd.Cmd},
    Pushing g c out ops taken done fr → ∀ (inp : List UInt8), (taken.length ≤ 3 * g.ring - 2 → Once g ops) →
    (E → Once g ops ∧ Enough g.ring (taken.length + inp.length) calls) →
    ∃ f0 c' n o codes, (∀ fuel, f0 ≤ fuel → feeds g.o g.dw fuel calls c taken.length inp = some (c', n, o, codes)) ∧
      n ≤ inp.length ∧ (∀ code ∈ codes, code = .needsInput ∨ code = .needsOutput) ∧
      ∃ ops' done' fr', Pushing g c' (out ++ o) ops' (taken ++ inp.take n) done' fr' ∧
        ((taken ++ inp.take n).length ≤ 3 * g.ring - 2 → Once g ops') ∧ (E → Once g ops') := by
  intro calls
  induction calls with
  | nil =>
    intro c out ops taken done fr h inp h3 hE
    exact ⟨0, c, 0, [], [], fun _ _ => rfl, by omega, by simp, ops, done, fr, by simpa using h, by simpa using h3, fun e => (hE e).1⟩
  | cons call calls ih =>
    obtain ⟨k, room⟩ := call
    intro c out ops taken done fr h inp h3 hE
    by_cases hk : inp.take (k taken.length) = []
    · obtain ⟨f0, c', n, o, codes, k1, k2⟩ := ih h inp h3
        (fun e => ⟨(hE e).1, fun x hx => (hE e).2 x (List.mem_cons_of_mem _ hx)⟩)
      exact ⟨f0, c', n, o, codes, fun fuel hf => by rw [feeds, if_pos hk, k1 fuel hf], k2⟩
    · obtain ⟨f1, c1, n1, o1, code, k1, k2⟩ := encode_spec hpm h (inp.take (k taken.length)) room
      obtain ⟨ops1, d1, fr1, hp1, hch⟩ := k2.how
      have hle := k2.le
      have hlen : (taken ++ (inp.take (k taken.length)).take n1).length = taken.length + n1 := by
        rw [List.length_append, List.length_take, Nat.min_eq_left hle]
      rw [List.length_take] at hle
      have hpos : 0 < (inp.take (k taken.length)).length := List.length_pos_iff.2 hk
      rw [List.length_take] at hpos
      obtain ⟨f2, c2, n2, o2, codes, l1, l2, l3, ops2, d2, fr2, hp2, hq2, hq3⟩ := ih hp1 (inp.drop n1)
        (fun hl => by
          rw [hlen] at hl
          exact h.few (h3 (by omega)) hch (.inr ⟨hk, hl⟩))
        (fun e => by
          refine ⟨h.ample (hE e).1 hch ?_, ?_⟩
          · have := (hE e).2 (k, room) (List.mem_cons_self ..) taken.length (by omega) (by simp only; omega)
            rw [Nat.add_sub_cancel_left] at this
            rw [List.length_take]
            exact this
          · rw [hlen, List.length_drop, show taken.length + n1 + (inp.length - n1) = taken.length + inp.length by omega]
            exact fun x hx => (hE e).2 x (List.mem_cons_of_mem _ hx))
      rw [hlen] at l1
      rw [List.length_drop] at l2
      have hcat : taken ++ (inp.take (k taken.length)).take n1 ++ (inp.drop n1).take n2 = taken ++ inp.take (n1 + n2) := by
        rw [List.take_take, Nat.min_eq_left (by omega), List.append_assoc, ← List.take_add]
      rw [hcat] at hp2 hq2
      refine ⟨max f1 f2, c2, n1 + n2, o1 ++ o2, code :: codes, fun fuel hf => ?_, by omega, ?_, ops2, d2, fr2, ?_, hq2, hq3⟩
      · rw [feeds, if_neg hk, k1 fuel (by omega)]
        simp only [l1 fuel (by omega), Option.map_some]
      · intro x hx
        rcases List.mem_cons.1 hx with rfl | hx
        · rcases k2.cases with ⟨h, -⟩ | ⟨h, -⟩
          · exact .inl h
          · exact .inr h
        · exact l3 x hx
      · rw [← List.append_assoc]
        exact hp2

/-- **C94.**  A caller of `encode` who offers something each time, as much of the rest as they like, and then calls `flush` any
number of times, with output buffers of any sizes.  When `flush` reports success, with `n` bytes taken and a window of `L`:

* if the file restores the bytes taken, the last two digits of `n` in base `L` add up to at most `L`;
* it restores them if `n` is at most `3 * L - 2`;
* it restores them if each offer brings what the compressor needs in one piece (`RawCmd.owed`) at every place it covers. -/
theorem feeds_exact (o : Codec.Opts) (dw : Nat → Nat → Nat → List UInt8) (window : Option Int)
    (hpm : (Item.pm rawPm).Valid o dw (2 ^ (windowOf window).toNat)) (inp : List UInt8) (calls : List ((Nat → Nat) × Nat))
    (rooms : List Nat) :
    ∃ f0 c n out codes c' out' codes', n ≤ inp.length ∧ .failure ∉ codes ∧ .failure ∉ codes' ∧
      (∀ fuel, f0 ≤ fuel → feeds o dw fuel calls (.new window) 0 inp = some (c, n, out, codes) ∧
        flushes o dw fuel rooms c = some (c', out', codes')) ∧
      (codes'.getLast? = some .success →
        (Restores dw (out ++ out') (inp.take n) → RawCmd.Fair (2 ^ (windowOf window).toNat) n) ∧
        (n ≤ 3 * 2 ^ (windowOf window).toNat - 2 → Restores dw (out ++ out') (inp.take n)) ∧
        (Enough (2 ^ (windowOf window).toNat) inp.length calls → Restores dw (out ++ out') (inp.take n))) := by
  obtain ⟨f1, c, n, out, codes, h1, h2, h3, ops, done, fr, h4, h5, h6⟩ := feeds_spec (g := ⟨o, dw, window⟩) hpm
    (Enough (2 ^ (windowOf window).toNat) inp.length calls) calls (pushing_new ⟨o, dw, window⟩) inp (fun _ => once_nil _)
    (fun e => ⟨once_nil _, by rw [List.length_nil, Nat.zero_add]; exact e⟩)
  simp only [List.nil_append] at h4 h5
  obtain ⟨all, g1, g2⟩ := h4.closing
  obtain ⟨f2, c', out', codes', k1, k2, k3, k4⟩ := flushes_spec (g := ⟨o, dw, window⟩) hpm rooms g1
  try rw [List.nil_append] at k4
  refine ⟨max f1 f2, c, n, out, codes, c', out', codes', h2, fun h => ?_, fun h => ?_,
    fun fuel hf => ⟨h1 fuel (by omega), k1 fuel (by omega)⟩, fun hs => ?_⟩
  · rcases h3 _ h with h | h <;> cases h
  · rcases k2 _ h with h | h <;> cases h
  · obtain ⟨ha, he, hd⟩ := k4 hs
    have hi := raw_restores_iff (g := ⟨o, dw, window⟩) hpm g2 ha he hd
    have hn : (inp.take n).length = n := by rw [List.length_take, Nat.min_eq_left h2]
    rw [hn] at h5
    refine ⟨fun hr => ?_, fun hl => hi.2 (h5 hl), fun e => hi.2 (h6 e)⟩
    have := h4.fair (hi.1 hr)
    rwa [hn] at this

/-- A caller who always offers all of the rest gives enough, if the length is fair. -/
theorem enough_rest {L len : Nat} (hL : 2 ≤ L) (hf : RawCmd.Fair L len) {calls : List ((Nat → Nat) × Nat)}
    (h : ∀ x ∈ calls, ∀ t, t < len → x.1 t = 0 ∨ len - t ≤ x.1 t) : Enough L len calls := by
  intro x hx t ht hp
  rcases h x hx t ht with h | h
  · omega
  · rw [Nat.min_eq_right h]
    exact RawCmd.ample_rest hL hf ht

/-- A caller who cuts the data into pieces of `p` bytes and offers what is left of one gives enough, if the length is fair and `p` is a
multiple of the window, or the window is a multiple of `p` and there are less than `p + 1` windows. -/
theorem enough_blocks {L len p : Nat} (hL : 2 ≤ L) (hp : 0 < p) (hf : RawCmd.Fair L len) (hd : L ∣ p ∨ p ∣ L ∧ len < (p + 1) * L)
    {calls : List ((Nat → Nat) × Nat)} (h : ∀ x ∈ calls, ∀ t, x.1 t = (t / p + 1) * p - t) : Enough L len calls := by
  intro x hx t ht _
  have := RawCmd.ample_blocks hL hp hf ht hd
  rwa [h x hx t, show min ((t / p + 1) * p - t) (len - t) = min len ((t / p + 1) * p) - t by omega]

/-- **C94.**  A caller who always offers all of the rest, or one who cuts the data into pieces of a size that fits the window: when all
is taken and `flush` reports success, the file restores the data exactly if the last two digits of its length in base of
the window add up to at most the window. -/
theorem pieces_exact (o : Codec.Opts) (dw : Nat → Nat → Nat → List UInt8) (window : Option Int)
    (hpm : (Item.pm rawPm).Valid o dw (2 ^ (windowOf window).toNat)) (inp : List UInt8) (calls : List ((Nat → Nat) × Nat))
    (hcalls : (∀ x ∈ calls, ∀ t, t < inp.length → inp.length - t ≤ x.1 t) ∨
      ∃ p, 0 < p ∧ (2 ^ (windowOf window).toNat ∣ p ∨ p ∣ 2 ^ (windowOf window).toNat ∧ inp.length < (p + 1) * 2 ^ (windowOf window).toNat) ∧
        ∀ x ∈ calls, ∀ t, x.1 t = (t / p + 1) * p - t)
    (rooms : List Nat) :
    ∃ f0 c n out codes c' out' codes', n ≤ inp.length ∧
      (∀ fuel, f0 ≤ fuel → feeds o dw fuel calls (.new window) 0 inp = some (c, n, out, codes) ∧
        flushes o dw fuel rooms c = some (c', out', codes')) ∧
      (codes'.getLast? = some .success → n = inp.length →
        (Restores dw (out ++ out') inp ↔ RawCmd.Fair (2 ^ (windowOf window).toNat) inp.length)) := by
  obtain ⟨f0, c, n, out, codes, c', out', codes', h1, -, -, h2, h3⟩ := feeds_exact o dw window hpm inp calls rooms
  refine ⟨f0, c, n, out, codes, c', out', codes', h1, h2, fun hs hn => ?_⟩
  obtain ⟨k1, -, k2⟩ := h3 hs
  subst hn
  rw [List.take_length] at k1 k2
  refine ⟨k1, fun hf => k2 ?_⟩
  have hL := ring_two' ⟨o, dw, window⟩
  rcases hcalls with h | ⟨p, hp, hd, h⟩
  · exact enough_rest hL hf fun x hx t ht => .inr (h x hx t ht)
  · exact enough_blocks hL hp hf hd h

/-- **C94, any caller**, also one who calls `encode` with nothing.  When `flush` reports success, with `n` bytes taken and a window of `L`:
if the last two digits of `n` in base `L` add up to more than `L`, the file does not restore the bytes taken, but more
bytes; if `n` is at most `2 * L - 2`, it restores them. -/
theorem any_caller (o : Codec.Opts) (dw : Nat → Nat → Nat → List UInt8) (window : Option Int)
    (hpm : (Item.pm rawPm).Valid o dw (2 ^ (windowOf window).toNat)) (inp : List UInt8) (calls : List (Nat × Nat)) (rooms : List Nat) :
    ∃ f0 c n out codes c' out' codes', n ≤ inp.length ∧ .failure ∉ codes ∧ .failure ∉ codes' ∧
      (∀ fuel, f0 ≤ fuel → encodes o dw fuel calls (.new window) inp = some (c, n, out, codes) ∧
        flushes o dw fuel rooms c = some (c', out', codes')) ∧
      (codes'.getLast? = some .success →
        (¬ RawCmd.Fair (2 ^ (windowOf window).toNat) n →
          ¬ Restores dw (out ++ out') (inp.take n) ∧ ∃ data, Restores dw (out ++ out') data ∧ n < data.length) ∧
        (n ≤ 2 * 2 ^ (windowOf window).toNat - 2 → Restores dw (out ++ out') (inp.take n))) := by
  obtain ⟨f0, c, n, out, codes, c', out', codes', h1, h2, h3, h4, h5⟩ := raw_calls_partial o dw window hpm inp calls rooms
  refine ⟨f0, c, n, out, codes, c', out', codes', h1, h2, h3, h4, fun hs => ?_⟩
  obtain ⟨data, k1, k2, k3, k4, k5⟩ := h5 hs
  refine ⟨fun hf => ⟨fun hr => hf (k5 (restores_inj k1 hr)), data, k1, ?_⟩, fun hl => k4 hl ▸ k1⟩
  by_contra hc
  exact hf (k5 (k3 (by omega)))

/-! ## The theorems are not vacuous -/

/-- With a window of 1024: lengths that come back and lengths that do not.  The shortest one that does not is `3 * 1024 - 1`. -/
example : RawCmd.Fair 1024 3070 ∧ ¬ RawCmd.Fair 1024 3071 ∧ RawCmd.Fair 1024 3072 ∧ ¬ RawCmd.Fair 1024 500735 ∧ RawCmd.Fair 1024 500000 := by
  decide

/-- Settings and callers: all of the rest; pieces of 256 bytes; pieces of 65536 bytes. -/
example : (Item.pm rawPm).Valid Codec.demoOpts demoWords (2 ^ (windowOf (some 10)).toNat) ∧
    Enough 1024 5000 [(fun t => 5000 - t, 7), (fun t => 5000 - t, 100)] ∧
    Enough 1024 5000 [(fun t => (t / 256 + 1) * 256 - t, 7)] ∧
    Enough 1024 500000 [(fun t => (t / 65536 + 1) * 65536 - t, 7)] := by
  refine ⟨rawPm_valid rfl (by decide) (by decide) _ _, enough_rest (by decide) (by decide) ?_,
    enough_blocks (p := 256) (by decide) (by decide) (by decide) (.inr ⟨by decide, by decide⟩) ?_,
    enough_blocks (p := 65536) (by decide) (by decide) (by decide) (.inl (by decide)) ?_⟩
  · intro x hx t ht
    simp only [List.mem_cons, List.not_mem_nil, or_false] at hx
    rcases hx with rfl | rfl <;> exact .inr (Nat.le_refl _)
  · intro x hx t
    rw [List.mem_singleton.1 hx]
  · intro x hx t
    rw [List.mem_singleton.1 hx]

/-- A caller who offers one byte at a time does not give enough: at 3070 bytes two are needed. -/
example : ¬ Enough 1024 5000 [(fun _ => 1, 7)] := by
  intro h
  have := h _ (List.mem_singleton.2 rfl) 3070 (by decide) (by decide) 3070 (by decide) (.inr rfl)
  revert this
  decide

end Divans.Compressor
