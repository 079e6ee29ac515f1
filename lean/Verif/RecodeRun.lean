import Verif.RecodeLemmas

/-!
# What one call of the recoder does

`Inv L s E H`: the ring of size `L` holds the end of the history `H`; the bytes `E` given out so far
followed by the pending bytes of the ring are the history after its first `L` bytes (which are the
initial contents of the ring).
-/

namespace Divans.Recode

/-- The meaning of a command: what it appends to the history. -/
def applyCmd (h : List UInt8) : Cmd → List UInt8
  | .lit data => h ++ data
  | .copy d n => lzCopy h d n
  | .dict word _ => h ++ word
  | .other => h

/-- A command a ring of size `L` can carry out: distances are positive and below the ring size,
dictionary words fit and have the size they announce. -/
def Valid (L : Nat) : Cmd → Prop
  | .lit _ => True
  | .copy d _ => 0 < d ∧ d < L
  | .dict word finalSize => word.length < L ∧ (finalSize = 0 ∨ finalSize = word.length)
  | .other => True

instance (L : Nat) (c : Cmd) : Decidable (Valid L c) := by
  cases c <;> (unfold Valid; infer_instance)

/-- A command of which the first `k` bytes have been produced. -/
def part (h : List UInt8) (c : Cmd) (k : Nat) : List UInt8 :=
  match c with
  | .lit data => h ++ data.take k
  | .copy d _ => lzCopy h d k
  | .dict word _ => h ++ word.take k
  | .other => h

/-- The progress values that occur inside a command. -/
def SubOk : Cmd → Nat → Prop
  | .lit data, k => k ≤ data.length
  | .copy _ n, k => k ≤ n
  | .dict word _, k => k = 0 ∨ k = word.length
  | .other, k => k = 0

theorem part_zero (h : List UInt8) (c : Cmd) : part h c 0 = h := by
  cases c <;> simp [part, lzCopy]

theorem subOk_zero (c : Cmd) : SubOk c 0 := by
  cases c <;> simp [SubOk]

theorem subOk_le (c : Cmd) (k : Nat) (h : SubOk c k) : k ≤ c.size := by
  cases c <;> simp_all [SubOk, Cmd.size]
  rcases h with h | h <;> omega

theorem part_size (h : List UInt8) (c : Cmd) : part h c c.size = applyCmd h c := by
  cases c <;> simp [part, applyCmd, Cmd.size]

theorem part_length (h : List UInt8) (c : Cmd) (k : Nat) (hk : SubOk c k) :
    (part h c k).length = h.length + k := by
  cases c <;> simp_all [part, SubOk, lzCopy_length]
  rcases hk with hk | hk <;> omega

/-- The invariant of the recoder. -/
structure Inv (L : Nat) (s : St) (E H : List UInt8) : Prop where
  good : Good s
  len : s.len = L
  hist : Hist s H
  bytes : E ++ pending s = H.drop L
  total : s.total = E.length
  pos : s.dec = H.length % L

theorem pending_adv {s s' : St} {D : List UInt8} (g : Good s) (a : Adv s s' D) :
    pending s' = pending s ++ D := by
  have h1 := pend_lt s' a.good
  have h2 := a.pend
  have h3 := a.len
  have h4 := pend_lt s g
  rw [pending, a.window, List.drop_drop, a.len, a.pend,
    show D.length + (s.len - (pend s + D.length)) = s.len - pend s by omega,
    List.drop_append_of_le_length (by rw [window_length s g]; omega), pending]

theorem dec_adv {s s' : St} {D : List UInt8} (g : Good s) (a : Adv s s' D) :
    s'.dec = (s.dec + D.length) % s.len := by
  have h1 := a.good.dec
  have h2 := a.good.out
  have h3 := a.pend
  have h4 := a.len
  have h5 := a.out
  have h6 := g.dec
  have h7 := g.out
  have h8 := pend_lt s' a.good
  have hcase : s'.dec = s.dec + D.length ∨ s'.dec + s.len = s.dec + D.length := by
    unfold pend at h3 h8
    rw [h5, h4] at h3
    rw [h4] at h1
    split_ifs at h3 <;> omega
  rw [h4] at h1
  rcases hcase with h | h
  · rw [← h, Nat.mod_eq_of_lt h1]
  · rw [← h, Nat.add_mod_right, Nat.mod_eq_of_lt h1]

theorem Inv.adv {L : Nat} {s s' : St} {E H D : List UInt8} (i : Inv L s E H) (a : Adv s s' D) :
    Inv L s' E (H ++ D) := by
  refine ⟨a.good, a.len.trans i.len, i.hist.adv a, ?_, a.total.trans i.total,
    by rw [dec_adv i.good a, i.len, i.pos, List.length_append, Nat.mod_add_mod]⟩
  have := i.hist.long
  have := i.len
  rw [pending_adv i.good a, ← List.append_assoc, i.bytes,
    List.drop_append_of_le_length (by omega)]

theorem Inv.setSub {L : Nat} {s : St} {E H : List UInt8} (i : Inv L s E H) (k : Nat) :
    Inv L { s with sub := k } E H :=
  ⟨i.good.setSub k, i.len, ⟨i.hist.long, i.hist.window⟩, i.bytes, i.total, i.pos⟩

theorem Inv.flush {L : Nat} {s : St} {E H : List UInt8} (i : Inv L s E H) (room : Nat) :
    ∃ s' o r, flush s room = some (s', o, r) ∧ Inv L s' (E ++ o) H ∧ s'.sub = s.sub ∧
      o.length ≤ room ∧ pend s' = pend s - room ∧
      ((r = Res.ok ∧ pend s' = 0) ∨ (r = Res.more ∧ o.length = room ∧ 0 < pend s')) := by
  obtain ⟨s', h1, h2, h3, h4, h5, h6, h7, h8⟩ := flush_spec s i.good room
  have hpl := pending_length s i.good
  have hl : s'.len = s.len := by simp [St.len, h3]
  have hw : window s' = window s := by simp [window, h3, h4]
  refine ⟨s', _, _, h1, ⟨h2, hl.trans i.len, ⟨hl ▸ i.hist.long, ?_⟩, ?_, ?_, h4.trans i.pos⟩, h5, ?_, h7, ?_⟩
  · rw [hw, hl]; exact i.hist.window
  · rw [h8, List.append_assoc, List.take_append_drop]; exact i.bytes
  · rw [h6, i.total, List.length_append, List.length_take, hpl]; omega
  · simp; omega
  · by_cases hc : pend s ≤ room
    · left; rw [if_pos hc]; exact ⟨rfl, by omega⟩
    · right; rw [if_neg hc, List.length_take, hpl]; exact ⟨rfl, by omega, by omega⟩

theorem Inv.pend_lt {L : Nat} {s : St} {E H : List UInt8} (i : Inv L s E H) : pend s < L := by
  have := Recode.pend_lt s i.good; rw [i.len] at this; exact this

/-- Result of parsing: progress through the command. -/
structure Parsed (L : Nat) (c : Cmd) (h : List UInt8) (s s' : St) (r : Res) (E : List UInt8) :
    Prop where
  inv : Inv L s' E (part h c s'.sub)
  sub : SubOk c s'.sub
  mono : s.sub ≤ s'.sub
  res : r = Res.ok ∧ s'.sub = c.size ∨ r = Res.more ∧ (pend s = 0 → 1 < L → s.sub < s'.sub)

theorem parse_lit (L : Nat) (data : List UInt8) (h : List UInt8) (s : St) (E : List UInt8)
    (i : Inv L s E (part h (.lit data) s.sub)) (hs : s.sub ≤ data.length) :
    ∃ s' r, parseLiteral s data = some (s', r) ∧ Parsed L (.lit data) h s s' r E := by
  obtain ⟨s₁, hp, adv, hsub⟩ := put_spec s i.good (data.drop s.sub)
  have hsl := spaceLeft_eq s i.good
  have hil := i.len
  have hplt := i.pend_lt
  rw [parseLiteral, if_neg (by omega), hp]
  refine ⟨_, _, rfl, ?_⟩
  have hdl : (data.drop s.sub).length = data.length - s.sub := by simp
  obtain ⟨n, hn⟩ : ∃ n, n = min (data.drop s.sub).length (spaceLeft s) := ⟨_, rfl⟩
  rw [← hn] at adv ⊢
  have i' := (i.adv adv).setSub (s₁.sub + n)
  refine ⟨?_, ?_, ?_, ?_⟩
  · have e : part h (.lit data) (s₁.sub + n)
        = part h (.lit data) s.sub ++ (data.drop s.sub).take n := by
      simp only [part]
      rw [List.append_assoc, hsub, List.take_add]
    simp only [e]; exact i'
  · simp only [SubOk]; omega
  · simp only; omega
  · by_cases hc : n = (data.drop s.sub).length
    · left; rw [if_neg (by simpa using hc)]; exact ⟨rfl, by simp only [Cmd.size]; omega⟩
    · right; rw [if_pos hc]; refine ⟨rfl, fun h0 h1 => ?_⟩
      simp only; omega

theorem putTimes_spec (buf : List UInt8) (k : Nat) (s : St) (g : Good s)
    (hk : k * buf.length ≤ spaceLeft s) :
    ∃ s', putTimes buf k s = some (s', true) ∧ Adv s s' (List.replicate k buf).flatten ∧
      s'.sub = s.sub + k * buf.length := by
  induction k generalizing s with
  | zero => exact ⟨s, rfl, by simpa using Adv.refl s g, by simp⟩
  | succ k ih =>
    rw [Nat.succ_mul] at hk
    obtain ⟨s₁, hp, adv, hsub⟩ := put_spec s g buf
    have hmin : min buf.length (spaceLeft s) = buf.length := by omega
    rw [hmin, List.take_length] at adv
    rw [hmin] at hp
    have adv1 := adv.setSub (s₁.sub + buf.length)
    have hs1 := spaceLeft_eq _ adv1.good
    rw [adv1.pend, adv1.len] at hs1
    have hs0 := spaceLeft_eq s g
    obtain ⟨s₂, hp2, adv2, hsub2⟩ := ih _ adv1.good (by omega)
    refine ⟨s₂, ?_, ?_, ?_⟩
    · simp only [putTimes]
      rw [hp]
      simp only [ne_eq, not_true_eq_false, if_false]
      exact hp2
    · rw [List.replicate_succ, List.flatten_cons]; exact adv1.trans adv2
    · rw [hsub2, Nat.succ_mul]; simp only; omega

theorem parse_copy (L d n : Nat) (h : List UInt8) (s : St) (E : List UInt8)
    (i : Inv L s E (part h (.copy d n) s.sub)) (hs : s.sub ≤ n) (hd0 : 0 < d) (hd : d < L) :
    ∃ s' r, parseCopy s d n = some (s', r) ∧ Parsed L (.copy d n) h s s' r E := by
  have hsl := spaceLeft_eq s i.good
  have hil := i.len
  have hplt := i.pend_lt
  have hlong := i.hist.long
  have e0 : part h (.copy d n) s.sub = lzCopy h d s.sub := rfl
  rw [e0] at i hlong
  rw [parseCopy, if_neg (by omega)]
  simp only
  by_cases hc : d ≤ repeatMax ∧ d < n - s.sub
  · rw [if_pos hc]
    have hrb := readBack_spec s i.good _ i.hist d hd0 (by omega)
    have hD := lzCopy_repeat (lzCopy h d s.sub) d (min (n - s.sub) (spaceLeft s) / d)
      (min (n - s.sub) (spaceLeft s) - min (n - s.sub) (spaceLeft s) / d * d) (by omega)
      (by have h1 := Nat.div_add_mod (min (n - s.sub) (spaceLeft s)) d
          have h2 := Nat.mod_lt (min (n - s.sub) (spaceLeft s)) hd0
          rw [Nat.mul_comm] at h1; omega)
    obtain ⟨m, hm⟩ : ∃ m, m = min (n - s.sub) (spaceLeft s) := ⟨_, rfl⟩
    obtain ⟨buf, hbuf⟩ : ∃ buf, buf = (lzCopy h d s.sub).drop ((lzCopy h d s.sub).length - d) :=
      ⟨_, rfl⟩
    rw [← hbuf] at hrb hD
    rw [← hm] at hD
    have hbl : buf.length = d := by rw [hbuf]; simp; omega
    rw [copyRepeat]
    simp only
    rw [← hm, hrb]
    simp only
    rw [if_neg (by omega)]
    have hq : m / d * d ≤ m := Nat.div_mul_le_self m d
    obtain ⟨s₁, hp1, adv1, hsub1⟩ := putTimes_spec buf (m / d) s i.good (by rw [hbl]; omega)
    rw [hp1]
    simp only
    have hs1 := spaceLeft_eq _ adv1.good
    have hfl : ((List.replicate (m / d) buf).flatten).length = m / d * d := by simp [hbl]
    rw [adv1.pend, adv1.len, hfl] at hs1
    obtain ⟨s₂, hp2, adv2, hsub2⟩ := put_spec s₁ adv1.good (buf.take (m - m / d * d))
    have hrl : (buf.take (m - m / d * d)).length = m - m / d * d := by
      have h1 := Nat.div_add_mod m d
      have h2 := Nat.mod_lt m hd0
      rw [Nat.mul_comm] at h1
      simp; omega
    have hmin : min (buf.take (m - m / d * d)).length (spaceLeft s₁) = m - m / d * d := by omega
    rw [hmin, List.take_of_length_le (l := buf.take (m - m / d * d)) (by omega)] at adv2
    rw [hmin] at hp2
    rw [hp2]
    refine ⟨_, _, rfl, ?_⟩
    have i' := (i.adv (adv1.trans adv2)).setSub (s₂.sub + (m - m / d * d))
    rw [← List.append_assoc, ← hD] at i'
    rw [hbl] at hsub1
    have hsubF : s₂.sub + (m - m / d * d) = s.sub + m := by omega
    rw [show m / d * d + (m - m / d * d) = m by omega, ← lzCopy_add] at i'
    refine ⟨?_, ?_, ?_, ?_⟩
    · simp only [part, hsubF]; rw [hsubF] at i'; exact i'
    · simp only [SubOk, hsubF]; omega
    · simp only [hsubF]; omega
    · by_cases hf : m = n - s.sub
      · left; rw [if_neg (by omega)]; exact ⟨rfl, by simp only [Cmd.size, hsubF]; omega⟩
      · right; rw [if_pos (by omega)]; refine ⟨rfl, fun h0 h1 => ?_⟩
        simp only [hsubF]; omega
  · rw [if_neg hc]
    obtain ⟨s₁, k, hp, k1, k2, adv, hsub, k3⟩ := copySome_spec s i.good _ i.hist d
      (min (n - s.sub) d) hd0 (by omega) (by omega)
    rw [hp]
    refine ⟨_, _, rfl, ?_⟩
    have i' := (i.adv adv).setSub (s₁.sub + k)
    rw [← lzCopy_short _ _ _ (by omega) (by omega), ← lzCopy_add] at i'
    refine ⟨?_, ?_, ?_, ?_⟩
    · simp only [part, hsub]; rw [hsub] at i'; exact i'
    · simp only [SubOk]; omega
    · simp only; omega
    · by_cases hf : k = n - s.sub
      · left; rw [if_neg (by omega)]; exact ⟨rfl, by simp only [Cmd.size]; omega⟩
      · right; rw [if_pos hf]; refine ⟨rfl, fun h0 h1 => ?_⟩
        simp only
        have := k3 (by omega) (by omega)
        omega

theorem parse_dict (L : Nat) (w : List UInt8) (f : Nat) (h : List UInt8) (s : St) (E : List UInt8)
    (i : Inv L s E (part h (.dict w f) s.sub)) (hs : s.sub = 0 ∨ s.sub = w.length)
    (hw : w.length < L) (hf : f = 0 ∨ f = w.length) :
    ∃ s' r, parseDict s w f = some (s', r) ∧ Parsed L (.dict w f) h s s' r E := by
  have hsl := spaceLeft_eq s i.good
  have hil := i.len
  have hplt := i.pend_lt
  rw [parseDict]
  by_cases h1 : spaceLeft s < w.length
  · rw [if_pos h1]
    exact ⟨_, _, rfl, i, hs, Nat.le_refl _, Or.inr ⟨rfl, fun h0 _ => by omega⟩⟩
  · rw [if_neg h1, if_neg (by omega)]
    by_cases h2 : s.sub = 0
    · rw [if_neg (by omega)]
      obtain ⟨s₁, hp, adv, hsub⟩ := put_spec s i.good w
      have hmin : min w.length (spaceLeft s) = w.length := by omega
      rw [hmin, List.take_length] at adv
      rw [hmin] at hp
      rw [hp]
      simp only [ne_eq, not_true_eq_false, if_false]
      refine ⟨_, _, rfl, ?_⟩
      have i' := (i.adv adv).setSub w.length
      rw [h2, part_zero] at i'
      refine ⟨?_, Or.inr rfl, by simp only; omega, Or.inl ⟨rfl, rfl⟩⟩
      simp only [part, List.take_length]; exact i'
    · rw [if_pos h2, if_pos (by omega)]
      exact ⟨_, _, rfl, i, hs, Nat.le_refl _, Or.inl ⟨rfl, by simp only [Cmd.size]; omega⟩⟩

theorem parse_spec (L : Nat) (c : Cmd) (h : List UInt8) (s : St) (E : List UInt8)
    (i : Inv L s E (part h c s.sub)) (hs : SubOk c s.sub) (hv : Valid L c) :
    ∃ s' r, parse s c = some (s', r) ∧ Parsed L c h s s' r E := by
  cases c with
  | lit data => exact parse_lit L data h s E i hs
  | copy d n => exact parse_copy L d n h s E i hs hv.1 hv.2
  | dict w f => exact parse_dict L w f h s E i hs hv.1 hv.2
  | other => exact ⟨s, Res.ok, rfl, i, hs, Nat.le_refl _, Or.inl ⟨rfl, hs⟩⟩

/-- Result of one call for one command. -/
structure Called (L : Nat) (c : Cmd) (h : List UInt8) (s' : St) (o : List UInt8) (r : Res)
    (E : List UInt8) (room : Nat) : Prop where
  bound : o.length ≤ room
  cases : (r = Res.ok ∧ s'.sub = 0 ∧ Inv L s' (E ++ o) (applyCmd h c)) ∨
    (r = Res.more ∧ o.length = room ∧ SubOk c s'.sub ∧ Inv L s' (E ++ o) (part h c s'.sub))

theorem Called.prepend {L : Nat} {c : Cmd} {h : List UInt8} {s' : St} {o o' : List UInt8} {r : Res}
    {E : List UInt8} {room : Nat} (hr : o.length ≤ room)
    (k : Called L c h s' o' r (E ++ o) (room - o.length)) :
    Called L c h s' (o ++ o') r E room := by
  have := k.bound
  refine ⟨by rw [List.length_append]; omega, ?_⟩
  rcases k.cases with ⟨a, b, d⟩ | ⟨a, b, d, e⟩
  · left; rw [← List.append_assoc]; exact ⟨a, b, d⟩
  · right; rw [← List.append_assoc, List.length_append]; exact ⟨a, by omega, d, e⟩

theorem finish_spec (L : Nat) (c : Cmd) (h : List UInt8) (s : St) (E : List UInt8) (room : Nat)
    (i : Inv L s E (part h c s.sub)) (hs : s.sub = c.size) (hok : SubOk c s.sub) :
    ∃ s' o r, finishCmd s room = Run.done (s', o, r) ∧ Called L c h s' o r E room := by
  have i0 := i
  rw [hs, part_size] at i
  rw [finishCmd]
  by_cases hc : s.dec / 1024 = s.out / 1024
  · rw [if_pos hc]
    exact ⟨_, _, _, rfl, by simp, Or.inl ⟨rfl, rfl, by simpa using i.setSub 0⟩⟩
  · rw [if_neg hc]
    obtain ⟨s', o, r, hf, i', hsub, hb, hp, hr⟩ := i.flush room
    rw [hf]
    rcases hr with ⟨rfl, _⟩ | ⟨rfl, hl, _⟩
    · exact ⟨_, _, _, rfl, hb, Or.inl ⟨rfl, rfl, i'.setSub 0⟩⟩
    · refine ⟨_, _, _, rfl, hb, Or.inr ⟨rfl, hl, hsub ▸ hok, ?_⟩⟩
      rw [hsub, hs, part_size]; exact i'

/-- Iterations `encode_cmd` still needs. -/
def need (c : Cmd) (s : St) : Nat := c.size - s.sub + (if pend s = 0 then 1 else 2)

theorem encodeLoop_spec (L : Nat) (hL : 1 < L) (c : Cmd) (hv : Valid L c) (h : List UInt8)
    (fuel : Nat) (s : St) (E : List UInt8) (room : Nat)
    (i : Inv L s E (part h c s.sub)) (hs : SubOk c s.sub) (hfuel : need c s ≤ fuel) :
    ∃ s' o r, encodeLoop fuel s c room = Run.done (s', o, r) ∧ Called L c h s' o r E room := by
  induction fuel generalizing s E room with
  | zero => unfold need at hfuel; split_ifs at hfuel <;> omega
  | succ fuel ih =>
    obtain ⟨s₁, r₁, hp, P⟩ := parse_spec L c h s E i hs hv
    simp only [encodeLoop]
    rw [hp]
    rcases P.res with ⟨rfl, hfin⟩ | ⟨rfl, hprog⟩
    · exact finish_spec L c h s₁ E room P.inv hfin P.sub
    · simp only
      obtain ⟨s₂, o, r, hf, i', hsub, hb, hpd, hr⟩ := P.inv.flush room
      rw [hf]
      rcases hr with ⟨rfl, hp0⟩ | ⟨rfl, hl, hpos⟩
      · simp only
        have hm := P.mono
        have hle := subOk_le c _ P.sub
        have hneed : need c s₂ ≤ fuel := by
          unfold need at hfuel ⊢
          rw [if_pos hp0]
          by_cases h0 : pend s = 0
          · rw [if_pos h0] at hfuel
            have := hprog h0 hL
            omega
          · rw [if_neg h0] at hfuel
            omega
        obtain ⟨s₃, o₃, r₃, he, C⟩ := ih s₂ (E ++ o) (room - o.length)
          (by rw [hsub]; exact i') (by rw [hsub]; exact P.sub) hneed
        rw [he]
        exact ⟨s₃, _, r₃, rfl, C.prepend hb⟩
      · exact ⟨_, _, _, rfl, hb, Or.inr ⟨rfl, hl, by rw [hsub]; exact P.sub,
          by rw [hsub]; exact i'⟩⟩

theorem need_le (c : Cmd) (s : St) : need c s ≤ c.size + 2 := by
  unfold need; split_ifs <;> omega

theorem encodeCmd_spec (L : Nat) (hL : 1 < L) (c : Cmd) (hv : Valid L c) (h : List UInt8)
    (s : St) (E : List UInt8) (room : Nat)
    (i : Inv L s E (part h c s.sub)) (hs : SubOk c s.sub) :
    ∃ s' o r, encodeCmd s c room = Run.done (s', o, r) ∧ Called L c h s' o r E room :=
  encodeLoop_spec L hL c hv h _ s E room i hs (need_le c s)

/-- More fuel does not change a result. -/
theorem encodeLoop_mono (fuel : Nat) (s : St) (c : Cmd) (room : Nat)
    (h : encodeLoop fuel s c room ≠ Run.spin) (k : Nat) :
    encodeLoop (fuel + k) s c room = encodeLoop fuel s c room := by
  induction fuel generalizing s room with
  | zero => exact absurd rfl h
  | succ fuel ih =>
    rw [Nat.succ_add]
    simp only [encodeLoop] at h ⊢
    match hp : parse s c with
    | none => rfl
    | some (s', Res.fail) => rfl
    | some (s', Res.ok) => rfl
    | some (s', Res.more) =>
      rw [hp] at h
      simp only at h ⊢
      match hf : flush s' room with
      | none => rfl
      | some (s'', o, Res.more) => rfl
      | some (s'', o, Res.fail) => rfl
      | some (s'', o, Res.ok) =>
        rw [hf] at h
        simp only at h ⊢
        rw [ih]
        intro hn
        rw [hn] at h
        exact h rfl

theorem oneOfMany_spec (L : Nat) (hL : 1 < L) (c : Cmd) (hv : Valid L c) (h : List UInt8)
    (fuel : Nat) (s : St) (E : List UInt8) (room : Nat)
    (i : Inv L s E (part h c s.sub)) (hs : SubOk c s.sub) (hfuel : c.size - s.sub + 1 ≤ fuel) :
    ∃ s' o r, oneOfMany fuel s c room = Run.done (s', o, r) ∧ Called L c h s' o r E room := by
  induction fuel generalizing s E room with
  | zero => omega
  | succ fuel ih =>
    simp only [oneOfMany]
    obtain ⟨s₁, o, r, hf, i', hsub, hb, hpd, hr⟩ := i.flush room
    rw [hf]
    rcases hr with ⟨rfl, hp0⟩ | ⟨rfl, hl, hpos⟩
    · simp only
      obtain ⟨s₂, r₂, hp, P⟩ := parse_spec L c h s₁ (E ++ o) (by rw [hsub]; exact i')
        (by rw [hsub]; exact hs) hv
      rw [hp]
      rcases P.res with ⟨rfl, hfin⟩ | ⟨rfl, hprog⟩
      · refine ⟨_, _, _, rfl, hb, Or.inl ⟨rfl, rfl, ?_⟩⟩
        have := P.inv
        rw [hfin, part_size] at this
        exact this.setSub 0
      · simp only
        have hlt := hprog hp0 hL
        have hle := subOk_le c _ P.sub
        obtain ⟨s₃, o₃, r₃, he, C⟩ := ih s₂ (E ++ o) (room - o.length) P.inv P.sub (by omega)
        rw [he]
        exact ⟨s₃, _, r₃, rfl, C.prepend hb⟩
    · exact ⟨_, _, _, rfl, hb, Or.inr ⟨rfl, hl, by rw [hsub]; exact hs, by rw [hsub]; exact i'⟩⟩

end Divans.Recode
