import Verif.Recode
import Mathlib.Tactic.SplitIfs

/-!
# Lemmas about the recoder

The ring is read as a window on the bytes produced so far: `window` is the ring rotated so that the
byte at the decode index, the oldest one, comes first.
-/

namespace Divans.Recode

/-! ## The specification of a copy -/

/-- LZ77 copy: `n` times, append the byte that is `d` bytes back. -/
def lzCopy : List UInt8 → Nat → Nat → List UInt8
  | h, _, 0 => h
  | h, d, n + 1 => lzCopy (h ++ [h.getD (h.length - d) 0]) d n

theorem lzCopy_add (h : List UInt8) (d a b : Nat) :
    lzCopy h d (a + b) = lzCopy (lzCopy h d a) d b := by
  induction a generalizing h with
  | zero => simp [lzCopy]
  | succ a ih => rw [Nat.succ_add_eq_add_succ, Nat.add_succ]; simp only [lzCopy]; rw [ih]

theorem lzCopy_length (h : List UInt8) (d n : Nat) : (lzCopy h d n).length = h.length + n := by
  induction n generalizing h with
  | zero => rfl
  | succ n ih => simp only [lzCopy]; rw [ih]; simp; omega

theorem lzCopy_short (h : List UInt8) (d n : Nat) (hn : n ≤ d) (hd : d ≤ h.length) :
    lzCopy h d n = h ++ (h.drop (h.length - d)).take n := by
  induction n with
  | zero => simp [lzCopy]
  | succ n ih =>
    rw [lzCopy_add, ih (by omega)]
    simp only [lzCopy]
    have hlen : (h ++ (h.drop (h.length - d)).take n).length = h.length + n := by
      simp; omega
    rw [hlen, List.append_assoc]
    congr 1
    rw [List.take_add_one]
    congr 1
    have h1 : h.length + n - d < h.length := by omega
    rw [List.getElem?_drop, show h.length - d + n = h.length + n - d by omega,
      List.getElem?_eq_getElem h1, List.getD_eq_getElem?_getD, List.getElem?_append_left h1,
      List.getElem?_eq_getElem h1]
    rfl

theorem drop_len_add (a b : List UInt8) (i : Nat) : (a ++ b).drop (a.length + i) = b.drop i := by
  rw [← List.drop_drop, List.drop_left]

theorem drop_append_last (h w : List UInt8) : (h ++ w).drop ((h ++ w).length - w.length) = w := by
  simp

/-- A copy longer than its distance repeats the last `d` bytes. -/
theorem lzCopy_repeat (h : List UInt8) (d k r : Nat) (hd : d ≤ h.length) (hr : r ≤ d) :
    lzCopy h d (k * d + r) =
      h ++ (List.replicate k (h.drop (h.length - d))).flatten
        ++ (h.drop (h.length - d)).take r := by
  induction k generalizing h with
  | zero => simp [lzCopy_short h d r hr hd]
  | succ k ih =>
    have e : (k + 1) * d + r = d + (k * d + r) := by rw [Nat.succ_mul]; omega
    rw [e, lzCopy_add, lzCopy_short h d d (Nat.le_refl _) hd]
    have hl : (h.drop (h.length - d)).length = d := by simp; omega
    have ht : (h.drop (h.length - d)).take d = h.drop (h.length - d) := by
      apply List.take_of_length_le; omega
    rw [ht]
    rw [ih (h ++ h.drop (h.length - d)) (by simp; omega)]
    have hdd : (h ++ h.drop (h.length - d)).drop ((h ++ h.drop (h.length - d)).length - d)
        = h.drop (h.length - d) := by
      conv => lhs; arg 1; arg 2; rw [← hl]
      exact drop_append_last _ _
    rw [hdd, List.replicate_succ, List.flatten_cons]
    simp only [List.append_assoc]

/-! ## The window -/

/-- The ring read from its oldest byte to its newest. -/
def window (s : St) : List UInt8 := s.mem.drop s.dec ++ s.mem.take s.dec

/-- Both indices lie inside the ring. -/
structure Good (s : St) : Prop where
  dec : s.dec < s.len
  out : s.out < s.len

/-- Number of decoded bytes not given out. -/
def pend (s : St) : Nat := if s.out ≤ s.dec then s.dec - s.out else s.dec + s.len - s.out

/-- The decoded bytes not given out. -/
def pending (s : St) : List UInt8 := (window s).drop (s.len - pend s)

theorem window_length (s : St) (g : Good s) : (window s).length = s.len := by
  have := g.dec
  simp only [St.len] at *
  simp [window]
  omega

theorem pend_lt (s : St) (g : Good s) : pend s < s.len := by
  have := g.dec; have := g.out
  unfold pend; split_ifs <;> omega

theorem pending_length (s : St) (g : Good s) : (pending s).length = pend s := by
  have := pend_lt s g
  simp [pending, window_length s g]; omega

theorem spaceLeft_eq (s : St) (g : Good s) : spaceLeft s = s.len - 1 - pend s := by
  have := g.dec; have := g.out
  unfold spaceLeft pend; split_ifs <;> omega

/-- `D` has been appended to the ring. -/
structure Adv (s s' : St) (D : List UInt8) : Prop where
  good : Good s'
  len : s'.len = s.len
  out : s'.out = s.out
  total : s'.total = s.total
  window : window s' = (window s ++ D).drop D.length
  pend : pend s' = pend s + D.length

theorem Adv.refl (s : St) (g : Good s) : Adv s s [] :=
  ⟨g, rfl, rfl, rfl, by simp, by simp⟩

theorem Adv.trans {s s₁ s₂ : St} {D₁ D₂ : List UInt8} (h₁ : Adv s s₁ D₁) (h₂ : Adv s₁ s₂ D₂) :
    Adv s s₂ (D₁ ++ D₂) := by
  refine ⟨h₂.good, h₂.len.trans h₁.len, h₂.out.trans h₁.out, h₂.total.trans h₁.total, ?_, ?_⟩
  · rw [h₂.window, h₁.window]
    have hl : D₁.length ≤ (Recode.window s ++ D₁).length := by simp
    rw [← List.append_assoc, List.length_append, ← List.drop_drop, List.drop_append_of_le_length hl]
  · rw [h₂.pend, h₁.pend, List.length_append]; omega

/-- Changing only the progress counter changes nothing in the ring. -/
theorem Adv.setSub {s s' : St} {D : List UInt8} (h : Adv s s' D) (k : Nat) :
    Adv s { s' with sub := k } D :=
  ⟨⟨h.good.dec, h.good.out⟩, h.len, h.out, h.total, h.window, h.pend⟩

theorem Good.setSub {s : St} (h : Good s) (k : Nat) : Good { s with sub := k } := ⟨h.dec, h.out⟩

theorem wrapIdx_lt (len i : Nat) (h : i ≤ len) (h0 : 0 < len) : wrapIdx len i < len := by
  unfold wrapIdx; split_ifs <;> omega

/-- Writing `data` at the decode index without passing the end of the ring. -/
theorem write_adv (s : St) (g : Good s) (data : List UInt8)
    (hfit : s.dec + data.length ≤ s.len) (hsp : data.length ≤ spaceLeft s) :
    ∃ mem, write? s.mem s.dec data = some mem ∧
      Adv s { s with mem := mem, dec := wrapIdx s.len (s.dec + data.length) } data := by
  have hd := g.dec; have ho := g.out
  have hsl := spaceLeft_eq s g
  have hml : s.len = s.mem.length := rfl
  refine ⟨s.mem.take s.dec ++ data ++ s.mem.drop (s.dec + data.length), ?_, ?_⟩
  · rw [write?, if_pos (by rw [← hml]; exact hfit)]
  · have hlen : (s.mem.take s.dec ++ data ++ s.mem.drop (s.dec + data.length)).length
        = s.mem.length := by simp; omega
    have hpl := pend_lt s g
    refine ⟨⟨?_, ?_⟩, ?_, rfl, rfl, ?_, ?_⟩
    · simp only [St.len, hlen]
      exact wrapIdx_lt _ _ hfit (by omega)
    · simp only [St.len, hlen]; omega
    · simp only [St.len, hlen]
    · have hA : (s.mem.take s.dec).length = s.dec := by simp; omega
      simp only [Recode.window, wrapIdx]
      by_cases he : s.dec + data.length = s.len
      · rw [if_pos he]
        have hnil : s.mem.drop (s.dec + data.length) = [] := by
          apply List.drop_eq_nil_of_le; omega
        rw [hnil]
        have hB : (s.mem.drop s.dec).length = data.length := by simp; omega
        simp only [List.drop_zero, List.take_zero, List.append_nil, List.append_assoc]
        rw [← hB, List.drop_left]
      · rw [if_neg he]
        have e1 : (s.mem.take s.dec ++ data).length = s.dec + data.length := by
          rw [List.length_append, hA]
        rw [← e1, List.drop_left, List.take_left, e1]
        rw [List.append_assoc (s.mem.drop s.dec), List.drop_append_of_le_length (by simp; omega),
          List.drop_drop]
    · rw [hsl] at hsp
      have hgoal : ∀ L dec out n : Nat, dec < L → out < L → dec + n ≤ L →
          n ≤ L - 1 - (if out ≤ dec then dec - out else dec + L - out) →
          (if out ≤ (if dec + n = L then 0 else dec + n) then
              (if dec + n = L then 0 else dec + n) - out
            else (if dec + n = L then 0 else dec + n) + L - out)
            = (if out ≤ dec then dec - out else dec + L - out) + n := by
        intro L dec out n h1 h2 h3 h4
        by_cases c1 : out ≤ dec
        · rw [if_pos c1] at h4 ⊢
          by_cases c2 : dec + n = L
          · rw [if_pos c2]
            by_cases c3 : out ≤ 0
            · rw [if_pos c3]; omega
            · rw [if_neg c3]; omega
          · rw [if_neg c2, if_pos (by omega)]; omega
        · rw [if_neg c1] at h4 ⊢
          rw [if_neg (show ¬ dec + n = L by omega), if_neg (by omega)]; omega
      have := hgoal s.len s.dec s.out data.length hd ho hfit hsp
      simp only [Recode.pend, wrapIdx, St.len, hlen] at this ⊢
      exact this

/-- `put` appends as many bytes as there is space for. -/
theorem put_spec (s : St) (g : Good s) (data : List UInt8) :
    ∃ s', put s data = some (s', min data.length (spaceLeft s)) ∧
      Adv s s' (data.take (min data.length (spaceLeft s))) ∧ s'.sub = s.sub := by
  have hd := g.dec; have ho := g.out
  have hsl := spaceLeft_eq s g
  have hpl := pend_lt s g
  have hml : s.len = s.mem.length := rfl
  obtain ⟨D, hD⟩ : ∃ D, D = data.take (min data.length (spaceLeft s)) := ⟨_, rfl⟩
  have hDl : D.length = min data.length (spaceLeft s) := by rw [hD]; simp
  rw [← hDl]
  have hput : put s data =
      (match write? s.mem s.dec (D.take (min D.length (s.len - s.dec))) with
      | none => none
      | some mem =>
        if s.dec + min D.length (s.len - s.dec) = s.len then
          match write? mem 0 (D.drop (min D.length (s.len - s.dec))) with
          | none => none
          | some mem => some ({ s with mem := mem, dec := (D.drop (min D.length (s.len - s.dec))).length },
              min D.length (s.len - s.dec) + (D.drop (min D.length (s.len - s.dec))).length)
        else some ({ s with mem := mem, dec := s.dec + min D.length (s.len - s.dec) },
          min D.length (s.len - s.dec))) := by
    rw [put, ← hD]; rfl
  obtain ⟨a, ha⟩ : ∃ a, a = min D.length (s.len - s.dec) := ⟨_, rfl⟩
  rw [← ha] at hput
  have hal : (D.take a).length = a := by simp; omega
  obtain ⟨mem, hw, adv⟩ := write_adv s g (D.take a) (by omega) (by omega)
  rw [hw] at hput
  rw [hal] at adv
  rw [show data.take D.length = D by rw [hDl, hD]]
  by_cases he : s.dec + a = s.len
  · simp only [if_pos he] at hput
    simp only [wrapIdx, if_pos he] at adv
    have hlen1 : mem.length = s.mem.length := adv.len
    have hsp1 := spaceLeft_eq _ adv.good
    rw [adv.pend, adv.len, hal] at hsp1
    have hdl : (D.drop a).length = D.length - a := by simp
    obtain ⟨mem2, hw2, adv2⟩ := write_adv _ adv.good (D.drop a)
      (by simp only [adv.len]; omega) (by rw [hsp1]; omega)
    simp only at hw2
    rw [hw2] at hput
    have hwr : wrapIdx mem.length (0 + (D.drop a).length) = (D.drop a).length := by
      rw [wrapIdx, if_neg (by omega)]; omega
    have adv3 := adv.trans adv2
    rw [List.take_append_drop] at adv3
    simp only [St.len] at adv3
    rw [hwr] at adv3
    refine ⟨_, ?_, adv3, rfl⟩
    rw [hput]
    simp only [Option.some.injEq, Prod.mk.injEq, true_and]
    omega
  · simp only [if_neg he] at hput
    have hDa : a = D.length := by omega
    simp only [wrapIdx, if_neg he] at adv
    rw [hDa, List.take_length] at adv
    refine ⟨_, ?_, adv, rfl⟩
    rw [hput, hDa]

/-- The window is the end of the history `H`. -/
structure Hist (s : St) (H : List UInt8) : Prop where
  long : s.len ≤ H.length
  window : window s = H.drop (H.length - s.len)

theorem Hist.adv {s s' : St} {H D : List UInt8} (h : Hist s H) (a : Adv s s' D) :
    Hist s' (H ++ D) := by
  refine ⟨?_, ?_⟩
  · rw [a.len, List.length_append]; have := h.long; omega
  · rw [a.window, h.window, a.len]
    have := h.long
    rw [← List.drop_append_of_le_length (by omega), List.drop_drop]
    congr 1
    rw [List.length_append]; omega

theorem drop_window (s : St) (H : List UInt8) (h : Hist s H) (d : Nat)
    (hd : d ≤ s.len) : (window s).drop (s.len - d) = H.drop (H.length - d) := by
  have := h.long
  rw [h.window, List.drop_drop]; congr 1; omega

/-- Reading `n` bytes in one piece at distance `d`. -/
theorem slice_back (s : St) (g : Good s) (H : List UInt8) (h : Hist s H) (d n : Nat)
    (hd : d ≤ s.len) (hn : n ≤ d) (src : Nat)
    (hsrc : (d ≤ s.dec ∧ src = s.dec - d) ∨
      (s.dec < d ∧ src = s.dec + s.len - d ∧ n ≤ s.len - src)) :
    slice? s.mem src n = some ((H.drop (H.length - d)).take n) := by
  have hdd := g.dec
  have hml : s.len = s.mem.length := rfl
  rw [← drop_window s H h d hd]
  rw [slice?, if_pos (by omega)]
  congr 1
  rw [window]
  rcases hsrc with ⟨h1, h2⟩ | ⟨h1, h2, h3⟩
  · have : s.len - d = (s.mem.drop s.dec).length + (s.dec - d) := by simp; omega
    rw [this, drop_len_add, h2, List.drop_take]
    rw [List.take_take]
    congr 1; omega
  · rw [List.drop_append_of_le_length (by simp; omega), List.drop_drop,
      List.take_append_of_le_length (by simp; omega)]
    congr 2; omega

/-- `copySome` appends a non-empty piece of the copy whenever there is space. -/
theorem copySome_spec (s : St) (g : Good s) (H : List UInt8) (h : Hist s H) (d want : Nat)
    (hd0 : 0 < d) (hd : d < s.len) (hw : want ≤ d) :
    ∃ s' n, copySome s d want = some (s', some n) ∧ n ≤ want ∧ n ≤ spaceLeft s ∧
      Adv s s' ((H.drop (H.length - d)).take n) ∧ s'.sub = s.sub ∧
      (0 < want → 0 < spaceLeft s → 0 < n) := by
  have hdd := g.dec
  have hml : s.len = s.mem.length := rfl
  have hlong := h.long
  obtain ⟨src, hs, hcase⟩ : ∃ src, srcIndex s d = some src ∧
      ((d ≤ s.dec ∧ src = s.dec - d) ∨ (s.dec < d ∧ src = s.dec + s.len - d)) := by
    by_cases hc : d ≤ s.dec
    · exact ⟨s.dec - d, by rw [srcIndex, if_pos hc], Or.inl ⟨hc, rfl⟩⟩
    · exact ⟨s.dec + s.len - d, by rw [srcIndex, if_neg hc, if_pos (by omega)],
        Or.inr ⟨by omega, rfl⟩⟩
  obtain ⟨n, hn⟩ : ∃ n, n = chunk s src want := ⟨_, rfl⟩
  have hnle : n ≤ want ∧ n ≤ spaceLeft s ∧ n ≤ s.len - s.dec ∧ n ≤ s.len - src ∧
      (0 < want → 0 < spaceLeft s → 0 < n) := by
    unfold chunk at hn
    simp only at hn
    split_ifs at hn <;> (rw [hn]; omega)
  obtain ⟨n1, n2, n3, n4, n5⟩ := hnle
  have hsl := slice_back s g H h d n (by omega) (by omega) src
    (by rcases hcase with c | c
        · exact Or.inl c
        · exact Or.inr ⟨c.1, c.2, n4⟩)
  have hDl : ((H.drop (H.length - d)).take n).length = n := by simp; omega
  obtain ⟨mem, hwr, adv⟩ := write_adv s g ((H.drop (H.length - d)).take n)
    (by rw [hDl]; omega) (by rw [hDl]; exact n2)
  rw [hDl] at adv
  refine ⟨{ s with mem := mem, dec := wrapIdx s.len (s.dec + n) }, n, ?_, n1, n2, adv, rfl, n5⟩
  rw [copySome, hs]
  simp only
  rw [if_neg (by omega), ← hn, if_neg (by omega), hsl]
  simp only [hwr]

/-- `readBack` gives the last `d` bytes. -/
theorem readBack_spec (s : St) (g : Good s) (H : List UInt8) (h : Hist s H) (d : Nat)
    (hd0 : 0 < d) (hd : d < s.len) :
    readBack s d d = some (H.drop (H.length - d)) := by
  have hdd := g.dec
  have hml : s.len = s.mem.length := rfl
  have hlong := h.long
  have hfull : (H.drop (H.length - d)).take d = H.drop (H.length - d) := by
    apply List.take_of_length_le; simp; omega
  by_cases hc : s.dec < d
  · rw [readBack, if_pos hc]
    simp only
    rw [if_pos (by omega), show min (d - s.dec) d = d - s.dec by omega,
      show s.len - (d - s.dec) = s.dec + s.len - d by omega,
      show d - (d - s.dec) = s.dec by omega]
    rw [slice_back s g H h d (d - s.dec) (by omega) (by omega) _
      (Or.inr ⟨hc, rfl, by omega⟩)]
    simp only
    have hlast := drop_window s H h s.dec (by omega)
    have hA : (window s).drop (s.len - s.dec) = s.mem.take s.dec := by
      rw [window, show s.len - s.dec = (s.mem.drop s.dec).length by simp; omega, List.drop_left]
    have hcat : (H.drop (H.length - d)).take (d - s.dec) ++ s.mem.take s.dec
        = H.drop (H.length - d) := by
      rw [← hA, hlast]
      have : H.drop (H.length - s.dec) = (H.drop (H.length - d)).drop (d - s.dec) := by
        rw [List.drop_drop]; congr 1; omega
      rw [this, List.take_append_drop]
    by_cases h0 : s.dec = 0
    · rw [if_neg (by omega)]
      rw [h0] at hcat ⊢
      simpa using hcat
    · rw [if_pos (by omega), slice?, if_pos (by omega)]
      simp only [List.drop_zero]
      rw [hcat]
  · rw [readBack, if_neg hc, if_pos (by omega),
      slice_back s g H h d d (by omega) (by omega) _ (Or.inl ⟨by omega, rfl⟩), hfull]

/-- `flush` gives out the pending bytes in order, as many as fit. -/
theorem flush_spec (s : St) (g : Good s) (room : Nat) :
    ∃ s', flush s room = some (s', (pending s).take room,
        if pend s ≤ room then Res.ok else Res.more) ∧
      Good s' ∧ s'.mem = s.mem ∧ s'.dec = s.dec ∧ s'.sub = s.sub ∧
      s'.total = s.total + min (pend s) room ∧
      pend s' = pend s - room ∧ pending s' = (pending s).drop room := by
  have hd := g.dec; have ho := g.out
  have hml : s.len = s.mem.length := rfl
  have hpl := pend_lt s g
  -- it is enough to find the new output index and the bytes
  suffices hmain : ∃ o', flush s room = some ({ s with out := o', total := s.total + min (pend s) room },
        (pending s).take room, if pend s ≤ room then Res.ok else Res.more) ∧
      o' < s.len ∧ pend { s with out := o' } = pend s - room by
    obtain ⟨o', h1, h2, h3⟩ := hmain
    refine ⟨_, h1, ⟨hd, h2⟩, rfl, rfl, rfl, rfl, h3, ?_⟩
    have h3' : pend { s with out := o', total := s.total + min (pend s) room } = pend s - room := h3
    rw [pending, h3', pending, List.drop_drop]
    by_cases hr : room ≤ pend s
    · congr 1; simp only [St.len]; omega
    · have hnil : ∀ (l : List UInt8) i, l.length ≤ i → l.drop i = [] :=
        fun l i h => List.drop_eq_nil_of_le h
      rw [hnil _ _ (by have := window_length s g
                       have e : window { s with out := o', total := s.total + min (pend s) room } = window s := rfl
                       rw [e, this]; simp only [St.len]; omega),
        hnil _ _ (by rw [window_length s g]; omega)]
  by_cases hc : s.dec < s.out
  · have hp : pend s = s.dec + s.len - s.out := by rw [pend, if_neg (by omega)]
    have hpd : pending s = s.mem.drop s.out ++ s.mem.take s.dec := by
      rw [pending, hp, window, List.drop_append_of_le_length (by simp; omega), List.drop_drop]
      congr 2; omega
    obtain ⟨n, hn⟩ : ∃ n, n = min (s.len - s.out) room := ⟨_, rfl⟩
    have hfar : flushFar s room
        = some ({ s with out := wrapIdx s.len (s.out + n) }, (s.mem.drop s.out).take n) := by
      rw [flushFar, if_pos hc, if_pos (by omega)]
      simp only
      rw [← hn, slice?, if_pos (by omega)]
    have hol : ((s.mem.drop s.out).take n).length = n := by simp; omega
    by_cases hw : s.out + n = s.len
    · have hwi : wrapIdx s.len (s.out + n) = 0 := by rw [wrapIdx, if_pos hw]
      rw [hwi] at hfar
      have htake : (s.mem.drop s.out).take n = s.mem.drop s.out := by
        apply List.take_of_length_le; simp; omega
      have hdl : (s.mem.drop s.out).length = n := by rw [← htake, hol]
      by_cases hr : room - n ≠ 0 ∧ 0 < s.dec
      · obtain ⟨k, hk⟩ : ∃ k, k = min s.dec (room - n) := ⟨_, rfl⟩
        have hnear : flushNear { s with out := 0 } (room - n)
            = some ({ s with out := k }, s.mem.take k) := by
          rw [flushNear, if_pos (by exact hr)]
          simp only [Nat.sub_zero]
          rw [← hk, slice?, if_pos (by omega)]
          simp only [List.drop_zero, Nat.zero_add]
          rw [wrapIdx, if_neg (by simp only [St.len]; omega)]
        refine ⟨k, ?_, by omega, ?_⟩
        · rw [flush, hfar]; simp only [hol]; rw [hnear]
          simp only
          have hcat : (s.mem.drop s.out).take n ++ s.mem.take k = (pending s).take room := by
            rw [hpd, htake, List.take_append, hdl,
              List.take_of_length_le (l := s.mem.drop s.out) (by omega), List.take_take]
            congr 2; omega
          rw [hcat]
          have hl : ((pending s).take room).length = min (pend s) room := by
            rw [List.length_take, pending_length s g]; omega
          rw [hl]
          congr 3
          by_cases hk2 : k = s.dec
          · rw [if_neg (by omega), if_pos (by omega)]
          · rw [if_pos hk2, if_neg (by omega)]
        · rw [pend, hp]; simp only; rw [if_pos (by omega)]; omega
      · have hnear : flushNear { s with out := 0 } (room - n) = some ({ s with out := 0 }, []) := by
          rw [flushNear, if_neg (by exact hr)]
        refine ⟨0, ?_, by omega, ?_⟩
        · rw [flush, hfar]; simp only [hol]; rw [hnear]
          simp only [List.append_nil]
          have hcat : (s.mem.drop s.out).take n = (pending s).take room := by
            rw [hpd, htake, List.take_append, hdl,
              List.take_of_length_le (l := s.mem.drop s.out) (by omega), List.take_take,
              show min (room - n) s.dec = 0 by omega]
            simp
          rw [hcat]
          have hl : ((pending s).take room).length = min (pend s) room := by
            rw [List.length_take, pending_length s g]; omega
          rw [hl]
          congr 3
          by_cases hk2 : 0 = s.dec
          · rw [if_neg (by omega), if_pos (by omega)]
          · rw [if_pos hk2, if_neg (by omega)]
        · rw [pend, hp]; simp only; rw [if_pos (by omega)]; omega
    · have hwi : wrapIdx s.len (s.out + n) = s.out + n := by rw [wrapIdx, if_neg hw]
      rw [hwi] at hfar
      have hnr : n = room := by omega
      have hnear : flushNear { s with out := s.out + n } (room - n)
          = some ({ s with out := s.out + n }, []) := by
        rw [flushNear, if_neg (by simp only; omega)]
      refine ⟨s.out + n, ?_, by omega, ?_⟩
      · rw [flush, hfar]; simp only [hol]; rw [hnear]
        simp only [List.append_nil]
        have hcat : (s.mem.drop s.out).take n = (pending s).take room := by
          rw [hpd, hnr, List.take_append_of_le_length (by simp; omega)]
        rw [hcat]
        have hl : ((pending s).take room).length = min (pend s) room := by
          rw [List.length_take, pending_length s g]; omega
        rw [hl]
        congr 3
        rw [if_pos (by omega), if_neg (by omega)]
      · rw [pend, hp]; simp only [St.len] at *; rw [if_neg (by omega)]; omega
  · have hp : pend s = s.dec - s.out := by rw [pend, if_pos (by omega)]
    have hpd : pending s = (s.mem.drop s.out).take (s.dec - s.out) := by
      rw [pending, hp, window, show s.len - (s.dec - s.out) = (s.mem.drop s.dec).length + s.out by
        simp; omega, drop_len_add, List.drop_take]
    have hfar : flushFar s room = some (s, []) := by rw [flushFar, if_neg hc]
    by_cases hr : room ≠ 0 ∧ s.out < s.dec
    · obtain ⟨k, hk⟩ : ∃ k, k = min (s.dec - s.out) room := ⟨_, rfl⟩
      have hnear : flushNear s room
          = some ({ s with out := s.out + k }, (s.mem.drop s.out).take k) := by
        rw [flushNear, if_pos hr]
        simp only
        rw [← hk, slice?, if_pos (by omega)]
        simp only
        rw [wrapIdx, if_neg (by omega)]
      refine ⟨s.out + k, ?_, by omega, ?_⟩
      · rw [flush, hfar]; simp only [List.length_nil, Nat.sub_zero]; rw [hnear]
        simp only [List.nil_append]
        have hcat : (s.mem.drop s.out).take k = (pending s).take room := by
          rw [hpd, List.take_take]; congr 1; omega
        rw [hcat]
        have hl : ((pending s).take room).length = min (pend s) room := by
          rw [List.length_take, pending_length s g]; omega
        rw [hl]
        congr 3
        by_cases hk2 : s.out + k = s.dec
        · rw [if_neg (by omega), if_pos (by omega)]
        · rw [if_pos hk2, if_neg (by omega)]
      · rw [pend, hp]; simp only; rw [if_pos (by omega)]; omega
    · have hnear : flushNear s room = some (s, []) := by rw [flushNear, if_neg hr]
      refine ⟨s.out, ?_, ho, ?_⟩
      · rw [flush, hfar]; simp only [List.length_nil, Nat.sub_zero]; rw [hnear]
        have hcat : [] = (pending s).take room := by
          rw [hpd, List.take_take, show min room (s.dec - s.out) = 0 by omega]; simp
        simp only [List.append_nil]
        rw [← hcat]
        simp only [List.length_nil]
        rw [show min (pend s) room = 0 by omega]
        congr 3
        by_cases hk2 : s.out = s.dec
        · rw [if_neg (by omega), if_pos (by omega)]
        · rw [if_pos hk2, if_neg (by omega)]
      · have : pend { s with out := s.out } = pend s := rfl
        rw [this]; omega

end Divans.Recode
