import Verif.PipeProps

/-!
# What a successful run says about the bytes it was given

A run of the decompressor on any bytes that reached the end, carrying out only commands the ring can
carry out, determines nibbles and commands for which the invariant `ROk` of `PipeProps` held from the
start.  It is reconstructed from the end of the run backwards.
-/

namespace Divans.Pipe
open Divans.Adaptive

/-- The command being carried out, if any, is one the ring can carry out. -/
def TameAt (r : Rcv) : Prop := ∀ c, r.at_ = .filling c → Recode.Valid r.ring.len c

/-- Every command carried out in a run is one the ring can carry out: distances positive and below the
ring size, dictionary words shorter than the ring. -/
def Tame (dw : Nat → Nat → Nat → List UInt8) : Rcv → List Act → Prop
  | r, [] => TameAt r
  | r, a :: as => TameAt r ∧ ∀ x, r.act dw a = .ok x → Tame dw x.1 as

/-- What the worker passes on. -/
def GotOk (g : Codec.Got) : Prop := forwarded g = true ∧ ∀ n e, g = .lit n e → n ≠ 0

/-- Where the main side stands: history `H` before the current command, `E` given out. -/
def StandAt (L : Nat) (r : Rcv) (E H : List UInt8) : Prop :=
  match r.at_ with
  | .idle => Recode.Inv L r.ring E H ∧ r.ring.sub = 0
  | .content c => Recode.Inv L r.ring E H ∧ r.ring.sub = 0 ∧ ∀ h, c.high = some h → h < 16 ∧ c.left ≠ 0
  | .filling c => Recode.Inv L r.ring E (Recode.part H c r.ring.sub) ∧ Recode.SubOk c r.ring.sub
  | .finished => E = H.drop L ∧ r.core.at_ = .stop ∧ r.queue = []

/-- The state of a decompressor on any bytes. -/
structure Stand (L : Nat) (r : Rcv) (E H : List UInt8) : Prop where
  cgood : r.cmdRx.dec.Good
  cB : r.cmdRx.dec.reqB ≤ 1
  lgood : r.litRx.dec.Good
  lB : r.litRx.dec.reqB ≤ 1
  queue : ∀ g ∈ r.queue, GotOk g
  at_ : StandAt L r E H

/-- What the main side will do. -/
def Fut (dw : Nat → Nat → Nat → List UInt8) (L : Nat) (F : List UInt8) (G : List Codec.Got)
    (tr : Trace Lit.Key Bool) (r : Rcv) (H : List UInt8) : Prop :=
  match r.at_ with
  | .idle => LPlays dw L r.lbk H G tr F
  | .content c => ∃ rest t1 t2 l', c.Follows r.lbk rest t1 l' ∧ tr = t1 ++ t2 ∧
      LPlays dw L l' (H ++ (c.done.reverse ++ rest)) G t2 F
  | .filling c => Recode.Valid L c ∧ LPlays dw L r.lbk (Recode.applyCmd H c) G tr F
  | .finished => G = [] ∧ tr = [] ∧ F = H

variable {dw : Nat → Nat → Nat → List UInt8} {L : Nat}

theorem mainOk_of {F : List UInt8} {G : List Codec.Got} {tr : Trace Lit.Key Bool} {r : Rcv} {E H : List UInt8}
    (h : StandAt L r E H) (f : Fut dw L F G tr r H) : MainOk dw L F G tr r E := by
  unfold StandAt at h
  unfold Fut at f
  unfold MainOk
  cases hat : r.at_ with
  | idle => rw [hat] at h f; exact ⟨H, h.1, h.2, f⟩
  | content c =>
    rw [hat] at h f
    obtain ⟨rest, t1, t2, l', f1, f2, f3⟩ := f
    exact ⟨H, rest, t1, t2, l', h.1, h.2.1, f1, f2, f3⟩
  | filling c => rw [hat] at h f; exact ⟨H, f.1, h.1, h.2, f.2⟩
  | finished => rw [hat] at h f; exact ⟨f.1, by rw [f.2.2]; exact h.1⟩

theorem Fut.congr {F : List UInt8} {G G' : List Codec.Got} {tr : Trace Lit.Key Bool} {r r' : Rcv} {H : List UInt8}
    (f : Fut dw L F G tr r H) (hg : G' = G) (ha : r'.at_ = r.at_) (hl : r'.lbk = r.lbk) :
    Fut dw L F G' tr r' H := by
  subst hg
  unfold Fut at f ⊢
  rw [ha, hl]
  exact f

/-! ## Small facts -/

theorem firstAbove_le (c : Cdf.Cdf) (r : Int) : ∀ n s, Cdf.firstAbove c r n s ≤ s + n := by
  intro n
  induction n with
  | zero => intro s; simp [Cdf.firstAbove]
  | succ n ih =>
    intro s
    rw [Cdf.firstAbove]
    split
    · omega
    · have := ih (s + 1); omega

theorem lookup_lt {κ ι : Type} [DecidableEq κ] [DecidableEq ι] {r r' : Rx κ ι} {ch : Choice κ ι} {n : Nat}
    (h : r.step ch = (r', some n)) : n < 16 := by
  simp only [Rx.step] at h
  split at h
  · simp at h
  · simp only [Prod.mk.injEq, Option.some.injEq] at h
    rw [← h.2]
    simp only [Cdf.Opt.lookup, Cdf.lookup, Cdf.lookupSym]
    have := firstAbove_le (r.ses.coding ch).cdf
      (Num.i16 ((((r.dec.pushData r.buf).1.offset : Int) * Cdf.max (r.ses.coding ch).cdf) >>> 15)) 15 0
    omega

/-- Every literal the command decoder announces has at least one byte. -/
theorem coreTake_lit {c c' : Codec.Core} {k n : Nat} {e : Bool}
    (h : Codec.coreTake c k = .ok (c', some (.lit n e))) : n ≠ 0 := by
  unfold Codec.coreTake at h
  cases hat : c.at_ with
  | lit s =>
    rw [hat] at h
    simp only at h
    cases ht : Codec.litTake c.bk s k with
    | fail => rw [ht] at h; simp [Codec.Res.bind] at h
    | panic => rw [ht] at h; simp [Codec.Res.bind] at h
    | ok r =>
      rw [ht] at h
      simp only [Codec.Res.bind] at h
      split at h
      · rename_i hd
        simp only [Codec.Res.ok.injEq, Prod.mk.injEq, Option.some.injEq, Codec.Got.lit.injEq] at h
        rw [← h.2.1]
        unfold Codec.litTake at ht
        cases hs : s.at_ with
        | countSmall f =>
          rw [hs] at ht
          simp only at ht
          split at ht
          · simp only [Codec.Res.ok.injEq] at ht; rw [← ht] at hd; simp at hd
          · split at ht
            · simp only [Codec.Res.ok.injEq] at ht; rw [← ht] at hd; simp at hd
            · simp only [Codec.Res.ok.injEq] at ht; rw [← ht]; simp
        | countFirst =>
          rw [hs] at ht
          simp only at ht
          split at ht
          · simp only [Codec.Res.ok.injEq] at ht; rw [← ht] at hd; simp at hd
          · split at ht
            · simp only [Codec.Res.ok.injEq] at ht; rw [← ht]; simp
            · cases hm : Codec.mantissaStart (k - 1) with
              | fail => rw [hm] at ht; simp [Codec.Res.bind] at ht
              | panic => rw [hm] at ht; simp [Codec.Res.bind] at ht
              | ok m =>
                rw [hm] at ht
                simp only [Codec.Res.bind, Codec.Res.ok.injEq] at ht; rw [← ht] at hd; simp at hd
        | countMore =>
          rw [hs] at ht
          simp only at ht
          cases hm : Codec.mantissaStart (k + 14) with
          | fail => rw [hm] at ht; simp [Codec.Res.bind] at ht
          | panic => rw [hm] at ht; simp [Codec.Res.bind] at ht
          | ok m =>
            rw [hm] at ht
            simp only [Codec.Res.bind, Codec.Res.ok.injEq] at ht; rw [← ht] at hd; simp at hd
        | countMant rem acc =>
          rw [hs] at ht
          simp only at ht
          split at ht
          · simp at ht
          · split at ht
            · simp only [Codec.Res.ok.injEq] at ht; rw [← ht]; simp
            · simp only [Codec.Res.ok.injEq] at ht; rw [← ht] at hd; simp at hd
        | done => rw [hs] at ht; simp at ht
      · simp at h
  | begin =>
    rw [hat] at h
    simp only at h
    cases hs : Codec.startTake c k <;> rw [hs] at h <;> simp [Codec.Res.bind] at h
  | copy s =>
    rw [hat] at h
    simp only at h
    cases hs : Codec.copyTake c.bk s k <;> rw [hs] at h <;> simp only [Codec.Res.bind] at h
    · split at h <;> simp at h
    · cases h
    · cases h
  | dict s =>
    rw [hat] at h
    simp only at h
    cases hs : Codec.dictTake s k <;> rw [hs] at h <;> simp only [Codec.Res.bind] at h
    · split at h <;> simp at h
    · cases h
    · cases h
  | bswitch k' s =>
    rw [hat] at h
    simp only at h
    cases hs : Codec.bsTake c.bk k' s k <;> rw [hs] at h <;> simp only [Codec.Res.bind] at h
    · split at h <;> simp at h
    · cases h
    · cases h
  | pm s =>
    rw [hat] at h
    simp only at h
    cases hs : Codec.pmTake c.bk c.pm s k <;> rw [hs] at h <;> simp only [Codec.Res.bind] at h
    · split at h <;> simp at h
    · cases h
    · cases h
  | stop => rw [hat] at h; simp at h

theorem Feeds.unpush {κ ι : Type} [DecidableEq κ] [DecidableEq ι] {tr : Trace κ ι} {p fut : List UInt8} {r : Rx κ ι}
    (h : Feeds false tr fut (r.push p)) : Feeds false tr (p ++ fut) r :=
  ⟨h.good, h.reqB, by have := h.gives; simpa [Rx.push, List.append_assoc] using this⟩

/-- An answered request, undone. -/
theorem feeds_unstep {κ ι : Type} [DecidableEq κ] [DecidableEq ι] {tr : Trace κ ι} {fut : List UInt8} {r r' : Rx κ ι}
    {ch : Choice κ ι} {n : Nat} (hg : r.dec.Good) (hb : r.dec.reqB ≤ 1) (e : r.step ch = (r', some n))
    (h : Feeds false tr fut r') : Feeds false ((ch, n) :: tr) fut r :=
  ⟨hg, hb, .more (by simp) (step_some_push hg e fut) h.gives⟩

/-- An unanswered request, undone. -/
theorem feeds_unwait {κ ι : Type} [DecidableEq κ] [DecidableEq ι] {tr : Trace κ ι} {fut : List UInt8} {r r' : Rx κ ι}
    {ch : Choice κ ι} (hg : r.dec.Good) (hb : r.dec.reqB ≤ 1) (e : r.step ch = (r', none))
    (h : Feeds false tr fut r') : Feeds false tr fut r := by
  obtain ⟨rfl, hlt⟩ := step_none hg e
  refine ⟨hg, hb, gives_unmoved (r := r.push fut) hg r.buf.length (Nat.le_of_lt hlt) ?_⟩
  have := h.gives
  simpa [Rx.push] using this

theorem nib_low (n h : Nat) (hn : n < 16) (hh : h < 16) :
    (UInt8.ofNat (n ||| (h <<< 4))).toNat &&& 0xf = n ∧ (UInt8.ofNat (n ||| (h <<< 4))).toNat >>> 4 = h := by
  have key : ∀ n < 16, ∀ h < 16, (UInt8.ofNat (n ||| (h <<< 4))).toNat &&& 0xf = n ∧
      (UInt8.ofNat (n ||| (h <<< 4))).toNat >>> 4 = h := by decide +kernel
  exact key n hn h hh

/-- One half byte of a literal, undone. -/
theorem follows_unstep {l : Lit.Lbk} {c : Lit.Content} {rest' : List UInt8} {tr' : Trace Lit.Key Bool} {lEnd : Lit.Lbk}
    {ch : Choice Lit.Key Bool} {n : Nat} (hn : n < 16) (hleft : c.left ≠ 0) (hh : ∀ h, c.high = some h → h < 16)
    (ha : c.ask l = some ch) (h : (c.take l n).2.Follows (c.take l n).1 rest' tr' lEnd) :
    ∃ rest, c.Follows l rest ((ch, n) :: tr') lEnd ∧
      c.done.reverse ++ rest = (c.take l n).2.done.reverse ++ rest' := by
  unfold Lit.Content.ask at ha
  unfold Lit.Content.take at h ⊢
  cases hc : c.high with
  | none =>
    rw [hc] at ha h
    simp only at ha h ⊢
    unfold Lit.Content.Follows at h
    simp only at h
    obtain ⟨b, t, c2, tr2, rfl, h1, rfl, h2, h3, rfl⟩ := h
    refine ⟨b :: t, ?_, rfl⟩
    unfold Lit.Content.Follows
    rw [hc]
    refine ⟨h1, ?_⟩
    simp only [Lit.sendBytes, ha, h2, h3, Option.bind_some, Option.map_some]
  | some hi =>
    rw [hc] at ha h
    simp only at ha h ⊢
    unfold Lit.Content.Follows at h
    simp only at h
    obtain ⟨h1, h2⟩ := h
    obtain ⟨k1, k2⟩ := nib_low n hi hn (hh hi hc)
    refine ⟨UInt8.ofNat (n ||| (hi <<< 4)) :: rest', ?_, by simp⟩
    unfold Lit.Content.Follows
    rw [hc]
    exact ⟨_, rest', ch, tr', rfl, by simp only [List.length_cons]; omega, k2.symm, ha, h2, by rw [k1]⟩

/-! ## Steps backwards -/

/-- Some nibbles and commands explain what the bytes will do from here on. -/
def Ahead (dw : Nat → Nat → Nat → List UInt8) (L : Nat) (F futC futL : List UInt8) (r : Rcv) (H : List UInt8) : Prop :=
  ∃ tc gs tl, Feeds false tc futC r.cmdRx ∧ Plays r.core tc gs ∧ Feeds false tl futL r.litRx ∧
    Fut dw L F (r.queue ++ gs.filter forwarded) tl r H

theorem worker_back {r r1 : Rcv} {E H : List UInt8} (s : Stand L r E H) (h : r.worker = .ok r1) :
    Stand L r1 E H ∧ ∀ F futC futL, Ahead dw L F futC futL r1 H → Ahead dw L F futC futL r H := by
  unfold Rcv.worker at h
  by_cases hst : r.core.at_ = .stop
  · rw [if_pos hst] at h
    obtain rfl := Codec.Res.ok.inj h
    exact ⟨s, fun _ _ _ a => a⟩
  · rw [if_neg hst] at h
    cases ha : Codec.coreAsk r.core with
    | none => rw [ha] at h; cases h
    | some a =>
      rw [ha] at h
      simp only at h
      rcases hs : r.cmdRx.step (.plain a.key (some a.speed)) with ⟨rx, _ | n⟩
      · rw [hs] at h
        simp only at h
        obtain rfl := Codec.Res.ok.inj h
        obtain ⟨g1, g2⟩ := step_good s.cgood s.cB hs
        refine ⟨⟨g1, g2, s.lgood, s.lB, s.queue, s.at_⟩, ?_⟩
        rintro F futC futL ⟨tc, gs, tl, f1, f2, f3, f4⟩
        exact ⟨tc, gs, tl, feeds_unwait s.cgood s.cB hs f1, f2, f3, f4.congr rfl rfl rfl⟩
      · rw [hs] at h
        simp only at h
        cases ht : Codec.coreTake r.core n with
        | fail => rw [ht] at h; cases h
        | panic => rw [ht] at h; cases h
        | ok x =>
          obtain ⟨c1, g⟩ := x
          rw [ht] at h
          simp only [Codec.Res.bind] at h
          obtain rfl := Codec.Res.ok.inj h
          obtain ⟨g1, g2⟩ := step_good s.cgood s.cB hs
          refine ⟨⟨g1, g2, s.lgood, s.lB, ?_, ?_⟩, ?_⟩
          · intro x hx
            rcases List.mem_append.1 hx with hx | hx
            · exact s.queue x hx
            · obtain ⟨h1, h2⟩ := List.mem_filter.1 hx
              refine ⟨h2, fun m e he => ?_⟩
              rw [Option.mem_toList] at h1
              rw [h1, he] at ht
              exact coreTake_lit ht
          · have hA := s.at_
            unfold StandAt at hA ⊢
            simp only
            cases hat : r.at_ with
            | finished => rw [hat] at hA; exact absurd hA.2.1 hst
            | idle => rw [hat] at hA; exact hA
            | content c => rw [hat] at hA; exact hA
            | filling c => rw [hat] at hA; exact hA
          · rintro F futC futL ⟨tc, gs, tl, f1, f2, f3, f4⟩
            refine ⟨_, g.toList ++ gs, tl, feeds_unstep s.cgood s.cB hs f1, ?_, f3, f4.congr ?_ rfl rfl⟩
            · cases g with
              | none => exact .more ha ht f2
              | some g => exact .got ha ht f2
            · rw [List.filter_append, List.append_assoc]

theorem next_back (hL : 8 ≤ L) {r r1 : Rcv} {g : Codec.Got} {E H : List UInt8} (hat : r.at_ = .idle)
    (i : Recode.Inv L r.ring E H) (hs : r.ring.sub = 0) (hg : GotOk g) (h : Rcv.next dw r g = .ok r1) :
    StandAt L r1 E H ∧ r1.cmdRx = r.cmdRx ∧ r1.core = r.core ∧ r1.queue = r.queue ∧ r1.litRx = r.litRx ∧
    ∀ F G tr, Fut dw L F G tr r1 H → LPlays dw L r.lbk H (g :: G) tr F := by
  have i0 : ∀ c, Recode.Inv L r.ring E (Recode.part H c r.ring.sub) := by
    intro c; rw [hs, Recode.part_zero]; exact i
  have s0 : ∀ c, Recode.SubOk c r.ring.sub := by
    intro c; rw [hs]; exact Recode.subOk_zero c
  cases g with
  | copy d n =>
    simp only [Rcv.next] at h
    obtain rfl := Codec.Res.ok.inj h
    exact ⟨⟨i0 _, s0 _⟩, rfl, rfl, rfl, rfl, fun F G tr f => .copy f.1 f.2⟩
  | dict z k t =>
    simp only [Rcv.next] at h
    obtain rfl := Codec.Res.ok.inj h
    exact ⟨⟨i0 _, s0 _⟩, rfl, rfl, rfl, rfl, fun F G tr f => .dict f.1 f.2⟩
  | lit n e =>
    simp only [Rcv.next, Recode.context_from_history i hL] at h
    obtain rfl := Codec.Res.ok.inj h
    refine ⟨⟨i, hs, fun x hx => by cases hx⟩, rfl, rfl, rfl, rfl, ?_⟩
    rintro F G tr ⟨rest, t1, t2, l', ⟨f1, f2⟩, rfl, f4⟩
    simp only [List.reverse_nil, List.nil_append] at f1 f4
    have hn := hg.2 n e rfl
    subst f1
    exact .lit (fun h0 => hn (by rw [h0]; rfl)) f2 f4
  | bswitch k t st =>
    cases k with
    | lit =>
      simp only [Rcv.next] at h
      obtain rfl := Codec.Res.ok.inj h
      refine ⟨?_, rfl, rfl, rfl, rfl, ?_⟩
      · unfold StandAt; simp only [hat]; exact ⟨i, hs⟩
      · intro F G tr f
        unfold Fut at f
        simp only [hat] at f
        exact .bswitch f
    | cmd => exact absurd hg.1 (by simp [forwarded])
    | dist => exact absurd hg.1 (by simp [forwarded])
  | pm p =>
    simp only [Rcv.next] at h
    cases hp : r.lbk.obsPm p with
    | fail => rw [hp] at h; cases h
    | panic => rw [hp] at h; cases h
    | ok l =>
      rw [hp] at h
      simp only [Codec.Res.bind] at h
      obtain rfl := Codec.Res.ok.inj h
      refine ⟨?_, rfl, rfl, rfl, rfl, ?_⟩
      · unfold StandAt; simp only [hat]; exact ⟨i, hs⟩
      · intro F G tr f
        unfold Fut at f
        simp only [hat] at f
        exact .pm hp f

theorem main_back (hL : 8 ≤ L) {r r1 : Rcv} {o : List UInt8} {room : Nat} {E H : List UInt8} (s : Stand L r E H)
    (ht : TameAt r) (h : r.main dw room = .ok (r1, o)) :
    ∃ H1, Stand L r1 (E ++ o) H1 ∧ ∀ F futC futL, Ahead dw L F futC futL r1 H1 → Ahead dw L F futC futL r H := by
  have hA := s.at_
  unfold StandAt at hA
  unfold Rcv.main at h
  cases hat : r.at_ with
  | idle =>
    rw [hat] at h hA
    obtain ⟨i, hs⟩ := hA
    simp only at h
    cases hq : r.queue with
    | cons g q =>
      rw [hq] at h
      simp only at h
      cases hn : Rcv.next dw { r with queue := q } g with
      | fail => simp only [hat] at hn; rw [hn] at h; cases h
      | panic => simp only [hat] at hn; rw [hn] at h; cases h
      | ok x =>
        have hn' := hn
        simp only [hat] at hn'
        rw [hn'] at h
        simp only [Codec.Res.bind, Codec.Res.ok.injEq, Prod.mk.injEq] at h
        obtain ⟨rfl, rfl⟩ := h
        obtain ⟨k1, k2, k3, k4, k5, k6⟩ := next_back (r := { r with queue := q }) hL hat i hs
          (s.queue g (by rw [hq]; simp)) hn
        simp only at k2 k3 k4 k5 k6
        refine ⟨H, ⟨by rw [k2]; exact s.cgood, by rw [k2]; exact s.cB, by rw [k5]; exact s.lgood,
          by rw [k5]; exact s.lB, ?_, by rw [List.append_nil]; exact k1⟩, ?_⟩
        · intro y hy
          rw [k4] at hy
          exact s.queue y (by rw [hq]; simp [hy])
        · rintro F futC futL ⟨tc, gs, tl, f1, f2, f3, f4⟩
          refine ⟨tc, gs, tl, by rw [← k2]; exact f1, by rw [← k3]; exact f2, by rw [← k5]; exact f3, ?_⟩
          have := k6 F _ _ f4
          rw [k4] at this
          unfold Fut
          rw [hat, hq]
          exact this
    | nil =>
      rw [hq] at h
      simp only at h
      by_cases hst : r.core.at_ = .stop
      · rw [if_pos hst] at h
        obtain ⟨ring', o', res, hf, i', hsub, hol, -, hres⟩ := i.flush room
        rw [hf] at h
        rcases hres with ⟨rfl, hpend⟩ | ⟨rfl, hor, -⟩
        · simp only [Codec.Res.ok.injEq, Prod.mk.injEq] at h
          obtain ⟨rfl, rfl⟩ := h
          have hE : E ++ o' = H.drop L := by
            rw [← i'.bytes, Recode.pending_nil i'.good hpend, List.append_nil]
          refine ⟨H, ⟨s.cgood, s.cB, s.lgood, s.lB, by simp, hE, hst, rfl⟩, ?_⟩
          rintro F futC futL ⟨tc, gs, tl, f1, f2, f3, ⟨f4, f5, f6⟩⟩
          simp only at f1 f2 f3 f4
          refine ⟨tc, gs, tl, f1, f2, f3, ?_⟩
          unfold Fut
          rw [hat]
          simp only
          rw [hq, f4, f5, f6]
          exact .nil
        · simp only [Codec.Res.ok.injEq, Prod.mk.injEq] at h
          obtain ⟨rfl, rfl⟩ := h
          refine ⟨H, ⟨s.cgood, s.cB, s.lgood, s.lB, by simp, ⟨i', hsub.trans hs⟩⟩, ?_⟩
          rintro F futC futL ⟨tc, gs, tl, f1, f2, f3, f4⟩
          exact ⟨tc, gs, tl, f1, f2, f3, f4.congr (by rw [hq]) hat rfl⟩
      · rw [if_neg hst] at h
        simp only [Codec.Res.ok.injEq, Prod.mk.injEq] at h
        obtain ⟨rfl, rfl⟩ := h
        exact ⟨H, by rw [List.append_nil]; exact s, fun _ _ _ a => a⟩
  | content c =>
    rw [hat] at h hA
    obtain ⟨i, hs, hhi⟩ := hA
    simp only at h
    by_cases hleft : c.left = 0
    · rw [if_pos hleft] at h
      simp only [Codec.Res.ok.injEq, Prod.mk.injEq] at h
      obtain ⟨rfl, rfl⟩ := h
      have hhigh : c.high = none := by
        cases hc : c.high with
        | none => rfl
        | some x => exact absurd hleft (hhi x hc).2
      refine ⟨H, ⟨s.cgood, s.cB, s.lgood, s.lB, s.queue, ?_⟩, ?_⟩
      · rw [List.append_nil]
        exact ⟨by simp only [hs, Recode.part_zero]; exact i, by simp only [hs]; exact Recode.subOk_zero _⟩
      · rintro F futC futL ⟨tc, gs, tl, f1, f2, f3, ⟨-, f4⟩⟩
        refine ⟨tc, gs, tl, f1, f2, f3, ?_⟩
        unfold Fut
        rw [hat]
        refine ⟨[], [], tl, r.lbk, ?_, rfl, ?_⟩
        · unfold Lit.Content.Follows
          rw [hhigh]
          exact ⟨hleft, rfl⟩
        · rw [List.append_nil]
          exact f4
    · rw [if_neg hleft] at h
      cases ha : c.ask r.lbk with
      | none => rw [ha] at h; cases h
      | some ch =>
        rw [ha] at h
        simp only at h
        rcases hst : r.litRx.step ch with ⟨rx, _ | n⟩
        · rw [hst] at h
          simp only [Codec.Res.ok.injEq, Prod.mk.injEq] at h
          obtain ⟨rfl, rfl⟩ := h
          obtain ⟨g1, g2⟩ := step_good s.lgood s.lB hst
          refine ⟨H, ⟨s.cgood, s.cB, g1, g2, s.queue, ?_⟩, ?_⟩
          · unfold StandAt; simp only [hat, List.append_nil]; exact ⟨i, hs, hhi⟩
          · rintro F futC futL ⟨tc, gs, tl, f1, f2, f3, f4⟩
            exact ⟨tc, gs, tl, f1, f2, feeds_unwait s.lgood s.lB hst f3, f4.congr rfl hat rfl⟩
        · rw [hst] at h
          simp only [Codec.Res.ok.injEq, Prod.mk.injEq] at h
          obtain ⟨rfl, rfl⟩ := h
          have hn := lookup_lt hst
          obtain ⟨g1, g2⟩ := step_good s.lgood s.lB hst
          refine ⟨H, ⟨s.cgood, s.cB, g1, g2, s.queue, ?_⟩, ?_⟩
          · unfold StandAt
            simp only [List.append_nil]
            refine ⟨i, hs, fun x hx => ?_⟩
            unfold Lit.Content.take at hx ⊢
            cases hc : c.high with
            | none =>
              rw [hc] at hx
              simp only [Option.some.injEq] at hx ⊢
              exact ⟨hx ▸ hn, hleft⟩
            | some y => rw [hc] at hx; cases hx
          · rintro F futC futL ⟨tc, gs, tl, f1, f2, f3, ⟨rest, t1, t2, l', f4, f5, f6⟩⟩
            obtain ⟨rest0, k1, k2⟩ := follows_unstep hn hleft (fun x hx => (hhi x hx).1) ha f4
            refine ⟨tc, gs, (ch, n) :: tl, f1, f2, feeds_unstep s.lgood s.lB hst f3, ?_⟩
            unfold Fut
            rw [hat]
            exact ⟨rest0, (ch, n) :: t1, t2, l', k1, by rw [f5]; rfl, by rw [k2]; exact f6⟩
  | filling c =>
    rw [hat] at h hA
    obtain ⟨i, hs⟩ := hA
    have hv := ht c hat
    rw [i.len] at hv
    simp only at h
    obtain ⟨ring', o', res, he, hcalled⟩ := Recode.encodeCmd_spec L (by omega) c hv H r.ring E room i hs
    rw [he] at h
    rcases hcalled.cases with ⟨rfl, h1, h2⟩ | ⟨rfl, h1, h2, h3⟩
    · simp only [Codec.Res.ok.injEq, Prod.mk.injEq] at h
      obtain ⟨rfl, rfl⟩ := h
      refine ⟨Recode.applyCmd H c, ⟨s.cgood, s.cB, s.lgood, s.lB, s.queue, ⟨h2, h1⟩⟩, ?_⟩
      rintro F futC futL ⟨tc, gs, tl, f1, f2, f3, f4⟩
      refine ⟨tc, gs, tl, f1, f2, f3, ?_⟩
      unfold Fut
      rw [hat]
      exact ⟨hv, f4⟩
    · simp only [Codec.Res.ok.injEq, Prod.mk.injEq] at h
      obtain ⟨rfl, rfl⟩ := h
      refine ⟨H, ⟨s.cgood, s.cB, s.lgood, s.lB, s.queue, ?_⟩, ?_⟩
      · exact ⟨h3, h2⟩
      · rintro F futC futL ⟨tc, gs, tl, f1, f2, f3, f4⟩
        exact ⟨tc, gs, tl, f1, f2, f3, f4.congr rfl hat rfl⟩
  | finished =>
    rw [hat] at h
    simp only [Codec.Res.ok.injEq, Prod.mk.injEq] at h
    obtain ⟨rfl, rfl⟩ := h
    exact ⟨H, by rw [List.append_nil]; exact s, fun _ _ _ a => a⟩

/-- Stand, but with other input. -/
theorem StandAt.congr {r r' : Rcv} {E H : List UInt8} (h : StandAt L r E H) (h1 : r'.at_ = r.at_)
    (h2 : r'.ring = r.ring) (h3 : r'.core = r.core) (h4 : r'.queue = r.queue) : StandAt L r' E H := by
  unfold StandAt at h ⊢
  rw [h1, h2, h3, h4]
  exact h

theorem act_back (hL : 8 ≤ L) {r r1 : Rcv} {o : List UInt8} {a : Act} {E H : List UInt8} (s : Stand L r E H)
    (ht : TameAt r) (h : r.act dw a = .ok (r1, o)) :
    ∃ H1, Stand L r1 (E ++ o) H1 ∧ ∀ F futC futL, Ahead dw L F futC futL r1 H1 →
      Ahead dw L F (cmdArrived [a] ++ futC) (litArrived [a] ++ futL) r H := by
  cases a with
  | cmdBytes p =>
    simp only [Rcv.act, Codec.Res.ok.injEq, Prod.mk.injEq] at h
    obtain ⟨rfl, rfl⟩ := h
    refine ⟨H, ⟨s.cgood, s.cB, s.lgood, s.lB, s.queue, by rw [List.append_nil]; exact s.at_.congr rfl rfl rfl rfl⟩, ?_⟩
    rintro F futC futL ⟨tc, gs, tl, f1, f2, f3, f4⟩
    refine ⟨tc, gs, tl, ?_, f2, f3, f4.congr rfl rfl rfl⟩
    simp only [cmdArrived, List.append_nil]
    exact Feeds.unpush f1
  | litBytes p =>
    simp only [Rcv.act, Codec.Res.ok.injEq, Prod.mk.injEq] at h
    obtain ⟨rfl, rfl⟩ := h
    refine ⟨H, ⟨s.cgood, s.cB, s.lgood, s.lB, s.queue, by rw [List.append_nil]; exact s.at_.congr rfl rfl rfl rfl⟩, ?_⟩
    rintro F futC futL ⟨tc, gs, tl, f1, f2, f3, f4⟩
    refine ⟨tc, gs, tl, f1, f2, ?_, f4.congr rfl rfl rfl⟩
    simp only [litArrived, List.append_nil]
    exact Feeds.unpush f3
  | worker =>
    simp only [Rcv.act] at h
    cases hw : r.worker with
    | fail => rw [hw] at h; cases h
    | panic => rw [hw] at h; cases h
    | ok x =>
      rw [hw] at h
      simp only [Codec.Res.bind, Codec.Res.ok.injEq, Prod.mk.injEq] at h
      obtain ⟨rfl, rfl⟩ := h
      obtain ⟨k1, k2⟩ := worker_back (dw := dw) s hw
      exact ⟨H, by rw [List.append_nil]; exact k1, k2⟩
  | main room => exact main_back hL s ht h

theorem cmdArrived_cons (a : Act) (as : List Act) : cmdArrived (a :: as) = cmdArrived [a] ++ cmdArrived as := by
  cases a <;> simp [cmdArrived]

theorem litArrived_cons (a : Act) (as : List Act) : litArrived (a :: as) = litArrived [a] ++ litArrived as := by
  cases a <;> simp [litArrived]

/-- A run that reached the end, from its end backwards. -/
theorem run_back (hL : 8 ≤ L) : ∀ (acts : List Act) (r r' : Rcv) (E H out : List UInt8), Stand L r E H →
    Tame dw r acts → run dw r acts = .ok (r', out) → r'.at_ = .finished → ∀ futC futL,
    ∃ F, Ahead dw L F (cmdArrived acts ++ futC) (litArrived acts ++ futL) r H ∧ E ++ out = F.drop L := by
  intro acts
  induction acts with
  | nil =>
    intro r r' E H out s _ h hf futC futL
    simp only [run, Codec.Res.ok.injEq, Prod.mk.injEq] at h
    obtain ⟨rfl, rfl⟩ := h
    have hA := s.at_
    unfold StandAt at hA
    rw [hf] at hA
    obtain ⟨h1, h2, h3⟩ := hA
    refine ⟨H, ⟨[], [], [], ⟨s.cgood, s.cB, .done (by simp)⟩, .stop h2, ⟨s.lgood, s.lB, .done (by simp)⟩, ?_⟩,
      by rw [List.append_nil]; exact h1⟩
    unfold Fut
    rw [hf, h3]
    exact ⟨rfl, rfl, rfl⟩
  | cons a as ih =>
    intro r r' E H out s ht h hf futC futL
    simp only [run] at h
    cases ha : r.act dw a with
    | fail => rw [ha] at h; cases h
    | panic => rw [ha] at h; cases h
    | ok x =>
      rw [ha] at h
      simp only [Codec.Res.bind] at h
      obtain ⟨r1, o⟩ := x
      cases hr : run dw r1 as with
      | fail => rw [hr] at h; cases h
      | panic => rw [hr] at h; cases h
      | ok y =>
        obtain ⟨r2, o2⟩ := y
        rw [hr] at h
        simp only [Codec.Res.ok.injEq, Prod.mk.injEq] at h
        obtain ⟨rfl, rfl⟩ := h
        obtain ⟨H1, s1, back⟩ := act_back hL s ht.1 ha
        obtain ⟨F, hF, hE⟩ := ih r1 r2 (E ++ o) H1 o2 s1 (ht.2 _ ha) hr hf futC futL
        refine ⟨F, ?_, by rw [← List.append_assoc]; exact hE⟩
        rw [cmdArrived_cons, litArrived_cons, List.append_assoc, List.append_assoc]
        exact back F _ _ hF

theorem stand_init (hL : 8 ≤ L) : Stand L (Rcv.init L) [] (List.replicate L 0) := by
  refine ⟨by simp [Rcv.init, Rx.init, Ans.Dec.Good, Ans.Dec.init], by simp [Rcv.init, Rx.init, Ans.Dec.init],
    by simp [Rcv.init, Rx.init, Ans.Dec.Good, Ans.Dec.init], by simp [Rcv.init, Rx.init, Ans.Dec.init],
    by intro g hg; simp [Rcv.init] at hg, ?_, rfl⟩
  have := Recode.new_inv (List.replicate L 0) (by rw [List.length_replicate]; omega)
  rw [List.length_replicate] at this
  exact this

end Divans.Pipe
