import Verif.PipeLemmas

/-!
# Properties of the two streams together (C38)

* `any_schedule`: compressor output, decompressed under any interleaving of worker steps, main steps
  and arrivals of bytes, with any output buffers: never fails, and gives out the LZ77 expansion.
* `all_arrived_finishes`: once all bytes are there, alternating worker and main steps reaches the end.
-/

namespace Divans.Pipe
open Divans.Adaptive

/-! ## The invariant of the decompressor -/

/-- What the main side will do, depending on where it is: `E` has been given out, the commands `G` are
to come, with the nibbles `tr` of the literal stream; the final history is `F`. -/
def MainOk (dw : Nat → Nat → Nat → List UInt8) (L : Nat) (F : List UInt8) (G : List Codec.Got)
    (tr : Trace Lit.Key Bool) (r : Rcv) (E : List UInt8) : Prop :=
  match r.at_ with
  | .idle => ∃ H, Recode.Inv L r.ring E H ∧ r.ring.sub = 0 ∧ LPlays dw L r.lbk H G tr F
  | .content c => ∃ H rest t1 t2 l', Recode.Inv L r.ring E H ∧ r.ring.sub = 0 ∧
      c.Follows r.lbk rest t1 l' ∧ tr = t1 ++ t2 ∧
      LPlays dw L l' (H ++ (c.done.reverse ++ rest)) G t2 F
  | .filling c => ∃ H, Recode.Valid L c ∧ Recode.Inv L r.ring E (Recode.part H c r.ring.sub) ∧
      Recode.SubOk c r.ring.sub ∧ LPlays dw L r.lbk (Recode.applyCmd H c) G tr F
  | .finished => G = [] ∧ E = F.drop L

/-- The invariant: nibbles `tc` of the command stream, commands `gs` in them, and nibbles `tl` of the
literal stream are to come. -/
structure ROk (cm : Bool) (dw : Nat → Nat → Nat → List UInt8) (L : Nat) (F : List UInt8)
    (tc : Trace Codec.Key Unit) (gs : List Codec.Got) (tl : Trace Lit.Key Bool)
    (futC futL : List UInt8) (r : Rcv) (E : List UInt8) : Prop where
  cmd : Feeds cm tc futC r.cmdRx
  plays : Plays r.core tc gs
  lit : Feeds cm tl futL r.litRx
  main : MainOk dw L F (r.queue ++ gs.filter forwarded) tl r E

/-- Progress within a command. -/
def MainAt.rank : MainAt → Nat
  | .idle => 1
  | .content _ => 3
  | .filling _ => 2
  | .finished => 0

/-- What is left to be done. -/
def todo (L : Nat) (F : List UInt8) (tc : Trace Codec.Key Unit) (gs : List Codec.Got)
    (tl : Trace Lit.Key Bool) (r : Rcv) (E : List UInt8) : Nat :=
  tc.length + 4 * (r.queue.length + (gs.filter forwarded).length) + tl.length +
    ((F.drop L).length - E.length) + r.at_.rank

variable {cm : Bool} {dw : Nat → Nat → Nat → List UInt8} {L : Nat} {F : List UInt8} {tc : Trace Codec.Key Unit}
  {gs : List Codec.Got} {tl : Trace Lit.Key Bool} {futC futL : List UInt8} {r : Rcv}
  {E : List UInt8}

/-- The bytes given out so far are a prefix of the result. -/
theorem MainOk.prefix {G : List Codec.Got} (h : MainOk dw L F G tl r E) : E <+: F.drop L := by
  unfold MainOk at h
  split at h
  · obtain ⟨H, i, -, hp⟩ := h
    exact i.prefix hp.ext
  · obtain ⟨H, rest, t1, t2, l', i, -, -, -, hp⟩ := h
    obtain ⟨t, ht⟩ := hp.ext
    exact i.prefix ⟨_, by rw [ht, List.append_assoc]⟩
  · obtain ⟨H, -, i, hs, hp⟩ := h
    obtain ⟨t, ht⟩ := hp.ext
    obtain ⟨u, hu⟩ := Recode.part_prefix H _ _ hs
    exact i.prefix ⟨_, by rw [ht, hu, List.append_assoc]⟩
  · rw [h.2]
    exact List.prefix_rfl

/-- `MainOk` looks only at some parts of the state. -/
theorem MainOk.congr {G G' : List Codec.Got} {r r' : Rcv} (h : MainOk dw L F G tl r E) (hg : G' = G)
    (ha : r'.at_ = r.at_) (hl : r'.lbk = r.lbk) (hr : r'.ring = r.ring) : MainOk dw L F G' tl r' E := by
  subst hg
  unfold MainOk at h ⊢
  rw [ha, hl, hr]
  exact h

/-! ## Steps -/

theorem worker_step (h : ROk cm dw L F tc gs tl futC futL r E) :
    ∃ r' tc' gs', r.worker = .ok r' ∧ ROk cm dw L F tc' gs' tl futC futL r' E ∧
      r'.at_ = r.at_ ∧ (r.core.at_ = .stop → r' = r) ∧
      todo L F tc' gs' tl r' E ≤ todo L F tc gs tl r E ∧
      (futC = [] → r.core.at_ ≠ .stop → todo L F tc' gs' tl r' E < todo L F tc gs tl r E) := by
  obtain ⟨hc, hp, hl, hm⟩ := h
  cases hp with
  | stop hs =>
    refine ⟨r, [], [], ?_, ⟨hc, .stop hs, hl, hm⟩, rfl, fun _ => rfl, Nat.le_refl _,
      fun _ hn => absurd hs hn⟩
    rw [Rcv.worker, if_pos hs]
  | @more c' c1 a n tr gs ha ht hrest =>
    have hns := not_stop ha
    rcases hc.step with ⟨rx, e1, hf⟩ | ⟨rx, e1, -, hfut, hf⟩
    · refine ⟨{ r with cmdRx := rx, core := c1 }, tr, gs, ?_, ⟨hf, hrest, hl, ?_⟩, rfl,
        fun hs => absurd hs hns, ?_, ?_⟩
      · rw [Rcv.worker, if_neg hns, ha]
        simp only [e1, ht, Codec.Res.bind, Option.toList, List.filter_nil, List.append_nil]
      · exact hm.congr rfl rfl rfl rfl
      · simp only [todo, List.length_cons]; omega
      · intro _ _; simp only [todo, List.length_cons]; omega
    · refine ⟨{ r with cmdRx := rx }, _, gs, ?_, ⟨hf, .more ha ht hrest, hl, ?_⟩, rfl,
        fun hs => absurd hs hns, Nat.le_refl _, fun h0 => absurd h0 hfut⟩
      · rw [Rcv.worker, if_neg hns, ha]
        simp only [e1]
      · exact hm.congr rfl rfl rfl rfl
  | @got c' c1 a n tr g gs ha ht hrest =>
    have hns := not_stop ha
    rcases hc.step with ⟨rx, e1, hf⟩ | ⟨rx, e1, -, hfut, hf⟩
    · refine ⟨{ r with cmdRx := rx, core := c1, queue := r.queue ++ [g].filter forwarded }, tr, gs, ?_,
        ⟨hf, hrest, hl, ?_⟩, rfl, fun hs => absurd hs hns, ?_, ?_⟩
      · rw [Rcv.worker, if_neg hns, ha]
        simp only [e1, ht, Codec.Res.bind, Option.toList]
      · refine hm.congr ?_ rfl rfl rfl
        rw [List.append_assoc, ← List.filter_append]
        rfl
      · have : (List.filter forwarded (g :: gs)).length =
            ([g].filter forwarded).length + (gs.filter forwarded).length := by
          rw [← List.length_append, ← List.filter_append]; rfl
        simp only [todo, List.length_cons, List.length_append, this]; omega
      · have : (List.filter forwarded (g :: gs)).length =
            ([g].filter forwarded).length + (gs.filter forwarded).length := by
          rw [← List.length_append, ← List.filter_append]; rfl
        intro _ _
        simp only [todo, List.length_cons, List.length_append, this]; omega
    · refine ⟨{ r with cmdRx := rx }, _, g :: gs, ?_, ⟨hf, .got ha ht hrest, hl, ?_⟩, rfl,
        fun hs => absurd hs hns, Nat.le_refl _, fun h0 => absurd h0 hfut⟩
      · rw [Rcv.worker, if_neg hns, ha]
        simp only [e1]
      · exact hm.congr rfl rfl rfl rfl

/-- Taking up the next command. -/
theorem next_step {H : List UInt8} {g : Codec.Got} {G : List Codec.Got} (hL : 8 ≤ L) (hat : r.at_ = .idle)
    (i : Recode.Inv L r.ring E H) (hs : r.ring.sub = 0) (hp : LPlays dw L r.lbk H (g :: G) tl F) :
    ∃ r', Rcv.next dw r g = .ok r' ∧ MainOk dw L F G tl r' E ∧ r'.at_.rank ≤ 3 ∧
      r'.cmdRx = r.cmdRx ∧ r'.core = r.core ∧ r'.queue = r.queue ∧ r'.litRx = r.litRx := by
  cases hp with
  | @copy _ _ _ d n _ _ hv hp =>
    refine ⟨{ r with at_ := .filling (.copy d n) }, rfl, ?_, by simp [MainAt.rank], rfl, rfl, rfl, rfl⟩
    exact ⟨H, hv, by simpa [hs, Recode.part_zero] using i, by simp only [hs]; exact Recode.subOk_zero _, hp⟩
  | @dict _ _ _ z k t _ _ hv hp =>
    refine ⟨{ r with at_ := .filling (.dict (dw z k t) (dw z k t).length) }, rfl, ?_,
      by simp [MainAt.rank], rfl, rfl, rfl, rfl⟩
    exact ⟨H, hv, by simpa [hs, Recode.part_zero] using i, by simp only [hs]; exact Recode.subOk_zero _, hp⟩
  | @lit _ l' _ _ data e _ t1 t2 _ hsend hp =>
    refine ⟨{ r with lbk := { r.lbk with last8 := Lit.pack8 (Recode.contextOf L H) },
                     at_ := .content ⟨data.length, none, []⟩ }, ?_, ?_, by simp [MainAt.rank], rfl, rfl,
      rfl, rfl⟩
    · simp only [Rcv.next, Recode.context_from_history i hL]
    · exact ⟨H, data, t1, t2, l', i, hs, Lit.follows_start hsend, rfl, by simpa using hp⟩
  | @bswitch _ _ _ t st _ _ hp =>
    refine ⟨{ r with lbk := r.lbk.obsBtype t }, rfl, ?_, by simp [MainAt.rank, hat], rfl, rfl, rfl, rfl⟩
    unfold MainOk
    simp only [hat]
    exact ⟨H, i, hs, hp⟩
  | @pm _ l' _ _ p _ _ hpm hp =>
    refine ⟨{ r with lbk := l' }, ?_, ?_, by simp [MainAt.rank, hat], rfl, rfl, rfl, rfl⟩
    · simp only [Rcv.next, hpm, Codec.Res.bind]
    · unfold MainOk
      simp only [hat]
      exact ⟨H, i, hs, hp⟩

theorem len_le {E o F' : List UInt8} (h : E ++ o <+: F') : E.length + o.length ≤ F'.length := by
  have := h.length_le
  simpa using this

theorem main_step (hL : 8 ≤ L) (room : Nat) (h : ROk cm dw L F tc gs tl futC futL r E) :
    ∃ r' o tl', r.main dw room = .ok (r', o) ∧ o.length ≤ room ∧
      ROk cm dw L F tc gs tl' futC futL r' (E ++ o) ∧
      todo L F tc gs tl' r' (E ++ o) ≤ todo L F tc gs tl r E ∧
      (futL = [] → 0 < room → r.at_ ≠ .finished → r.core.at_ = .stop →
        todo L F tc gs tl' r' (E ++ o) < todo L F tc gs tl r E) := by
  obtain ⟨hc, hp, hl, hm⟩ := h
  unfold MainOk at hm
  cases hat : r.at_ with
  | idle =>
    rw [hat] at hm
    obtain ⟨H, i, hs, hp2⟩ := hm
    cases hq : r.queue with
    | cons g q =>
      rw [hq, List.cons_append] at hp2
      obtain ⟨r', e1, hm', hrk, k1, k2, k3, k4⟩ := next_step (r := { r with queue := q }) hL hat i hs hp2
      have hlt : todo L F tc gs tl r' (E ++ []) < todo L F tc gs tl r E := by
        have h3 : r'.queue = q := k3
        simp only [todo, h3, hq, hat, List.length_cons, List.append_nil]
        simp only [MainAt.rank] at *
        omega
      refine ⟨r', [], tl, ?_, by simp, ⟨by rw [k1]; exact hc, by rw [k2]; exact hp, by rw [k4]; exact hl, ?_⟩,
        Nat.le_of_lt hlt, fun _ _ _ _ => hlt⟩
      · simp only [hat] at e1
        simp only [Rcv.main, hat, hq, e1, Codec.Res.bind]
      · rw [k3, List.append_nil]
        exact hm'
    | nil =>
      rw [hq, List.nil_append] at hp2
      by_cases hstop : r.core.at_ = .stop
      · have hgs : gs = [] := by
          cases hp with
          | stop _ => rfl
          | more ha _ _ => exact absurd hstop (not_stop ha)
          | got ha _ _ => exact absurd hstop (not_stop ha)
        obtain ⟨ring', o, res, hf, i', hsub, hol, -, hres⟩ := i.flush room
        have hpre : E ++ o <+: F.drop L := i'.prefix hp2.ext
        have hlen := len_le hpre
        rcases hres with ⟨rfl, hpend⟩ | ⟨rfl, hor, -⟩
        · subst hgs
          cases hp2 with
          | nil =>
            have hE : E ++ o = F.drop L := by
              rw [← i'.bytes, Recode.pending_nil i'.good hpend, List.append_nil]
            have hlt : todo L F tc [] [] { r with ring := ring', at_ := .finished } (E ++ o) <
                todo L F tc [] [] r E := by
              simp only [todo, hat, MainAt.rank, List.length_append]
              omega
            refine ⟨{ r with ring := ring', at_ := .finished }, o, [], ?_, hol, ⟨hc, hp, hl, ?_⟩,
              Nat.le_of_lt hlt, fun _ _ _ _ => hlt⟩
            · simp only [Rcv.main, hat, hq, if_pos hstop, hf]
            · unfold MainOk
              simp only [hq]
              exact ⟨rfl, hE⟩
        · refine ⟨{ r with ring := ring' }, o, tl, ?_, hol, ⟨hc, hp, hl, ?_⟩, ?_, ?_⟩
          · simp only [Rcv.main, hat, hq, if_pos hstop, hf]
          · unfold MainOk
            simp only [hat, hq]
            exact ⟨H, i', hsub.trans hs, hp2⟩
          · simp only [todo, List.length_append]
            omega
          · intro _ h0 _ _
            simp only [todo, List.length_append]
            omega
      · refine ⟨r, [], tl, ?_, by simp, ⟨hc, hp, hl, ?_⟩, by simp, fun _ _ _ hn => absurd hn hstop⟩
        · simp only [Rcv.main, hat, hq, if_neg hstop]
        · unfold MainOk
          simp only [hat, hq, List.append_nil, List.nil_append]
          exact ⟨H, i, hs, hp2⟩
  | content c =>
    rw [hat] at hm
    obtain ⟨H, rest, t1, t2, l', i, hs, hfol, htr, hp2⟩ := hm
    by_cases hleft : c.left = 0
    · obtain ⟨rfl, rfl, rfl⟩ := Lit.follows_end hfol hleft
      have hlt : todo L F tc gs tl { r with at_ := .filling (.lit c.done.reverse) } (E ++ []) <
          todo L F tc gs tl r E := by
        simp only [todo, hat, MainAt.rank, List.append_nil]
        omega
      refine ⟨{ r with at_ := .filling (.lit c.done.reverse) }, [], tl, ?_, by simp, ⟨hc, hp, hl, ?_⟩,
        Nat.le_of_lt hlt, fun _ _ _ _ => hlt⟩
      · simp only [Rcv.main, hat, if_pos hleft]
      · unfold MainOk
        simp only [List.append_nil, List.nil_append] at htr hp2 ⊢
        exact ⟨H, trivial, by simpa [hs, Recode.part_zero] using i, by rw [hs]; exact Recode.subOk_zero _,
          by rw [htr]; exact hp2⟩
    · obtain ⟨ch, n, t1', rest', rfl, hask, hfol', hdone⟩ := Lit.follows_step hfol hleft
      subst htr
      rw [List.cons_append] at hl
      rcases hl.step with ⟨rx, e1, hf⟩ | ⟨rx, e1, -, hfut, hf⟩
      · have hlt : todo L F tc gs (t1' ++ t2)
            { r with litRx := rx, lbk := (c.take r.lbk n).1, at_ := .content (c.take r.lbk n).2 } (E ++ []) <
            todo L F tc gs ((ch, n) :: t1' ++ t2) r E := by
          simp only [todo, hat, MainAt.rank, List.append_nil, List.cons_append, List.length_cons]
          omega
        refine ⟨{ r with litRx := rx, lbk := (c.take r.lbk n).1, at_ := .content (c.take r.lbk n).2 }, [],
          t1' ++ t2, ?_, by simp, ⟨hc, hp, hf, ?_⟩, Nat.le_of_lt hlt, fun _ _ _ _ => hlt⟩
        · simp only [Rcv.main, hat, if_neg hleft, hask, e1]
        · unfold MainOk
          simp only [List.append_nil]
          exact ⟨H, rest', t1', t2, l', i, hs, hfol', rfl, by rw [hdone]; exact hp2⟩
      · refine ⟨{ r with litRx := rx }, [], (ch, n) :: t1' ++ t2, ?_, by simp, ⟨hc, hp, hf, ?_⟩, ?_,
          fun h0 => absurd h0 hfut⟩
        · simp only [Rcv.main, hat, if_neg hleft, hask, e1]
        · unfold MainOk
          simp only [hat, List.append_nil]
          exact ⟨H, rest, (ch, n) :: t1', t2, l', i, hs, hfol, rfl, hp2⟩
        · simp only [todo, List.append_nil]
          omega
  | filling c =>
    rw [hat] at hm
    obtain ⟨H, hv, i, hs, hp2⟩ := hm
    obtain ⟨ring', o, res, he, hcalled⟩ := Recode.encodeCmd_spec L (by omega) c hv H r.ring E room i hs
    rcases hcalled.cases with ⟨rfl, h1, h2⟩ | ⟨rfl, h1, h2, h3⟩
    · have hlen := len_le (h2.prefix hp2.ext)
      have hlt : todo L F tc gs tl { r with ring := ring', at_ := .idle } (E ++ o) <
          todo L F tc gs tl r E := by
        simp only [todo, hat, MainAt.rank, List.length_append]
        omega
      refine ⟨{ r with ring := ring', at_ := .idle }, o, tl, ?_, hcalled.bound, ⟨hc, hp, hl, ?_⟩,
        Nat.le_of_lt hlt, fun _ _ _ _ => hlt⟩
      · simp only [Rcv.main, hat, he]
      · exact ⟨_, h2, h1, hp2⟩
    · have hlen := len_le (h3.prefix (T := F) (by
        obtain ⟨t, ht⟩ := hp2.ext
        obtain ⟨u, hu⟩ := Recode.part_prefix H c ring'.sub h2
        exact ⟨u ++ t, by rw [ht, hu, List.append_assoc]⟩))
      refine ⟨{ r with ring := ring' }, o, tl, ?_, hcalled.bound, ⟨hc, hp, hl, ?_⟩, ?_, ?_⟩
      · simp only [Rcv.main, hat, he]
      · unfold MainOk
        simp only [hat]
        exact ⟨H, hv, h3, h2, hp2⟩
      · simp only [todo, List.length_append]
        omega
      · intro _ h0 _ _
        simp only [todo, List.length_append]
        omega
  | finished =>
    refine ⟨r, [], tl, ?_, by simp, ⟨hc, hp, hl, ?_⟩, by simp, fun _ _ hn => absurd rfl hn⟩
    · simp only [Rcv.main, hat]
    · unfold MainOk
      rw [hat] at hm ⊢
      simpa using hm

/-! ## Runs -/

/-- Any schedule keeps the invariant. -/
theorem run_ok (hL : 8 ≤ L) : ∀ (acts : List Act) (tc : Trace Codec.Key Unit) (gs : List Codec.Got)
    (tl : Trace Lit.Key Bool) (r : Rcv) (E : List UInt8),
    ROk cm dw L F tc gs tl (cmdArrived acts ++ futC) (litArrived acts ++ futL) r E →
    ∃ r' out tc' gs' tl', run dw r acts = .ok (r', out) ∧
      ROk cm dw L F tc' gs' tl' futC futL r' (E ++ out) := by
  intro acts
  induction acts with
  | nil =>
    intro tc gs tl r E h
    exact ⟨r, [], tc, gs, tl, rfl, by simpa [cmdArrived, litArrived] using h⟩
  | cons a as ih =>
    intro tc gs tl r E h
    cases a with
    | cmdBytes p =>
      simp only [cmdArrived, litArrived, List.append_assoc] at h
      obtain ⟨r', out, tc', gs', tl', h1, h2⟩ := ih tc gs tl { r with cmdRx := r.cmdRx.push p } E
        ⟨h.cmd.push, h.plays, h.lit, h.main.congr rfl rfl rfl rfl⟩
      exact ⟨r', out, tc', gs', tl', by simp only [run, Rcv.act, Codec.Res.bind, h1, List.nil_append], h2⟩
    | litBytes p =>
      simp only [cmdArrived, litArrived, List.append_assoc] at h
      obtain ⟨r', out, tc', gs', tl', h1, h2⟩ := ih tc gs tl { r with litRx := r.litRx.push p } E
        ⟨h.cmd, h.plays, h.lit.push, h.main.congr rfl rfl rfl rfl⟩
      exact ⟨r', out, tc', gs', tl', by simp only [run, Rcv.act, Codec.Res.bind, h1, List.nil_append], h2⟩
    | worker =>
      simp only [cmdArrived, litArrived] at h
      obtain ⟨r1, tc1, gs1, e1, h1, -⟩ := worker_step h
      obtain ⟨r', out, tc', gs', tl', h2, h3⟩ := ih tc1 gs1 tl r1 E h1
      exact ⟨r', out, tc', gs', tl', by simp only [run, Rcv.act, e1, Codec.Res.bind, h2, List.nil_append], h3⟩
    | main room =>
      simp only [cmdArrived, litArrived] at h
      obtain ⟨r1, o, tl1, e1, -, h1, -⟩ := main_step hL room h
      obtain ⟨r', out, tc', gs', tl', h2, h3⟩ := ih tc gs tl1 r1 (E ++ o) h1
      exact ⟨r', o ++ out, tc', gs', tl', by simp only [run, Rcv.act, e1, Codec.Res.bind, h2],
        by rw [← List.append_assoc]; exact h3⟩

/-- Alternating worker and main steps, with the given output space each time. -/
def rounds (rooms : List Nat) : List Act := rooms.flatMap fun room => [.worker, .main room]

theorem rounds_finish (hL : 8 ≤ L) : ∀ (rooms : List Nat) (tc : Trace Codec.Key Unit) (gs : List Codec.Got)
    (tl : Trace Lit.Key Bool) (r : Rcv) (E : List UInt8), (∀ room ∈ rooms, 0 < room) →
    ROk cm dw L F tc gs tl [] [] r E → todo L F tc gs tl r E ≤ rooms.length →
    ∃ r' out, run dw r (rounds rooms) = .ok (r', out) ∧ r'.at_ = .finished ∧ E ++ out = F.drop L := by
  intro rooms
  induction rooms with
  | nil =>
    intro tc gs tl r E _ h ht
    have hr : r.at_ = .finished := by
      simp only [todo, List.length_nil] at ht
      cases hat : r.at_ with
      | finished => rfl
      | idle => rw [hat] at ht; simp only [MainAt.rank] at ht; omega
      | content c => rw [hat] at ht; simp only [MainAt.rank] at ht; omega
      | filling c => rw [hat] at ht; simp only [MainAt.rank] at ht; omega
    have hm := h.main
    unfold MainOk at hm
    rw [hr] at hm
    exact ⟨r, [], rfl, hr, by rw [List.append_nil]; exact hm.2⟩
  | cons room rooms ih =>
    intro tc gs tl r E hrooms h ht
    obtain ⟨r1, tc1, gs1, e1, h1, hat1, hst, hle, hlt⟩ := worker_step h
    obtain ⟨r2, o, tl2, e2, -, h2, hle2, hlt2⟩ := main_step hL room h1
    by_cases hfin : r.at_ = .finished
    · -- nothing more happens
      have hm := h1.main
      unfold MainOk at hm
      rw [hat1, hfin] at hm
      have key : ∀ (rooms : List Nat) (tc : Trace Codec.Key Unit) (gs : List Codec.Got)
          (tl : Trace Lit.Key Bool) (r : Rcv), ROk cm dw L F tc gs tl [] [] r E →
          r.at_ = .finished → ∃ r', run dw r (rounds rooms) = .ok (r', []) ∧ r'.at_ = .finished := by
        intro rooms
        induction rooms with
        | nil => intro _ _ _ r _ hr; exact ⟨r, rfl, hr⟩
        | cons room rooms ih2 =>
          intro tc gs tl r hok hr
          obtain ⟨r1, tc1, gs1, e1, h1, hat1, -⟩ := worker_step hok
          obtain ⟨r', e3, h3⟩ := ih2 tc1 gs1 tl r1 h1 (hat1.trans hr)
          refine ⟨r', ?_, h3⟩
          have hmain : r1.main dw room = .ok (r1, []) := by
            simp only [Rcv.main, hat1.trans hr]
          simp only [rounds, List.flatMap_cons, List.cons_append, List.nil_append, run, Rcv.act, e1,
            Codec.Res.bind, hmain]
          simp only [rounds] at e3
          rw [e3]
      obtain ⟨r', e3, h3⟩ := key (room :: rooms) tc gs tl r h hfin
      exact ⟨r', [], e3, h3, by rw [List.append_nil]; exact hm.2⟩
    · have hdec : todo L F tc1 gs1 tl2 r2 (E ++ o) < todo L F tc gs tl r E := by
        by_cases hs : r.core.at_ = .stop
        · have hr1 := hst hs
          rw [hr1] at hlt2
          have := hlt2 rfl (hrooms room (by simp)) hfin hs
          rw [← hr1] at this
          omega
        · have := hlt rfl hs
          omega
      simp only [List.length_cons] at ht
      obtain ⟨r', out, e3, h3, h4⟩ := ih tc1 gs1 tl2 r2 (E ++ o) (fun x hx => hrooms x (by simp [hx])) h2
        (by omega)
      refine ⟨r', o ++ out, ?_, h3, by rw [← List.append_assoc]; exact h4⟩
      simp only [rounds, List.flatMap_cons, List.cons_append, List.nil_append, run, Rcv.act, e1,
        Codec.Res.bind, e2]
      simp only [rounds] at e3
      rw [e3]

theorem run_append (r r' r'' : Rcv) (as bs : List Act) (o o' : List UInt8) (h : run dw r as = .ok (r', o))
    (h' : run dw r' bs = .ok (r'', o')) : run dw r (as ++ bs) = .ok (r'', o ++ o') := by
  induction as generalizing r o with
  | nil =>
    simp only [run, Codec.Res.ok.injEq, Prod.mk.injEq] at h
    obtain ⟨rfl, rfl⟩ := h
    simpa using h'
  | cons a as ih =>
    simp only [run, List.cons_append] at h ⊢
    cases ha : r.act dw a with
    | fail => simp [ha, Codec.Res.bind] at h
    | panic => simp [ha, Codec.Res.bind] at h
    | ok x =>
      rw [ha] at h
      simp only [Codec.Res.bind] at h ⊢
      cases hr : run dw x.1 as with
      | fail => simp [hr] at h
      | panic => simp [hr] at h
      | ok y =>
        rw [hr] at h
        simp only [Codec.Res.ok.injEq, Prod.mk.injEq] at h
        obtain ⟨rfl, rfl⟩ := h
        have := ih x.1 y.2 hr
        rw [this]
        simp

/-! ## C38 -/

/-- The bytes `out` are what the entropy coder gives for the nibbles `tr`: they are put in order, the
coder is closed once, and its output is taken in pieces at any times (`ops` may contain drains of any
size anywhere), until nothing is left. -/
def Encodes {κ ι : Type} [DecidableEq κ] [DecidableEq ι] (tr : Trace κ ι) (out : List UInt8) : Prop :=
  ∃ ops e, Ans.putsOf ops = slotsOf Session.init tr ∧ Ans.ClosedOnce ops ∧
    Ans.Enc.init.run ops = some (out, e) ∧ e.q = []

theorem pack8_zeros (n : Nat) : Lit.pack8 (List.replicate n 0) = 0 := by
  induction n with
  | zero => rfl
  | succ n ih => rw [List.replicate_succ, Lit.pack8, ih]; rfl

theorem context_zeros (L : Nat) : Lit.pack8 (Recode.contextOf L (List.replicate L 0)) = 0 := by
  unfold Recode.contextOf
  split
  · rw [List.drop_replicate, List.reverse_replicate, pack8_zeros]
  · rw [List.drop_replicate, pack8_zeros]

theorem snd_init_ok (hL : 8 ≤ L) : SndOk L (List.replicate L 0) (Snd.init L) := by
  refine ⟨Codec.coreOk_init, Lit.init_ok, ⟨[], ?_⟩, rfl, ?_⟩
  · have := Recode.new_inv (List.replicate L 0) (by rw [List.length_replicate]; omega)
    rw [List.length_replicate] at this
    exact this
  · rw [context_zeros]
    rfl

theorem rcv_init_ok (hL : 8 ≤ L) {cm : Bool} {dw : Nat → Nat → Nat → List UInt8} {F : List UInt8}
    {tc : Trace Codec.Key Unit} {gs : List Codec.Got} {tl : Trace Lit.Key Bool}
    {futC futL : List UInt8} (hc : Feeds cm tc futC Rx.init)
    (hp : Plays (Snd.init L).core tc gs) (hl : Feeds cm tl futL Rx.init)
    (hm : LPlays dw L (Snd.init L).lbk (List.replicate L 0) (gs.filter forwarded) tl F) :
    ROk cm dw L F tc gs tl futC futL (Rcv.init L) [] := by
  refine ⟨hc, hp, hl, List.replicate L 0, ?_, rfl, hm⟩
  have := Recode.new_inv (List.replicate L 0) (by rw [List.length_replicate]; omega)
  rw [List.length_replicate] at this
  exact this

/-- The original data: the commands carried out. -/
def original (dw : Nat → Nat → Nat → List UInt8) (xs : List Item) : List UInt8 :=
  Recode.lz77 (xs.map (Item.ringCmd dw))

/-- C38, safety and progress.  Any list of valid commands, whose copies refer to data already there,
is accepted by the compressor, and whatever the entropy coders of the two streams give out (`outC`,
`outL`, however they are drained):

* under every schedule of arrivals, worker steps and main steps with output buffers of any sizes,
  where what arrives is some beginning of the two streams (with anything behind them), nothing fails,
  the bytes given out are a beginning of the original data, and all of it when the end is reported;
* once both streams have arrived, alternating worker and main steps with nonempty output buffers
  reports the end after finitely many rounds. -/
theorem any_schedule (o : Codec.Opts) (dw : Nat → Nat → Nat → List UInt8) (L : Nat) (hL : 8 ≤ L)
    (room : Nat) (hroom : 0 < room) (xs : List Item) (hv : ∀ x ∈ xs, x.Valid o dw L)
    (hi : Recode.InHistory 0 (xs.map (Item.ringCmd dw))) :
    ∃ fuel0 tc tl, (∀ fuel, fuel0 ≤ fuel → sendAll o dw room fuel xs (Snd.init L) = some (.ok (tc, tl))) ∧
      (∃ outC, Encodes tc outC) ∧ (∃ outL, Encodes tl outL) ∧
      ∀ outC outL, Encodes tc outC → Encodes tl outL → ∀ tailC tailL acts,
        (cmdArrived acts <+: outC ++ tailC → litArrived acts <+: outL ++ tailL →
          ∃ r out, run dw (Rcv.init L) acts = .ok (r, out) ∧ out <+: original dw xs ∧
            (r.at_ = .finished → out = original dw xs)) ∧
        (cmdArrived acts = outC ++ tailC → litArrived acts = outL ++ tailL →
          ∃ n, ∀ rooms : List Nat, n ≤ rooms.length → (∀ k ∈ rooms, 0 < k) →
            ∃ r, run dw (Rcv.init L) (acts ++ rounds rooms) = .ok (r, original dw xs) ∧
              r.at_ = .finished) := by
  obtain ⟨fuel0, tc, tl, h1, h2, h3, h4, h5⟩ := send_spec hL hroom xs hv (snd_init_ok hL)
  have hexp : (Recode.expand (List.replicate L 0) (xs.map (Item.ringCmd dw))).drop L = original dw xs := by
    have := Recode.ring_spec (List.replicate L 0) _ hi
    rw [List.length_replicate] at this
    exact this
  have htc := h4.traceOk h2
  refine ⟨fuel0, tc, tl, h1, ?_, ?_, ?_⟩
  · obtain ⟨ops, out, e, k1, k2, k3, k4⟩ := trace_encode_total tc htc
    exact ⟨out, ops, e, k1, k2, k3, k4⟩
  · obtain ⟨ops, out, e, k1, k2, k3, k4⟩ := trace_encode_total tl h3
    exact ⟨out, ops, e, k1, k2, k3, k4⟩
  intro outC outL ⟨opsC, eC, c1, c2, c3, c4⟩ ⟨opsL, eL, l1, l2, l3, l4⟩ tailC tailL acts
  have hstart := rcv_init_ok hL (feeds_start tc htc opsC c1 c2 outC eC c3 c4 tailC) h4
    (feeds_start tl h3 opsL l1 l2 outL eL l3 l4 tailL) h5
  constructor
  · intro ⟨futC, hc⟩ ⟨futL, hl⟩
    rw [← hc, ← hl] at hstart
    obtain ⟨r, out, tc', gs', tl', hr, hok⟩ := run_ok hL acts _ _ _ _ _ hstart
    rw [List.nil_append] at hok
    refine ⟨r, out, hr, by rw [← hexp]; exact hok.main.prefix, fun hf => ?_⟩
    have := hok.main
    unfold MainOk at this
    rw [hf] at this
    rw [← hexp]
    exact this.2
  · intro hc hl
    rw [← hc, ← hl, ← List.append_nil (cmdArrived acts), ← List.append_nil (litArrived acts)] at hstart
    obtain ⟨r, out, tc', gs', tl', hr, hok⟩ := run_ok hL acts _ _ _ _ _ hstart
    rw [List.nil_append] at hok
    refine ⟨todo L (Recode.expand (List.replicate L 0) (xs.map (Item.ringCmd dw))) tc' gs' tl' r out, fun rooms hn hpos => ?_⟩
    obtain ⟨r', out', e1, e2, e3⟩ := rounds_finish hL rooms _ _ _ _ _ hpos hok hn
    refine ⟨r', ?_, e2⟩
    rw [← hexp, ← e3]
    exact run_append _ _ _ _ _ _ _ hr e1

/-! ## Examples -/

/-- A dictionary for the examples: word `i` of length `z` is `z` times the byte `i`. -/
def demoWords : Nat → Nat → Nat → List UInt8 := fun z i _ => List.replicate z (UInt8.ofNat i)

/-- Every kind of command, with a ring of 1024 bytes. -/
def demoItems : List Item :=
  [.pm Codec.demoPm, .lit [104, 101, 108, 108, 111] false, .copy 3 70, .lit (List.replicate 100 9) true,
    .dict 4 77 0, .bswitch .lit 200 3, .copy 150 60, .bswitch .cmd 1 0, .lit [1] false, .copy 1 16]

theorem demoItems_valid : ∀ x ∈ demoItems, x.Valid Codec.demoOpts demoWords 1024 := by
  intro x hx
  simp only [demoItems, List.mem_cons, List.not_mem_nil, or_false] at hx
  have hpm : SpeedsSafe Codec.demoOpts Codec.demoPm := by
    intro w hw
    rw [Codec.demoPm_valid.speeds] at hw
    obtain rfl := Option.some.inj hw
    intro sp hsp
    simp only [List.mem_cons, List.not_mem_nil, or_false] at hsp
    have e1 : Lit.speedOf (Codec.speedArrives ⟨32, 8192⟩) = some ⟨32, 8192⟩ := by decide +kernel
    have e2 : Lit.speedOf (Codec.speedArrives Codec.mud) = some Codec.mud := by decide +kernel
    have e3 : Lit.speedOf (Codec.speedArrives ⟨16, 16384⟩) = some ⟨16, 16384⟩ := by decide +kernel
    have e4 : Lit.speedOf (Codec.speedArrives ⟨64, 8192⟩) = some ⟨64, 8192⟩ := by decide +kernel
    rcases hsp with rfl | rfl | rfl | rfl
    · exact ⟨_, e1, by unfold Cdf.SafeSpeed; decide +kernel⟩
    · exact ⟨_, e2, by unfold Cdf.SafeSpeed; decide +kernel⟩
    · exact ⟨_, e3, by unfold Cdf.SafeSpeed; decide +kernel⟩
    · exact ⟨_, e4, by unfold Cdf.SafeSpeed; decide +kernel⟩
  rcases hx with h | h | h | h | h | h | h | h | h | h <;> subst h
  · exact ⟨⟨_, Codec.demoPm_valid⟩, trivial, fun p hp => Item.pm.inj hp ▸ hpm⟩
  all_goals
    refine ⟨?_, ?_, fun p hp => by cases hp⟩
    · simp only [Item.head, Codec.Head.Valid]
      decide +kernel
    · simp only [Item.ringCmd, Recode.Valid, demoWords, List.length_replicate]
      try decide +kernel

/-- The hypotheses of `any_schedule` are met by a history with every kind of command. -/
example : (∀ x ∈ demoItems, x.Valid Codec.demoOpts demoWords 1024) ∧
    Recode.InHistory 0 (demoItems.map (Item.ringCmd demoWords)) ∧
    (original demoWords demoItems).length = 256 :=
  ⟨demoItems_valid, by simp [demoItems, Item.ringCmd, Recode.InHistory, Recode.Cmd.size, demoWords],
    by decide +kernel⟩

end Divans.Pipe
