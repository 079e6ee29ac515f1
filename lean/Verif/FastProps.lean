import Verif.FastLemmas
import Verif.PipeProps

/-!
# Reading literals on the fast path (C51)

* `fast_any_schedule_partial`: the decompressor with the two ways of reading the bytes of a literal restores the
  original data under every schedule, and none of its debug assertions fails.
* `fast_path_starves`: with other input the fast path can run out of bytes without noticing.
-/

namespace Divans.Fast
open Divans.Adaptive Divans.Lit Divans.Pipe

/-! ### Streams of the compressor -/

/-- Filling the decoder early makes no difference. -/
theorem feeds_fill {tr : Trace Key Bool} {fut : List UInt8} {j : Job} (h : Feeds true tr fut j.rx) :
    Feeds true tr fut j.fill.1.rx := by
  rw [fill_eq h.good]
  have hg := h.good
  have hd : (j.rx.dec.pushData j.rx.buf).1 = (j.rx.dec.pushData (j.rx.buf.take j.rx.dec.numPushAvail)).1 := by
    rcases Nat.le_total j.rx.buf.length j.rx.dec.numPushAvail with hle | hle
    · rw [List.take_of_length_le hle]
    · have := Ans.pushData_full j.rx.dec (j.rx.buf.take j.rx.dec.numPushAvail)
        (j.rx.buf.drop j.rx.dec.numPushAvail) hg (by rw [List.length_take]; omega)
      rw [List.take_append_drop] at this
      exact this
  refine ⟨Ans.pushData_good _ _ hg, by simp only [Ans.pushData_reqB]; exact h.reqB, ?_⟩
  have := gives_moved (r := j.rx.push fut) hg (min j.rx.buf.length j.rx.dec.numPushAvail)
    (Nat.min_le_right _ _) h.gives
  simp only [Rx.push] at this ⊢
  rw [List.take_append_of_le_length (Nat.min_le_left _ _), List.drop_append_of_le_length (Nat.min_le_left _ _)] at this
  have e1 : j.rx.buf.take (min j.rx.buf.length j.rx.dec.numPushAvail) = j.rx.buf.take j.rx.dec.numPushAvail := by
    rcases Nat.le_total j.rx.buf.length j.rx.dec.numPushAvail with hle | hle
    · rw [Nat.min_eq_left hle, List.take_length, List.take_of_length_le hle]
    · rw [Nat.min_eq_right hle]
  have e2 : j.rx.buf.drop (min j.rx.buf.length j.rx.dec.numPushAvail) = j.rx.buf.drop j.rx.dec.numPushAvail := by
    rcases Nat.le_total j.rx.buf.length j.rx.dec.numPushAvail with hle | hle
    · rw [Nat.min_eq_left hle, List.drop_length, List.drop_eq_nil_of_le hle]
    · rw [Nat.min_eq_right hle]
  rw [e1, e2] at this
  rw [hd]
  exact this

/-- A full decoder reads the next half byte without looking at the buffer. -/
theorem step_full {j : Job} (hg : j.rx.dec.Good) (h0 : j.rx.dec.numPushAvail = 0) {ch : Choice Key Bool}
    (ha : j.con.ask j.lbk = some ch) : ∃ n rx, j.rx.step ch = (rx, some n) ∧
      j.nibble = some ⟨rx, (j.con.take j.lbk n).1, (j.con.take j.lbk n).2⟩ := by
  have hp := push_zero hg h0 j.rx.buf
  refine ⟨((j.rx.ses.coding ch).lookup j.rx.dec.offset).1,
    ⟨j.rx.ses.after ch ((j.rx.ses.coding ch).lookup j.rx.dec.offset).1,
      j.rx.dec.advance ((j.rx.ses.coding ch).lookup j.rx.dec.offset).2.toSlot, j.rx.buf⟩, ?_, ?_⟩
  · simp only [Rx.step, hp, h0, ne_eq, not_true_eq_false, if_false, List.drop_zero]
  · simp only [Job.nibble, ha]

/-- A literal of a genuine stream, with the bytes `D` in all, being read. -/
def Genuine (D : List UInt8) (t2 : Trace Key Bool) (lEnd : Lbk) (fut : List UInt8) (N : Nat) (j : Job) : Prop :=
  ∃ rest t1, j.con.Follows j.lbk rest t1 lEnd ∧ Feeds true (t1 ++ t2) fut j.rx ∧
    j.con.done.reverse ++ rest = D ∧ t1.length ≤ N

theorem genuine_closed (D : List UInt8) (t2 : Trace Key Bool) (lEnd : Lbk) (fut : List UInt8) (N : Nat) :
    Closed (Genuine D t2 lEnd fut N) where
  fill := by
    rintro j ⟨rest, t1, h1, h2, h3, h4⟩
    exact ⟨rest, t1, by rw [fill_con, fill_lbk]; exact h1, feeds_fill h2, by rw [fill_con]; exact h3, h4⟩
  ask := by
    rintro j ⟨rest, t1, h1, h2, h3, -⟩ hl
    obtain ⟨ch, n, tr', rest', -, ha, -⟩ := follows_step h1 hl
    exact ⟨_, by simp only [Job.nibble, ha]; rfl⟩
  nibble := by
    rintro j j1 ⟨rest, t1, h1, h2, h3, h4⟩ hi h0 hl hn
    obtain ⟨ch, n, tr', rest', rfl, ha, hf, hd⟩ := follows_step h1 hl
    obtain ⟨n', rx, e1, e2⟩ := step_full hi.good h0 ha
    rw [e2] at hn
    obtain rfl := Option.some.inj hn
    rw [List.cons_append] at h2
    rcases h2.step with ⟨r', e3, hF⟩ | ⟨r', e3, -⟩
    · rw [e1] at e3
      simp only [Prod.mk.injEq, Option.some.injEq] at e3
      obtain ⟨rfl, rfl⟩ := e3
      exact ⟨rest', tr', hf, hF, hd.trans h3, by simp only [List.length_cons] at h4; omega⟩
    · rw [e1] at e3; simp at e3

theorem genuine_calm (D : List UInt8) (t2 : Trace Key Bool) (lEnd : Lbk) (fut : List UInt8) (N : Nat) :
    Calm (Genuine D t2 lEnd fut N) := by
  rintro j ⟨rest, t1, h1, h2, h3, -⟩ h4
  exact h2.calm h4

/-- A decoder that is short of input waits for bytes on their way. -/
theorem genuine_starved {D : List UInt8} {t2 : Trace Key Bool} {lEnd : Lbk} {fut : List UInt8} {N : Nat} {j : Job}
    (h : Genuine D t2 lEnd fut N j) (hl : j.con.left ≠ 0) (hf : j.fill.2 = false) : fut ≠ [] := by
  obtain ⟨rest, t1, h1, h2, -, -⟩ := h
  obtain ⟨ch, n, tr', rest', rfl, ha, -, -⟩ := follows_step h1 hl
  rw [List.cons_append] at h2
  rcases h2.step with ⟨r', e3, -⟩ | ⟨r', e3, -, hfut, -⟩
  · exfalso
    rw [fill_eq h2.good] at hf
    simp only [decide_eq_false_iff_not] at hf
    simp only [Rx.step, Ans.pushData_avail _ _ h2.good] at e3
    rw [if_pos (by omega)] at e3
    simp at e3
  · exact hfut

/-! ### The invariant -/

/-- What is known about a literal in progress. -/
def LitOk (r : Real) : Prop :=
  match r.rcv.at_ with
  | .content c => Inv ⟨r.rcv.litRx, r.rcv.lbk, c⟩ ∧ SubOk r.sub ⟨r.rcv.litRx, r.rcv.lbk, c⟩ ∧ c.left ≠ 0
  | _ => Inv ⟨r.rcv.litRx, r.rcv.lbk, ⟨0, none, []⟩⟩

theorem inv_swap {j : Job} (h : Inv j) (hh : j.con.high = none) (rx : Rx Key Bool) (hrx : rx = j.rx) (l : Lbk)
    (c : Content) (hc : c.high = none) : Inv ⟨rx, l, c⟩ := by
  subst hrx
  exact ⟨h.good, h.reqB, h.fresh, h.small, by simp only [hc]; have := h.even; rw [hh] at this; exact this,
    fun hx => absurd hc hx⟩

theorem inv_push {j : Job} (h : Inv j) (p : List UInt8) : Inv { j with rx := j.rx.push p } :=
  ⟨h.good, h.reqB, h.fresh, h.small, h.even, h.inside⟩

theorem subOk_push {s : Sub} {j : Job} (h : SubOk s j) (p : List UInt8) : SubOk s { j with rx := j.rx.push p } := by
  cases s with
  | safe => exact ⟨h.1, by have := h.2; simp only [Rx.push, List.length_append]; omega⟩
  | low => exact h
  | second => exact h
  | full => exact h

variable {dw : Nat → Nat → Nat → List UInt8} {L : Nat} {F : List UInt8} {tc : Trace Codec.Key Unit}
  {gs : List Codec.Got} {tl : Trace Lit.Key Bool} {futC futL : List UInt8} {r : Real}
  {E : List UInt8}

/-- What main steps outside literals do to the literal stream. -/
theorem main_lit {r r' : Rcv} {room : Nat} {o : List UInt8} (hc : ∀ c, r.at_ ≠ .content c)
    (h : r.main dw room = .ok (r', o)) : r'.litRx = r.litRx ∧
      ∀ c, r'.at_ = .content c → ∃ n e q, r.queue = .lit n e :: q ∧ c = ⟨n, none, []⟩ ∧ r.at_ = .idle := by
  unfold Rcv.main at h
  cases hat : r.at_ with
  | content c => exact absurd hat (hc c)
  | finished =>
    simp only [hat, Codec.Res.ok.injEq, Prod.mk.injEq] at h
    obtain ⟨rfl, -⟩ := h
    exact ⟨rfl, fun c hcc => by rw [hat] at hcc; cases hcc⟩
  | filling c =>
    simp only [hat] at h
    cases he : Recode.encodeCmd r.ring c room with
    | panic => rw [he] at h; simp at h
    | spin => rw [he] at h; simp at h
    | done x =>
      obtain ⟨ring, o', res⟩ := x
      rw [he] at h
      cases res with
      | ok =>
        simp only [Codec.Res.ok.injEq, Prod.mk.injEq] at h
        obtain ⟨rfl, -⟩ := h
        exact ⟨rfl, fun c hcc => by cases hcc⟩
      | more =>
        simp only [Codec.Res.ok.injEq, Prod.mk.injEq] at h
        obtain ⟨rfl, -⟩ := h
        exact ⟨rfl, fun c hcc => by simp only [hat] at hcc; cases hcc⟩
      | fail => simp at h
  | idle =>
    simp only [hat] at h
    cases hq : r.queue with
    | nil =>
      rw [hq] at h
      simp only at h
      by_cases hs : r.core.at_ = .stop
      · rw [if_pos hs] at h
        cases hf : Recode.flush r.ring room with
        | none => rw [hf] at h; simp at h
        | some x =>
          obtain ⟨ring, o', res⟩ := x
          rw [hf] at h
          cases res with
          | ok =>
            simp only [Codec.Res.ok.injEq, Prod.mk.injEq] at h
            obtain ⟨rfl, -⟩ := h
            exact ⟨rfl, fun c hcc => by cases hcc⟩
          | more =>
            simp only [Codec.Res.ok.injEq, Prod.mk.injEq] at h
            obtain ⟨rfl, -⟩ := h
            exact ⟨rfl, fun c hcc => by simp only [hat] at hcc; cases hcc⟩
          | fail => simp at h
      · rw [if_neg hs] at h
        simp only [Codec.Res.ok.injEq, Prod.mk.injEq] at h
        obtain ⟨rfl, -⟩ := h
        exact ⟨rfl, fun c hcc => by rw [hat] at hcc; cases hcc⟩
    | cons g q =>
      rw [hq] at h
      simp only at h
      cases hn : Rcv.next dw { r with at_ := .idle, queue := q } g with
      | fail => simp only [← hat] at h hn; rw [hn] at h; simp [Codec.Res.bind] at h
      | panic => simp only [← hat] at h hn; rw [hn] at h; simp [Codec.Res.bind] at h
      | ok r1 =>
        have hh : r1 = r' := by
          simp only [← hat] at h hn; rw [hn] at h
          simp only [Codec.Res.bind, Codec.Res.ok.injEq, Prod.mk.injEq] at h
          exact h.1
        subst hh
        clear h
        cases g with
        | copy d n =>
          simp only [Rcv.next, Codec.Res.ok.injEq] at hn
          subst hn; exact ⟨rfl, fun c hcc => by cases hcc⟩
        | dict z i t =>
          simp only [Rcv.next, Codec.Res.ok.injEq] at hn
          subst hn; exact ⟨rfl, fun c hcc => by cases hcc⟩
        | lit n e =>
          simp only [Rcv.next] at hn
          split at hn
          · cases hn
          · simp only [Codec.Res.ok.injEq] at hn
            subst hn
            exact ⟨rfl, fun c hcc => ⟨n, e, q, rfl, by simpa using hcc.symm, rfl⟩⟩
        | bswitch k t st =>
          cases k <;> simp only [Rcv.next, Codec.Res.ok.injEq] at hn <;> subst hn
          · exact ⟨rfl, fun c hcc => by cases hcc⟩
          · exact ⟨rfl, fun c hcc => by cases hcc⟩
          · exact ⟨rfl, fun c hcc => by cases hcc⟩
        | pm p =>
          simp only [Rcv.next] at hn
          cases hp : r.lbk.obsPm p with
          | fail => rw [hp] at hn; cases hn
          | panic => rw [hp] at hn; cases hn
          | ok l =>
            rw [hp] at hn
            simp only [Codec.Res.bind, Codec.Res.ok.injEq] at hn
            subst hn; exact ⟨rfl, fun c hcc => by cases hcc⟩

/-- One step of the main side. -/
theorem real_main (hL : 8 ≤ L) (strict : Bool) (room : Nat) (h : ROk true dw L F tc gs tl futC futL r.rcv E)
    (hlit : LitOk r) :
    ∃ r' o tl', r.main strict dw room = .ok (r', o) ∧ o.length ≤ room ∧ LitOk r' ∧
      ROk true dw L F tc gs tl' futC futL r'.rcv (E ++ o) ∧
      todo L F tc gs tl' r'.rcv (E ++ o) ≤ todo L F tc gs tl r.rcv E ∧
      (futL = [] → 0 < room → r.rcv.at_ ≠ .finished → r.rcv.core.at_ = .stop →
        todo L F tc gs tl' r'.rcv (E ++ o) < todo L F tc gs tl r.rcv E) := by
  by_cases hcon : ∃ c, r.rcv.at_ = .content c
  · obtain ⟨c, hat⟩ := hcon
    unfold LitOk at hlit
    rw [hat] at hlit
    obtain ⟨hi, hs, hleft⟩ := hlit
    have hm := h.main
    unfold MainOk at hm
    rw [hat] at hm
    obtain ⟨H, rest, t1, t2, l', i, hsub, hfol, rfl, hp2⟩ := hm
    obtain ⟨j', ret, s', e, d⟩ := content_any (genuine_closed (c.done.reverse ++ rest) t2 l' futL t1.length)
      (genuine_calm _ _ _ _ _) strict hs hleft ⟨rest, t1, hfol, h.lit, rfl, Nat.le_refl _⟩ hi
    obtain ⟨rest', t1', g1, g2, g3, g4⟩ := d.keep
    cases ret with
    | success =>
      have hz := d.good rfl
      obtain ⟨rfl, rfl, hl'⟩ := follows_end g1 hz
      have hh : j'.con.high = none := by
        by_contra hne
        exact d.inv.inside hne hz
      have hlt : todo L F tc gs t2
          { r.rcv with litRx := j'.rx, lbk := j'.lbk, at_ := .filling (.lit j'.con.done.reverse) } (E ++ []) <
            todo L F tc gs (t1 ++ t2) r.rcv E := by
        simp only [todo, hat, MainAt.rank, List.append_nil, List.length_append]
        omega
      refine ⟨⟨{ r.rcv with litRx := j'.rx, lbk := j'.lbk, at_ := .filling (.lit j'.con.done.reverse) }, s'⟩, [], t2,
        ?_, by simp, ?_, ⟨h.cmd, h.plays, by simpa using g2, ?_⟩, Nat.le_of_lt hlt, fun _ _ _ _ => hlt⟩
      · simp only [Real.main, hat, e]
      · exact inv_swap d.inv hh _ rfl _ _ rfl
      · unfold MainOk
        simp only [List.append_nil] at g3 ⊢
        exact ⟨H, trivial, by simpa [hsub, Recode.part_zero] using i, by rw [hsub]; exact Recode.subOk_zero _,
          by rw [g3, hl']; exact hp2⟩
    | needsInput =>
      obtain ⟨m1, m2, m3, m4⟩ := d.more rfl
      refine ⟨⟨{ r.rcv with litRx := j'.rx, lbk := j'.lbk, at_ := .content j'.con }, s'⟩, [], t1' ++ t2,
        ?_, by simp, ⟨d.inv, m2, m1⟩, ⟨h.cmd, h.plays, g2, ?_⟩, ?_, fun h0 => ?_⟩
      · simp only [Real.main, hat, e]
      · unfold MainOk
        simp only [List.append_nil]
        exact ⟨H, rest', t1', t2, l', i, hsub, g1, rfl, by rw [g3]; exact hp2⟩
      · simp only [todo, hat, MainAt.rank, List.append_nil, List.length_append]
        omega
      · exact absurd h0 (genuine_starved d.keep m1 (m4 trivial))
  · have hc : ∀ c, r.rcv.at_ ≠ .content c := fun c hx => hcon ⟨c, hx⟩
    obtain ⟨r', o, tl', e, h1, h2, h3, h4⟩ := main_step hL room h
    obtain ⟨q1, q2⟩ := main_lit hc e
    have hi : Inv ⟨r.rcv.litRx, r.rcv.lbk, ⟨0, none, []⟩⟩ := by
      unfold LitOk at hlit
      cases hat : r.rcv.at_ with
      | content c => exact absurd hat (hc c)
      | idle => rw [hat] at hlit; exact hlit
      | filling _ => rw [hat] at hlit; exact hlit
      | finished => rw [hat] at hlit; exact hlit
    refine ⟨⟨r', match r'.at_ with
        | .content _ => subOf r'.litRx.buf.length
        | _ => r.sub⟩, o, tl', ?_, h1, ?_, h2, h3, h4⟩
    · unfold Real.main
      cases hat : r.rcv.at_ with
      | content c => exact absurd hat (hc c)
      | idle => simp only [e, Codec.Res.bind]; rfl
      | filling _ => simp only [e, Codec.Res.bind]; rfl
      | finished => simp only [e, Codec.Res.bind]; rfl
    · unfold LitOk
      cases hat : r'.at_ with
      | content c =>
        obtain ⟨n, en, q, hq, rfl, hid⟩ := q2 c hat
        refine ⟨inv_swap hi rfl _ q1 _ _ rfl, ?_, ?_⟩
        · simp only [subOf]
          by_cases h16 : 16 ≤ r'.litRx.buf.length
          · rw [if_pos h16]; exact ⟨rfl, h16⟩
          · rw [if_neg h16]; exact rfl
        · have hm := h.main
          unfold MainOk at hm
          rw [hid, hq] at hm
          obtain ⟨H, -, -, hp⟩ := hm
          cases hp with
          | lit hne _ _ => simpa using hne
      | idle => exact inv_swap hi rfl _ q1 _ _ rfl
      | filling _ => exact inv_swap hi rfl _ q1 _ _ rfl
      | finished => exact inv_swap hi rfl _ q1 _ _ rfl

theorem real_worker (h : ROk true dw L F tc gs tl futC futL r.rcv E) (hlit : LitOk r) (strict : Bool) :
    ∃ r' tc' gs', r.act strict dw .worker = .ok (r', []) ∧ ROk true dw L F tc' gs' tl futC futL r'.rcv E ∧
      LitOk r' ∧ r'.rcv.at_ = r.rcv.at_ ∧ (r.rcv.core.at_ = .stop → r' = r) ∧
      todo L F tc' gs' tl r'.rcv E ≤ todo L F tc gs tl r.rcv E ∧
      (futC = [] → r.rcv.core.at_ ≠ .stop → todo L F tc' gs' tl r'.rcv E < todo L F tc gs tl r.rcv E) := by
  obtain ⟨r', tc', gs', e, h1, h2, h3, h4, h5⟩ := worker_step h
  have hk : r'.litRx = r.rcv.litRx ∧ r'.lbk = r.rcv.lbk := by
    unfold Rcv.worker at e
    by_cases hs : r.rcv.core.at_ = .stop
    · rw [if_pos hs] at e
      simp only [Codec.Res.ok.injEq] at e
      subst e; exact ⟨rfl, rfl⟩
    · rw [if_neg hs] at e
      cases ha : Codec.coreAsk r.rcv.core with
      | none => rw [ha] at e; cases e
      | some a =>
        rw [ha] at e
        simp only at e
        cases hst : r.rcv.cmdRx.step (.plain a.key (some a.speed)) with
        | mk rx o =>
          rw [hst] at e
          cases o with
          | none =>
            simp only [Codec.Res.ok.injEq] at e
            subst e; exact ⟨rfl, rfl⟩
          | some n =>
            simp only at e
            cases ht : Codec.coreTake r.rcv.core n with
            | fail => rw [ht] at e; cases e
            | panic => rw [ht] at e; cases e
            | ok x =>
              rw [ht] at e
              simp only [Codec.Res.bind, Codec.Res.ok.injEq] at e
              subst e; exact ⟨rfl, rfl⟩
  refine ⟨⟨r', r.sub⟩, tc', gs', ?_, h1, ?_, h2, fun hs => ?_, h4, h5⟩
  · simp only [Real.act, Rcv.act, e, Codec.Res.bind]
  · unfold LitOk at hlit ⊢
    simp only [h2, hk.1, hk.2]
    exact hlit
  · rw [h3 hs]

theorem litOk_push (hlit : LitOk r) (p : List UInt8) :
    LitOk ⟨{ r.rcv with litRx := r.rcv.litRx.push p }, r.sub⟩ := by
  unfold LitOk at hlit ⊢
  simp only
  cases hat : r.rcv.at_ with
  | content c =>
    rw [hat] at hlit
    exact ⟨inv_push hlit.1 p, subOk_push hlit.2.1 p, hlit.2.2⟩
  | idle => rw [hat] at hlit; exact inv_push hlit p
  | filling _ => rw [hat] at hlit; exact inv_push hlit p
  | finished => rw [hat] at hlit; exact inv_push hlit p

/-- Any schedule keeps the invariant. -/
theorem real_run (hL : 8 ≤ L) (strict : Bool) : ∀ (acts : List Act) (tc : Trace Codec.Key Unit) (gs : List Codec.Got)
    (tl : Trace Lit.Key Bool) (r : Real) (E : List UInt8),
    ROk true dw L F tc gs tl (cmdArrived acts ++ futC) (litArrived acts ++ futL) r.rcv E → LitOk r →
    ∃ r' out tc' gs' tl', run strict dw r acts = .ok (r', out) ∧ LitOk r' ∧
      ROk true dw L F tc' gs' tl' futC futL r'.rcv (E ++ out) := by
  intro acts
  induction acts with
  | nil =>
    intro tc gs tl r E h hlit
    exact ⟨r, [], tc, gs, tl, rfl, hlit, by simpa [cmdArrived, litArrived] using h⟩
  | cons a as ih =>
    intro tc gs tl r E h hlit
    cases a with
    | cmdBytes p =>
      simp only [cmdArrived, litArrived, List.append_assoc] at h
      obtain ⟨r', out, tc', gs', tl', h1, h2, h3⟩ := ih tc gs tl ⟨{ r.rcv with cmdRx := r.rcv.cmdRx.push p }, r.sub⟩ E
        ⟨h.cmd.push, h.plays, h.lit, h.main.congr rfl rfl rfl rfl⟩ hlit
      exact ⟨r', out, tc', gs', tl', by
        simp only [run, Real.act, Rcv.act, Codec.Res.bind, h1, List.nil_append], h2, h3⟩
    | litBytes p =>
      simp only [cmdArrived, litArrived, List.append_assoc] at h
      obtain ⟨r', out, tc', gs', tl', h1, h2, h3⟩ := ih tc gs tl ⟨{ r.rcv with litRx := r.rcv.litRx.push p }, r.sub⟩ E
        ⟨h.cmd, h.plays, h.lit.push, h.main.congr rfl rfl rfl rfl⟩ (litOk_push hlit p)
      exact ⟨r', out, tc', gs', tl', by
        simp only [run, Real.act, Rcv.act, Codec.Res.bind, h1, List.nil_append], h2, h3⟩
    | worker =>
      simp only [cmdArrived, litArrived] at h
      obtain ⟨r1, tc1, gs1, e1, h1, hl1, -⟩ := real_worker h hlit strict
      obtain ⟨r', out, tc', gs', tl', h2, h3, h4⟩ := ih tc1 gs1 tl r1 E h1 hl1
      exact ⟨r', out, tc', gs', tl', by simp only [run, e1, Codec.Res.bind, h2, List.nil_append], h3, h4⟩
    | main room =>
      simp only [cmdArrived, litArrived] at h
      obtain ⟨r1, o, tl1, e1, -, hl1, h1, -⟩ := real_main hL strict room h hlit
      obtain ⟨r', out, tc', gs', tl', h2, h3, h4⟩ := ih tc gs tl1 r1 (E ++ o) h1 hl1
      exact ⟨r', o ++ out, tc', gs', tl', by simp only [run, Real.act, e1, Codec.Res.bind, h2], h3,
        by rw [← List.append_assoc]; exact h4⟩

theorem real_append (strict : Bool) (r r' r'' : Real) (as bs : List Act) (o o' : List UInt8)
    (h : run strict dw r as = .ok (r', o)) (h' : run strict dw r' bs = .ok (r'', o')) :
    run strict dw r (as ++ bs) = .ok (r'', o ++ o') := by
  induction as generalizing r o with
  | nil =>
    simp only [run, Codec.Res.ok.injEq, Prod.mk.injEq] at h
    obtain ⟨rfl, rfl⟩ := h
    simpa using h'
  | cons a as ih =>
    simp only [run, List.cons_append] at h ⊢
    cases ha : r.act strict dw a with
    | fail => simp [ha, Codec.Res.bind] at h
    | panic => simp [ha, Codec.Res.bind] at h
    | ok x =>
      rw [ha] at h
      simp only [Codec.Res.bind] at h ⊢
      cases hr : run strict dw x.1 as with
      | fail => simp [hr] at h
      | panic => simp [hr] at h
      | ok y =>
        rw [hr] at h
        simp only [Codec.Res.ok.injEq, Prod.mk.injEq] at h
        obtain ⟨rfl, rfl⟩ := h
        have := ih x.1 y.2 hr
        rw [this]
        simp

theorem real_rounds (hL : 8 ≤ L) (strict : Bool) : ∀ (rooms : List Nat) (tc : Trace Codec.Key Unit)
    (gs : List Codec.Got) (tl : Trace Lit.Key Bool) (r : Real) (E : List UInt8), (∀ room ∈ rooms, 0 < room) →
    ROk true dw L F tc gs tl [] [] r.rcv E → LitOk r → todo L F tc gs tl r.rcv E ≤ rooms.length →
    ∃ r' out, run strict dw r (rounds rooms) = .ok (r', out) ∧ r'.rcv.at_ = .finished ∧ E ++ out = F.drop L := by
  intro rooms
  induction rooms with
  | nil =>
    intro tc gs tl r E _ h _ ht
    have hr : r.rcv.at_ = .finished := by
      simp only [todo, List.length_nil] at ht
      cases hat : r.rcv.at_ with
      | finished => rfl
      | idle => rw [hat] at ht; simp only [MainAt.rank] at ht; omega
      | content c => rw [hat] at ht; simp only [MainAt.rank] at ht; omega
      | filling c => rw [hat] at ht; simp only [MainAt.rank] at ht; omega
    have hm := h.main
    unfold MainOk at hm
    rw [hr] at hm
    exact ⟨r, [], rfl, hr, by rw [List.append_nil]; exact hm.2⟩
  | cons room rooms ih =>
    intro tc gs tl r E hrooms h hlit ht
    obtain ⟨r1, tc1, gs1, e1, h1, hl1, hat1, hst, hle, hlt⟩ := real_worker h hlit strict
    obtain ⟨r2, o, tl2, e2, -, hl2, h2, hle2, hlt2⟩ := real_main hL strict room h1 hl1
    by_cases hfin : r.rcv.at_ = .finished
    · have hm := h1.main
      unfold MainOk at hm
      rw [hat1, hfin] at hm
      have key : ∀ (rooms : List Nat) (tc : Trace Codec.Key Unit) (gs : List Codec.Got)
          (tl : Trace Lit.Key Bool) (r : Real), ROk true dw L F tc gs tl [] [] r.rcv E → LitOk r →
          r.rcv.at_ = .finished → ∃ r', run strict dw r (rounds rooms) = .ok (r', []) ∧ r'.rcv.at_ = .finished := by
        intro rooms
        induction rooms with
        | nil => intro _ _ _ r _ _ hr; exact ⟨r, rfl, hr⟩
        | cons room rooms ih2 =>
          intro tc gs tl r hok hlk hr
          obtain ⟨r1, tc1, gs1, e1, h1, hl1, hat1, -⟩ := real_worker hok hlk strict
          obtain ⟨r', e3, h3⟩ := ih2 tc1 gs1 tl r1 h1 hl1 (hat1.trans hr)
          refine ⟨r', ?_, h3⟩
          have hmain : r1.act strict dw (.main room) = .ok (r1, []) := by
            simp only [Real.act, Real.main, Rcv.main, hat1.trans hr, Codec.Res.bind]
          simp only [rounds, List.flatMap_cons, List.cons_append, List.nil_append, run, e1,
            Codec.Res.bind, hmain]
          simp only [rounds] at e3
          rw [e3]
      obtain ⟨r', e3, h3⟩ := key (room :: rooms) tc gs tl r h hlit hfin
      exact ⟨r', [], e3, h3, by rw [List.append_nil]; exact hm.2⟩
    · have hdec : todo L F tc1 gs1 tl2 r2.rcv (E ++ o) < todo L F tc gs tl r.rcv E := by
        by_cases hs : r.rcv.core.at_ = .stop
        · have hr1 := hst hs
          rw [hr1] at hlt2
          have := hlt2 rfl (hrooms room (by simp)) hfin hs
          rw [← hr1] at this
          omega
        · have := hlt rfl hs
          omega
      simp only [List.length_cons] at ht
      obtain ⟨r', out, e3, h3, h4⟩ := ih tc1 gs1 tl2 r2 (E ++ o) (fun x hx => hrooms x (by simp [hx])) h2 hl2
        (by omega)
      refine ⟨r', o ++ out, ?_, h3, by rw [← List.append_assoc]; exact h4⟩
      have e2' : r1.act strict dw (.main room) = .ok (r2, o) := e2
      simp only [rounds, List.flatMap_cons, List.cons_append, List.nil_append, run, e1, Codec.Res.bind, e2']
      simp only [rounds] at e3
      rw [e3]

/-! ### C51 -/

/-- C51 (what is missing: input that does not come from the compressor, see `fast_path_starves`).  The
decompressor reads literals on the fast path whenever 16 bytes are ready.  For every list of valid commands and
whatever the entropy coders of the two streams give out, with or without debug assertions:

* under every schedule of arrivals, worker steps and main steps with output buffers of any sizes, nothing fails
  or panics, the bytes given out are a beginning of the original data, and all of it when the end is reported;
* once both streams have arrived, alternating worker and main steps with nonempty output buffers reports the end
  after finitely many rounds. -/
theorem fast_any_schedule_partial (strict : Bool) (o : Codec.Opts) (dw : Nat → Nat → Nat → List UInt8) (L : Nat)
    (hL : 8 ≤ L) (room : Nat) (hroom : 0 < room) (xs : List Item) (hv : ∀ x ∈ xs, x.Valid o dw L)
    (hi : Recode.InHistory 0 (xs.map (Item.ringCmd dw))) :
    ∃ fuel0 tc tl, (∀ fuel, fuel0 ≤ fuel → sendAll o dw room fuel xs (Snd.init L) = some (.ok (tc, tl))) ∧
      (∃ outC, Encodes tc outC) ∧ (∃ outL, Encodes tl outL) ∧
      ∀ outC outL, Encodes tc outC → Encodes tl outL → ∀ tailC tailL acts,
        (cmdArrived acts <+: outC ++ tailC → litArrived acts <+: outL ++ tailL →
          ∃ r out, run strict dw (Real.init L) acts = .ok (r, out) ∧ out <+: original dw xs ∧
            (r.rcv.at_ = .finished → out = original dw xs)) ∧
        (cmdArrived acts = outC ++ tailC → litArrived acts = outL ++ tailL →
          ∃ n, ∀ rooms : List Nat, n ≤ rooms.length → (∀ k ∈ rooms, 0 < k) →
            ∃ r, run strict dw (Real.init L) (acts ++ rounds rooms) = .ok (r, original dw xs) ∧
              r.rcv.at_ = .finished) := by
  obtain ⟨fuel0, tc, tl, h1, h2, h3, h4, h5⟩ := send_spec hL hroom xs hv (snd_init_ok hL)
  have hexp : (Recode.expand (List.replicate L 0) (xs.map (Item.ringCmd dw))).drop L = original dw xs := by
    have := Recode.ring_spec (List.replicate L 0) _ hi
    rw [List.length_replicate] at this
    exact this
  have htc := h4.traceOk h2
  have hlit0 : LitOk (Real.init L) := by
    show Inv _
    refine ⟨Or.inr (Or.inl rfl), by show (0 : Nat) ≤ 1; omega, fun _ => rfl, by show (0 : Nat) < 65536; omega, rfl, fun hx => absurd rfl hx⟩
  refine ⟨fuel0, tc, tl, h1, ?_, ?_, ?_⟩
  · obtain ⟨ops, out, e, k1, k2, k3, k4⟩ := trace_encode_total tc htc
    exact ⟨out, ops, e, k1, k2, k3, k4⟩
  · obtain ⟨ops, out, e, k1, k2, k3, k4⟩ := trace_encode_total tl h3
    exact ⟨out, ops, e, k1, k2, k3, k4⟩
  intro outC outL ⟨opsC, eC, c1, c2, c3, c4⟩ ⟨opsL, eL, l1, l2, l3, l4⟩ tailC tailL acts
  have hstart := rcv_init_ok hL (feeds_start tc htc opsC c1 c2 outC eC c3 c4 tailC) h4
    (feeds_start tl h3 opsL l1 l2 outL eL l3 l4 tailL) h5
  constructor
  · intro ⟨futC, hc⟩ ⟨futL, hl⟩
    rw [← hc, ← hl] at hstart
    obtain ⟨r, out, tc', gs', tl', hr, -, hok⟩ := real_run hL strict acts _ _ _ (Real.init L) _ hstart hlit0
    rw [List.nil_append] at hok
    refine ⟨r, out, hr, by rw [← hexp]; exact hok.main.prefix, fun hf => ?_⟩
    have := hok.main
    unfold MainOk at this
    rw [hf] at this
    rw [← hexp]
    exact this.2
  · intro hc hl
    rw [← hc, ← hl, ← List.append_nil (cmdArrived acts), ← List.append_nil (litArrived acts)] at hstart
    obtain ⟨r, out, tc', gs', tl', hr, hlk, hok⟩ := real_run hL strict acts _ _ _ (Real.init L) _ hstart hlit0
    rw [List.nil_append] at hok
    refine ⟨todo L (Recode.expand (List.replicate L 0) (xs.map (Item.ringCmd dw))) tc' gs' tl' r.rcv out,
      fun rooms hn hpos => ?_⟩
    obtain ⟨r', out', e1, e2, e3⟩ := real_rounds hL strict rooms _ _ _ _ _ hpos hok hlk hn
    refine ⟨r', ?_, e2⟩
    rw [← hexp, ← e3]
    exact real_append strict _ _ _ _ _ _ _ hr e1

/-- A concrete case: every kind of command, a literal of 100 bytes among them. -/
example : (∀ x ∈ demoItems, x.Valid Codec.demoOpts demoWords 1024) ∧
    Recode.InHistory 0 (demoItems.map (Item.ringCmd demoWords)) :=
  ⟨demoItems_valid, by simp [demoItems, Item.ringCmd, Recode.InHistory, Recode.Cmd.size, demoWords]⟩

/-! ### Input that does not come from the compressor -/

/-- The state of a job, as far as the example needs it. -/
structure St (j : Job) (d : Ans.Dec) (buf : List UInt8) (left : Nat) (high : Option Nat) : Prop where
  ses : j.rx.ses.Ok
  lbk : j.lbk.Ok
  dec : j.rx.dec = d
  buf : j.rx.buf = buf
  left : j.con.left = left
  high : j.con.high = high

/-- In every distribution the first symbol begins at 1. -/
theorem lookup_one {s : Session Key Bool} (h : s.Ok) (ch : Choice Key Bool) :
    ((s.coding ch).lookup 1).1 = 0 ∧ ((s.coding ch).lookup 1).2.toSlot.start = 1 := by
  obtain ⟨c, hu, e⟩ := coding_usable s h ch
  rw [e]
  have g1 := Cdf.bound_gap c hu 0 (by omega)
  have g2 : Cdf.lower c 0 = 0 := by simp [Cdf.lower]
  have hs : Cdf.lookupSym c 1 = 0 := Cdf.lookupSym_eq c hu 0 (by omega) 1 (by omega) (by omega)
  have h1 : ((Cdf.Opt.new c).lookup 1).1 = 0 := hs
  refine ⟨h1, ?_⟩
  have h2 : ((Cdf.Opt.new c).lookup 1).2 = (Cdf.Opt.new c).symRange 0 := by
    show Cdf.symRange _ _ (Cdf.lookupSym c 1) = _
    rw [hs]; rfl
  rw [h2, Cdf.Opt.symRange, Cdf.symRange_eq (Cdf.Opt.new c).divByMax (Cdf.Opt.new c).cdf hu
    (Cdf.exactDiv_opt c (Cdf.max_pos c hu) hu.1) 0 (by omega)]
  simp only [Cdf.Range.toSlot, Cdf.Opt.new, g2]
  rfl

/-- A half byte from the value 1: the half byte is 0, and so is the next state. -/
theorem st_nibble {j : Job} {b sc rb : Nat} {ra : Nat} {buf : List UInt8} {left : Nat} {high : Option Nat}
    (h : St j ⟨1, b, sc, ra, rb⟩ buf left high) (hh : high = none ∨ high = some 0) :
    ∃ j1, j.nibble = some j1 ∧
      St j1 ⟨b, 0, (sc + 1) % 2 ^ 16, rb ||| ((if sc = 65535 then 1 else 0) <<< 3), 1⟩ buf
        (if high = none then left else left - 1) (if high = none then some 0 else none) := by
  obtain ⟨ch, hask, hsafe⟩ : ∃ ch, j.con.ask j.lbk = some ch ∧ ch.Safe := by
    rcases hh with rfl | rfl
    · simp only [Content.ask, h.high]; exact nibChoice_total h.lbk true (by omega)
    · simp only [Content.ask, h.high]; exact nibChoice_total h.lbk false (by omega)
  have ho : j.rx.dec.offset = 1 := by
    rw [h.dec]
    show (1 : Nat) &&& (2 ^ Ans.log2Scale - 1) = 1
    decide
  obtain ⟨k1, k2⟩ := lookup_one h.ses ch
  refine ⟨_, by simp only [Job.nibble, hask]; rfl, ?_⟩
  rw [ho, Nat.cast_one, k1]
  refine ⟨after_ok _ h.ses ch hsafe 0 (by omega), ?_, ?_, h.buf, ?_, ?_⟩
  · rcases hh with rfl | rfl
    · simp only [Content.take, h.high]; exact h.lbk
    · simp only [Content.take, h.high]; exact pushByte_ok h.lbk _
  · simp only [h.dec, Ans.Dec.advance, k2]
    have e1 : (1 : Nat) >>> Ans.log2Scale = 0 := by decide
    have e2 : (1 : Nat) &&& (2 ^ Ans.log2Scale - 1) = 1 := by decide
    rw [e1, e2, Nat.mul_zero]
    rfl
  · rcases hh with rfl | rfl
    · simp only [Content.take, h.high]; exact h.left
    · simp only [Content.take, h.high, h.left]; rfl
  · rcases hh with rfl | rfl
    · simp only [Content.take, h.high]; rfl
    · simp only [Content.take, h.high]; rfl

theorem st_high {j : Job} {b sc rb ra left sc' ra' : Nat} {buf : List UInt8}
    (h : St j ⟨1, b, sc, ra, rb⟩ buf left none) (h1 : (sc + 1) % 65536 = sc')
    (h2 : rb ||| ((if sc = 65535 then 1 else 0) <<< 3) = ra') :
    ∃ j1, j.nibble = some j1 ∧ St j1 ⟨b, 0, sc', ra', 1⟩ buf left (some 0) := by
  obtain ⟨j1, e, g⟩ := st_nibble h (Or.inl rfl)
  rw [h2] at g
  subst h1
  exact ⟨j1, e, g⟩

theorem st_low {j : Job} {b sc rb ra left sc' ra' : Nat} {buf : List UInt8}
    (h : St j ⟨1, b, sc, ra, rb⟩ buf (left + 1) (some 0)) (h1 : (sc + 1) % 65536 = sc')
    (h2 : rb ||| ((if sc = 65535 then 1 else 0) <<< 3) = ra') :
    ∃ j1, j.nibble = some j1 ∧ St j1 ⟨b, 0, sc', ra', 1⟩ buf left none := by
  obtain ⟨j1, e, g⟩ := st_nibble h (Or.inr rfl)
  rw [h2] at g
  subst h1
  exact ⟨j1, e, g⟩

theorem st_fill {j : Job} {d : Ans.Dec} {buf : List UInt8} {left : Nat} {high : Option Nat}
    (h : St j d buf left high) (d' : Ans.Dec) (n : Nat) (hp : d.pushData buf = (d', n)) (h0 : d.numPushAvail ≠ 0) :
    j.fill.2 = decide (d'.numPushAvail = 0) ∧ St j.fill.1 d' (buf.drop n) left high := by
  have : j.fill = ({ j with rx := ⟨j.rx.ses, d', buf.drop n⟩ }, decide (d'.numPushAvail = 0)) := by
    unfold Job.fill
    rw [h.dec, h.buf, if_neg h0, hp]
  rw [this]
  exact ⟨rfl, h.ses, h.lbk, rfl, rfl, h.left, h.high⟩

theorem st_full {j : Job} {d : Ans.Dec} {buf : List UInt8} {left : Nat} {high : Option Nat}
    (h : St j d buf left high) (h0 : d.numPushAvail = 0) : j.fill = (j, true) := fill_full (by rw [h.dec]; exact h0)

/-- Sixteen bytes that put 1 into both states. -/
def head : List UInt8 := [1, 0, 0, 0, 0, 0, 0, 0, 1, 0, 0, 0, 0, 0, 0, 0]

/-- The number 1 in four bytes, `m` times. -/
def words : Nat → List UInt8
  | 0 => []
  | m + 1 => 1 :: 0 :: 0 :: 0 :: words m

theorem words_length (m : Nat) : (words m).length = 4 * m := by
  induction m with
  | zero => rfl
  | succ m ih => simp only [words, List.length_cons, ih]; omega

theorem push_word (b sc rb : Nat) (t : List UInt8) :
    (⟨0, b, sc, 1, rb⟩ : Ans.Dec).pushData (1 :: 0 :: 0 :: 0 :: t) = (⟨1, b, sc, 0, rb⟩, 4) := by
  unfold Ans.Dec.pushData
  rw [if_neg (by simp), if_pos ⟨rfl, by simp⟩]
  have e : Ans.orBytes ((0 <<< 32) % 2 ^ 64) 0 [1, 0, 0, 0] = 1 := by decide
  simp only [List.take_succ_cons, List.take_zero, e]

theorem push_head (a b ra rb : Nat) (hra : ra = 8 ∨ ra = 9) (t : List UInt8) :
    (⟨a, b, 0, ra, rb⟩ : Ans.Dec).pushData (head ++ t) = (⟨1, 1, 0, 0, rb⟩, 16) := by
  unfold Ans.Dec.pushData Ans.Dec.pushRare
  rcases hra with rfl | rfl
  · rw [if_neg (by simp), if_neg (by simp), if_pos (by simp), if_pos (by simp [head])]; rfl
  · rw [if_neg (by simp), if_neg (by simp), if_pos (by simp), if_pos (by simp [head])]; rfl

/-- One byte inside a chunk, on either path. -/
theorem st_byte (strict safe : Bool) {j : Job} {s m n : Nat}
    (h : St j ⟨1, 0, s, 0, 1⟩ (words (m + 2) ++ head) (n + 1) none) (hs : s + 2 < 65536) :
    ∃ j', array strict safe (n + 1) j = array strict safe n j' ∧
      St j' ⟨1, 0, s + 2, 0, 1⟩ (words m ++ head) n none := by
  obtain ⟨j1, e1, h1⟩ := st_high h (sc' := s + 1) (ra' := 1) (by omega) (by rw [if_neg (by omega)]; rfl)
  obtain ⟨f1, h2⟩ := st_fill h1 ⟨1, 0, s + 1, 0, 1⟩ 4 (push_word 0 (s + 1) 1 _) (by simp [Ans.Dec.numPushAvail])
  have f1' : j1.fill.2 = true := by rw [f1]; rfl
  obtain ⟨j2, e2, h3⟩ := st_low h2 (sc' := s + 2) (ra' := 1) (by omega) (by rw [if_neg (by omega)]; rfl)
  obtain ⟨f2, h4⟩ := st_fill h3 ⟨1, 0, s + 2, 0, 1⟩ 4 (push_word 0 (s + 2) 1 _) (by simp [Ans.Dec.numPushAvail])
  have f2' : j2.fill.2 = true := by rw [f2]; rfl
  have hw : decide (j1.fill.1.rx.buf.length < 16) = false := by
    rw [h2.buf]
    simp [words, head]
  refine ⟨j2.fill.1, ?_, h4⟩
  rw [array.eq_def]
  simp only [h.high, e1]
  cases safe
  · rw [if_neg (by simp), if_pos f1']
    simp only [lowHalf, e2]
    rw [if_neg (by simp), if_neg (by simp), if_pos f2']
  · rw [if_pos rfl, f1', if_neg (by simp), hw]
    simp only [lowHalf, e2]
    rw [if_neg (by simp), if_pos (by simp), f2', if_neg (by simp)]

theorem st_bytes (strict safe : Bool) : ∀ (k : Nat) {j : Job} {s m n : Nat},
    St j ⟨1, 0, s, 0, 1⟩ (words (m + 2 * k) ++ head) (n + k) none → s + 2 * k < 65536 →
    ∃ j', array strict safe (n + k) j = array strict safe n j' ∧
      St j' ⟨1, 0, s + 2 * k, 0, 1⟩ (words m ++ head) n none := by
  intro k
  induction k with
  | zero => intro j s m n h _; exact ⟨j, rfl, h⟩
  | succ k ih =>
    intro j s m n h hs
    have e : m + 2 * (k + 1) = (m + 2 * k) + 2 := by omega
    rw [e] at h
    obtain ⟨j1, e1, h1⟩ := st_byte strict safe (n := n + k) h (by omega)
    obtain ⟨j2, e2, h2⟩ := ih h1 (by omega)
    refine ⟨j2, ?_, by have e' : s + 2 + 2 * k = s + 2 * (k + 1) := by omega
                       rw [← e']; exact h2⟩
    rw [← e2, ← e1]; rfl

/-- The bytes of the example. -/
def trouble : List UInt8 := head ++ words 65534 ++ head

/-- The literal of the example, before anything was read. -/
def troubled (l : Lbk) : Job := ⟨Rx.push Rx.init trouble, l, ⟨32769, none, []⟩⟩

/-- Both paths get to the last byte of the example, with no input left and one state not refilled. -/
theorem trouble_last (strict safe : Bool) {l : Lbk} (hl : l.Ok) :
    ∃ j, array strict safe 32769 (troubled l).fill.1 = array strict safe 1 j ∧ St j ⟨1, 1, 0, 0, 1⟩ [] 1 none := by
  have h0 : St (troubled l) ⟨0, 0, 0, 8, 0⟩ (head ++ (words 65534 ++ head)) 32769 none :=
    ⟨ok_init, hl, rfl, by show [] ++ trouble = _; unfold trouble; rw [List.nil_append, List.append_assoc], rfl, rfl⟩
  obtain ⟨-, h1⟩ := st_fill h0 ⟨1, 1, 0, 0, 0⟩ 16 (push_head 0 0 8 0 (Or.inl rfl) _) (by simp [Ans.Dec.numPushAvail])
  have ed : (head ++ (words 65534 ++ head)).drop 16 = words 65534 ++ head := by
    rw [List.drop_append_of_le_length (by simp [head])]; rfl
  rw [ed] at h1
  generalize (troubled l).fill.1 = j0 at h1 ⊢
  -- the first byte
  obtain ⟨j1, e1, h2⟩ := st_high h1 (sc' := 1) (ra' := 0) rfl (by rw [if_neg (by omega)]; rfl)
  have f1 : j1.fill = (j1, true) := st_full h2 rfl
  obtain ⟨j2, e2, h3⟩ := st_low h2 (sc' := 2) (ra' := 1) rfl (by rw [if_neg (by omega)]; rfl)
  have ew : words 65534 = 1 :: 0 :: 0 :: 0 :: words 65533 := rfl
  have h3' : St j2 ⟨0, 0, 2, 1, 1⟩ (words 65534 ++ head) 32768 none := h3
  rw [ew] at h3'
  obtain ⟨f2, h4⟩ := st_fill h3' ⟨1, 0, 2, 0, 1⟩ 4 (push_word 0 2 1 _) (by simp [Ans.Dec.numPushAvail])
  have f2' : j2.fill.2 = true := by rw [f2]; rfl
  have ed2 : ((1 :: 0 :: 0 :: 0 :: words 65533) ++ head).drop 4 = words 65533 ++ head := rfl
  rw [ed2] at h4
  have hw : decide (j1.rx.buf.length < 16) = false := by
    rw [h2.buf, List.length_append, words_length]
    exact decide_eq_false (by omega)
  have first : array strict safe (32768 + 1) j0 = array strict safe 32768 j2.fill.1 := by
    generalize 32768 = N
    rw [array.eq_def]
    simp only [h1.high, e1, f1]
    cases safe
    · rw [if_neg (by simp), if_pos trivial]
      simp only [lowHalf, e2]
      rw [if_neg (by simp), if_neg (by simp), if_pos f2']
    · rw [if_pos rfl, if_neg (by simp), hw]
      simp only [lowHalf, e2]
      rw [if_neg (by simp), if_pos (by simp), f2', if_neg (by simp)]
  -- all but the last byte of the chunk
  obtain ⟨j3, e3, h5⟩ := st_bytes strict safe 32766 (j := j2.fill.1) (s := 2) (m := 1) (n := 2) h4 (by omega)
  -- the last byte of the chunk
  have h5' : St j3 ⟨1, 0, 65534, 0, 1⟩ (1 :: 0 :: 0 :: 0 :: head) 2 none := h5
  obtain ⟨j4, e4, h6⟩ := st_high h5' (sc' := 65535) (ra' := 1) rfl (by rw [if_neg (by omega)]; rfl)
  obtain ⟨f3, h7⟩ := st_fill h6 ⟨1, 0, 65535, 0, 1⟩ 4 (push_word 0 65535 1 _) (by simp [Ans.Dec.numPushAvail])
  have f3' : j4.fill.2 = true := by rw [f3]; rfl
  have h7' : St j4.fill.1 ⟨1, 0, 65535, 0, 1⟩ head 2 (some 0) := h7
  obtain ⟨j5, e5, h8⟩ := st_low h7' (sc' := 0) (ra' := 9) rfl rfl
  have h8' : St j5 ⟨0, 0, 0, 9, 1⟩ (head ++ []) 1 none := h8
  obtain ⟨f4, h9⟩ := st_fill h8' ⟨1, 1, 0, 0, 1⟩ 16 (push_head 0 0 9 1 (Or.inr rfl) _) (by simp [Ans.Dec.numPushAvail])
  have f4' : j5.fill.2 = true := by rw [f4]; rfl
  have hw2 : decide (j4.fill.1.rx.buf.length < 16) = false := by rw [h7'.buf]; rfl
  have last : array strict safe 2 j3 = array strict safe 1 j5.fill.1 := by
    rw [array.eq_def]
    simp only [h5'.high, e4]
    cases safe
    · rw [if_neg (by simp), if_pos f3']
      simp only [lowHalf, e5]
      rw [if_neg (by simp), if_neg (by simp), if_pos f4']
    · rw [if_pos rfl, f3', if_neg (by simp), hw2]
      simp only [lowHalf, e5]
      rw [if_neg (by simp), if_pos (by simp), f4', if_neg (by simp)]
  exact ⟨j5.fill.1, first.trans (e3.trans last), h9⟩

/-- What goes wrong with other input: after a chunk of 65536 half bytes the first state is loaded afresh, but the
note that the second one waits for four more bytes is kept.  The compressor never produces such a stream.  Here a
literal of 32769 bytes is read from 262168 bytes, all of which are ready:

* the careful path reports that more input is needed, as it does with the same bytes in smaller pieces;
* the fast path stops at a failed assertion in a debug build;
* without debug assertions the fast path reports success. -/
theorem fast_path_starves {l : Lbk} (hl : l.Ok) :
    (∀ strict, ∃ j, content strict 2 .low (troubled l) = some (j, .needsInput, .second)) ∧
    content true 2 .safe (troubled l) = none ∧
    (∃ j, content false 2 .safe (troubled l) = some (j, .success, .full)) ∧
    subOf (troubled l).rx.buf.length = .safe := by
  have h0 : St (troubled l) ⟨0, 0, 0, 8, 0⟩ (head ++ (words 65534 ++ head)) 32769 none :=
    ⟨ok_init, hl, rfl, by show [] ++ trouble = _; unfold trouble; rw [List.nil_append, List.append_assoc], rfl, rfl⟩
  obtain ⟨f, h1⟩ := st_fill h0 ⟨1, 1, 0, 0, 0⟩ 16 (push_head 0 0 8 0 (Or.inl rfl) _) (by simp [Ans.Dec.numPushAvail])
  have f' : (troubled l).fill.2 = true := by rw [f]; rfl
  have hlen : subOf (troubled l).rx.buf.length = .safe := by
    rw [h0.buf, List.length_append]
    unfold subOf
    rw [if_pos (by simp [head])]
  have tail : ∀ {j : Job}, St j ⟨1, 1, 0, 0, 1⟩ [] 1 none → ∃ j1, j.nibble = some j1 ∧ j1.fill.2 = false ∧
      j.con.high = none ∧ j1.fill.1.rx.buf = [] ∧ ∃ j2, j1.fill.1.nibble = some j2 ∧ j2.con.left = 0 := by
    intro j h
    obtain ⟨j1, e1, g1⟩ := st_high h (sc' := 1) (ra' := 1) rfl rfl
    obtain ⟨f1, g2⟩ := st_fill g1 ⟨1, 0, 1, 1, 1⟩ 0 rfl (by simp [Ans.Dec.numPushAvail])
    have f1' : j1.fill.2 = false := by rw [f1]; rfl
    obtain ⟨j2, e2, g3⟩ := st_low (left := 0) g2 (sc' := 2) (ra' := 1) rfl rfl
    exact ⟨j1, e1, f1', h.high, g2.buf, j2, e2, g3.left⟩
  have hleft : (troubled l).fill.1.con.left = 32769 := h1.left
  refine ⟨fun strict => ?_, ?_, ?_, hlen⟩
  · obtain ⟨j, e, h⟩ := trouble_last strict false hl
    obtain ⟨j1, e1, f1, hh, -⟩ := tail h
    refine ⟨j1.fill.1, ?_⟩
    rw [content.eq_def]
    simp only [hleft, e]
    rw [if_pos f', array.eq_def]
    simp only [hh, e1]
    rw [if_neg (by simp), if_neg (by simp [f1])]
  · obtain ⟨j, e, h⟩ := trouble_last true true hl
    obtain ⟨j1, e1, f1, hh, -⟩ := tail h
    rw [content.eq_def]
    simp only [hleft, e]
    rw [if_pos f', array.eq_def]
    simp only [hh, e1]
    rw [if_pos (by simp), if_pos (by simp [f1])]
  · obtain ⟨j, e, h⟩ := trouble_last false true hl
    obtain ⟨j1, e1, f1, hh, hb, j2, e2, hz⟩ := tail h
    have hw : decide (j1.fill.1.rx.buf.length < 16) = true := by rw [hb]; rfl
    refine ⟨j2, ?_⟩
    rw [content.eq_def]
    simp only [hleft, e]
    rw [if_pos f', array.eq_def]
    simp only [hh, e1]
    rw [if_pos (by simp), if_neg (by simp), hw]
    simp only [lowHalf, e2]
    rw [if_pos (by simp), if_pos hz]

/-- A fresh decompressor meets the hypothesis, and its literal stream is the one of the example once the bytes have
arrived. -/
example : (Real.init 1024).rcv.lbk.Ok ∧ ((Real.init 1024).rcv.litRx.push trouble) = (troubled Lbk.init).rx :=
  ⟨init_ok, rfl⟩

end Divans.Fast
