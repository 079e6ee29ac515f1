import Verif.EngLemmas

/-!
# The compressing codec: calls
-/

namespace Divans.Adaptive
variable {κ ι : Type} [DecidableEq κ] [DecidableEq ι]

theorem slotsOf_append : ∀ (a b : Trace κ ι) (s : Session κ ι),
    slotsOf s (a ++ b) = slotsOf s a ++ slotsOf (sessionAfter s a) b := by
  intro a
  induction a with
  | nil => intro b s; rfl
  | cons x a ih => intro b s; obtain ⟨ch, n⟩ := x; simp [slotsOf, sessionAfter, ih]

theorem sessionAfter_append : ∀ (a b : Trace κ ι) (s : Session κ ι),
    sessionAfter s (a ++ b) = sessionAfter (sessionAfter s a) b := by
  intro a
  induction a with
  | nil => intro b s; rfl
  | cons x a ih => intro b s; obtain ⟨ch, n⟩ := x; simp [sessionAfter, ih]

theorem sessionAfter_ok : ∀ (a : Trace κ ι) (s : Session κ ι), s.Ok → Trace.Ok a → (sessionAfter s a).Ok := by
  intro a
  induction a with
  | nil => intro s h _; exact h
  | cons x a ih =>
    intro s h ha
    obtain ⟨ch, n⟩ := x
    obtain ⟨h1, h2⟩ := ha (ch, n) (by simp)
    exact ih _ (after_ok s h ch h1 n h2) fun y hy => ha y (by simp [hy])

theorem slotsOf_length : ∀ (a : Trace κ ι) (s : Session κ ι), (slotsOf s a).length = a.length := by
  intro a
  induction a with
  | nil => intro s; rfl
  | cons x a ih => intro s; obtain ⟨ch, n⟩ := x; simp [slotsOf, ih]

theorem Trace.Ok.append {a b : Trace κ ι} (ha : Trace.Ok a) (hb : Trace.Ok b) : Trace.Ok (a ++ b) := by
  intro x hx
  rcases List.mem_append.1 hx with hx | hx
  · exact ha x hx
  · exact hb x hx

end Divans.Adaptive

namespace Divans.Pipe
open Divans.Adaptive

/-- The commands `xs` are sent one after the other; without the end marker. -/
inductive Sends (o : Codec.Opts) (dw : Nat → Nat → Nat → List UInt8) (room : Nat) (s : Snd) :
    List Item → Trace Codec.Key Unit → Trace Lit.Key Bool → Snd → Prop
  | nil : Sends o dw room s [] [] [] s
  | snoc {xs tc tl s1 x a b s2} : Sends o dw room s xs tc tl s1 →
      (∃ f0, ∀ fuel, f0 ≤ fuel → Snd.item o dw room fuel s1 x = some (.ok (a, b, s2))) →
      Sends o dw room s (xs ++ [x]) (tc ++ a) (tl ++ b) s2

theorem Sends.then {o : Codec.Opts} {dw : Nat → Nat → Nat → List UInt8} {room : Nat} {s s' : Snd}
    {xs : List Item} {tc : Trace Codec.Key Unit} {tl : Trace Lit.Key Bool} (h : Sends o dw room s xs tc tl s') :
    ∃ f0, ∀ fuel, f0 ≤ fuel → ∀ ys, sendAll o dw room fuel (xs ++ ys) s =
      (sendAll o dw room fuel ys s').map fun r => r.bind fun q => .ok (tc ++ q.1, tl ++ q.2) := by
  induction h with
  | nil =>
    refine ⟨0, fun fuel _ ys => ?_⟩
    rw [List.nil_append]
    cases sendAll o dw room fuel ys s with
    | none => rfl
    | some r => cases r <;> rfl
  | snoc _ hx ih =>
    obtain ⟨f1, h1⟩ := ih
    obtain ⟨f2, h2⟩ := hx
    refine ⟨max f1 f2, fun fuel hf ys => ?_⟩
    rw [List.append_assoc, h1 fuel (by omega), List.singleton_append, sendAll, h2 fuel (by omega)]
    simp only
    rename_i s2 _
    cases sendAll o dw room fuel ys s2 with
    | none => rfl
    | some r => cases r <;> simp [Codec.Res.bind]

theorem Sends.all {o : Codec.Opts} {dw : Nat → Nat → Nat → List UInt8} {room : Nat} {s s' : Snd}
    {xs : List Item} {tc : Trace Codec.Key Unit} {tl : Trace Lit.Key Bool} (h : Sends o dw room s xs tc tl s')
    {ys : List Codec.Sym} {c : Codec.Core} (he : Codec.encEnd s'.core = .ok (ys, c)) :
    ∃ f0, ∀ fuel, f0 ≤ fuel → sendAll o dw room fuel xs s = some (.ok (tc ++ symTrace ys, tl)) := by
  obtain ⟨f0, h1⟩ := h.then
  refine ⟨f0, fun fuel hf => ?_⟩
  have := h1 fuel hf []
  rw [List.append_nil] at this
  rw [this, sendAll, he]
  simp [Codec.Res.bind]

theorem item_silent {o : Codec.Opts} {dw : Nat → Nat → Nat → List UInt8} {room fuel : Nat} {s s' : Snd}
    {x : Item} {tc : Trace Codec.Key Unit} {tl : Trace Lit.Key Bool}
    (h : Snd.item o dw room fuel s x = some (.ok (tc, tl, s'))) (hx : ∀ d b, x ≠ .lit d b) : tl = [] := by
  rw [Snd.item] at h
  cases he : Codec.encCmd o x.head fuel s.core with
  | none => rw [he] at h; cases h
  | some r =>
    rw [he] at h
    cases r with
    | fail => cases h
    | panic => cases h
    | ok y =>
      obtain ⟨ys, c, g⟩ := y
      simp only [Option.map_eq_some_iff] at h
      obtain ⟨r, h1, h2⟩ := h
      cases r with
      | fail => cases h2
      | panic => cases h2
      | ok q =>
        simp only [Codec.Res.bind, Codec.Res.ok.injEq, Prod.mk.injEq] at h2
        obtain ⟨-, rfl, -⟩ := h2
        have pop : ∀ {s1 : Snd} {c1}, (Snd.populate room fuel s1 c1).map (fun r => r.bind fun s' =>
            (.ok (([] : Trace Lit.Key Bool), s') : Codec.Res (Trace Lit.Key Bool × Snd))) = some (.ok q) → q.1 = [] := by
          intro s1 c1 hp
          simp only [Option.map_eq_some_iff] at hp
          obtain ⟨r, -, hr⟩ := hp
          cases r with
          | fail => cases hr
          | panic => cases hr
          | ok s3 =>
            simp only [Codec.Res.bind, Codec.Res.ok.injEq] at hr
            rw [← hr]
        cases x with
        | lit d b => exact absurd rfl (hx d b)
        | copy d n => exact pop h1
        | dict z i t => exact pop h1
        | bswitch k t st =>
          cases k <;>
          · simp only [Snd.effect, Option.some.injEq, Codec.Res.ok.injEq] at h1
            rw [← h1]
        | pm p =>
          simp only [Snd.effect] at h1
          split at h1
          · simp only [Option.some.injEq] at h1
            rename_i p' 
            cases hl : s.lbk.obsPm p' with
            | fail => rw [hl] at h1; cases h1
            | panic => rw [hl] at h1; cases h1
            | ok l =>
              rw [hl] at h1
              simp only [Codec.Res.bind, Codec.Res.ok.injEq] at h1
              rw [← h1]
          · cases h1

/-- One command is sent, seen from the codec. -/
theorem item_sent {o : Codec.Opts} {dw : Nat → Nat → Nat → List UInt8} {L : Nat} (hL : 8 ≤ L) {room : Nat}
    (hroom : 0 < room) {x : Item} (hv : x.Valid o dw L) {H : List UInt8} {s : Snd} (h : SndOk L H s) :
    ∃ fuel0 tc tl s', (∀ fuel, fuel0 ≤ fuel → Snd.item o dw room fuel s x = some (.ok (tc, tl, s'))) ∧
      Trace.Ok tc ∧ Trace.Ok tl ∧ SndOk L (Recode.applyCmd H (x.ringCmd dw)) s' ∧
      ((∀ d b, x ≠ .lit d b) → tl = []) := by
  obtain ⟨f0, ys, tl, s', h1, h2, h3, h4, -, h5, -⟩ := item_spec hL hroom hv h
  obtain ⟨es, -, e2, e3⟩ := end_spec h4.core
  refine ⟨f0, symTrace ys, tl, s', h1, ?_, h3, h4, item_silent (h1 f0 (Nat.le_refl _))⟩
  have := (h5 e3).traceOk (by
    intro y hy
    rcases List.mem_append.1 hy with hy | hy
    · obtain ⟨z, hz, rfl⟩ := List.mem_map.1 hy
      exact h2 z hz
    · obtain ⟨z, hz, rfl⟩ := List.mem_map.1 hy
      exact e2 z hz)
  exact fun y hy => this y (by simp [hy])

/-- The end marker, seen from the codec. -/
theorem end_sent {c : Codec.Core} (hc : Codec.CoreOk c) :
    ∃ y, Codec.encEnd c = .ok ([y], { c with at_ := .stop }) ∧ Trace.Ok (symTrace [y]) := by
  obtain ⟨a, ha⟩ := Codec.begin_ask hc
  have ht : Codec.startTake c 15 = .ok { c with at_ := .stop } := rfl
  obtain ⟨ys, e1, e2, e3⟩ := end_spec hc
  have : Codec.encEnd c = .ok ([⟨a, 15⟩], { c with at_ := .stop }) := by
    simp only [Codec.encEnd, ha, ht, Codec.Res.bind]
  rw [this] at e1
  simp only [Codec.Res.ok.injEq, Prod.mk.injEq, and_true] at e1
  subst e1
  exact ⟨_, this, e3.traceOk fun y hy => by
    obtain ⟨z, hz, rfl⟩ := List.mem_map.1 hy
    exact e2 z hz⟩

end Divans.Pipe

namespace Divans.Eng
open Divans.Adaptive Divans.Pipe Divans.Frame
open Divans.Ans hiding Item

theorem putsIn_append (i : Bool) : ∀ a b : List Micro, putsIn i (a ++ b) = putsIn i a ++ putsIn i b := by
  intro a
  induction a with
  | nil => intro b; rfl
  | cons m a ih =>
    intro b
    cases m with
    | put j s => by_cases h : j = i <;> simp [putsIn, h, ih]
    | need j => simp [putsIn, ih]
    | attempt j => simp [putsIn, ih]
    | close j => simp [putsIn, ih]

theorem putsIn_puts (i j : Bool) (sls : List Slot) : putsIn i (puts j sls) = if j = i then sls else [] := by
  induction sls with
  | nil => simp [puts, putsIn]
  | cons s sls ih =>
    simp only [puts, List.flatMap_cons] at ih ⊢
    rw [putsIn_append, ih]
    by_cases h : j = i <;> simp [putsIn, h]

theorem putsIn_tail_false (x : Item) (sl : List Slot) : putsIn false (tail x sl) = [] := by
  unfold tail
  split <;> simp [putsIn, putsIn_append, putsIn_puts]

theorem putsIn_script (x : Item) (sc sl : List Slot) (h : (∀ d b, x ≠ .lit d b) → sl = []) (i : Bool) :
    putsIn i (script x sc sl) = if i then sl else sc := by
  rw [script, putsIn_append, putsIn_puts]
  cases i with
  | false => rw [putsIn_tail_false]; simp
  | true =>
    simp only [Bool.false_eq_true, if_false, List.nil_append, if_true]
    by_cases hx : ∀ d b, x ≠ .lit d b
    · rw [h hx]
      unfold tail
      split <;> simp [putsIn, puts]
    · simp only [not_forall, not_not] at hx
      obtain ⟨d, b, rfl⟩ := hx
      simp [tail, putsIn, putsIn_append, putsIn_puts]

/-- No coder is closed. -/
def noneClosed : Bool → Bool := fun _ => false

theorem wf_puts (i : Bool) (r : List Micro) (hr : ∀ k, wf false k noneClosed r = true) (sls : List Slot) :
    ∀ k, wf false k noneClosed (puts i sls ++ r) = true := by
  induction sls with
  | nil => intro k; simpa [puts] using hr k
  | cons s sls ih =>
    intro k
    have : puts i (s :: sls) ++ r = .need i :: .put i s :: (puts i sls ++ r) := by simp [puts]
    rw [this, wf, wf, ih]
    simp [noneClosed]

theorem wf_script (x : Item) (sc sl : List Slot) (k : Bool → Bool) :
    wf false k noneClosed (script x sc sl) = true := by
  refine wf_puts false _ (fun k => ?_) sc k
  unfold tail
  split
  · rw [List.cons_append, wf]
    exact wf_puts true _ (fun k => rfl) _ _
  all_goals rfl

theorem close_script (x : Item) (sc sl : List Slot) (i : Bool) : Micro.close i ∉ script x sc sl := by
  have hp : ∀ j sls, Micro.close i ∉ puts j sls := by
    intro j sls h
    simp [puts] at h
  unfold script tail
  intro h
  rcases List.mem_append.1 h with h | h
  · exact hp _ _ h
  · split at h
    · simp only [List.cons_append, List.mem_cons, List.mem_append, reduceCtorEq, List.not_mem_nil, or_false,
        false_or] at h
      exact hp _ _ h
    all_goals simp at h

theorem put_script {x : Item} {sc sl : List Slot} (hc : ∀ s ∈ sc, s.Valid) (hl : ∀ s ∈ sl, s.Valid) (i : Bool)
    (s : Slot) (h : Micro.put i s ∈ script x sc sl) : s.Valid := by
  have hp : ∀ j sls, Micro.put i s ∈ puts j sls → s ∈ sls := by
    intro j sls h
    simp only [puts, List.mem_flatMap, List.mem_cons, reduceCtorEq, Micro.put.injEq, List.not_mem_nil, or_false,
      false_or] at h
    obtain ⟨a, ha, -, rfl⟩ := h
    exact ha
  unfold script tail at h
  rcases List.mem_append.1 h with h | h
  · exact hc s (hp _ _ h)
  · split at h
    · simp only [List.cons_append, List.mem_cons, List.mem_append, reduceCtorEq, List.not_mem_nil, or_false,
        false_or] at h
      exact hl s (hp _ _ h)
    all_goals simp at h

/-- The nibbles of both streams. -/
def tslots (tc : Trace Codec.Key Unit) (tl : Trace Lit.Key Bool) : Bool → List Slot
  | false => slotsOf Session.init tc
  | true => slotsOf Session.init tl

/-- The steps left of the command in progress. -/
def Eng.rest (e : Eng) : List Micro := (e.cur.map (·.2)).getD []

/-- What the codec works with. -/
structure Cfg where
  o : Codec.Opts
  dw : Nat → Nat → Nat → List UInt8
  window : Option Int

/-- The size of its ring buffer. -/
def Cfg.ring (g : Cfg) : Nat := 2 ^ (Frame.windowOf g.window).toNat

theorem Cfg.ring_ge (g : Cfg) : 8 ≤ g.ring := by
  have h := (Frame.window_clamped g.window).1
  unfold Cfg.ring
  calc 8 ≤ 2 ^ 10 := by decide
    _ ≤ _ := Nat.pow_le_pow_right (by decide) h

/-- The codec while commands are coded: `out` has been written, the commands `begun` were begun, and the
last of them has the steps `r` left. -/
structure EngMid (g : Cfg) (e : Eng) (out : List UInt8) (begun : List Item) (r : List Micro) : Prop where
  sent : ∃ tc tl, Sends g.o g.dw 128 (Snd.init g.ring) begun tc tl e.snd ∧
    Trace.Ok tc ∧ Trace.Ok tl ∧ e.sesC = sessionAfter Session.init tc ∧ e.sesL = sessionAfter Session.init tl ∧
    ∃ sl, Mid (windowOf g.window) e out sl noneClosed ∧ ∀ i, sl i ++ putsIn i r = tslots tc tl i
  snd : ∃ H, SndOk g.ring H e.snd
  ready : Ready false e noneClosed r
  open_ : ∀ i, Micro.close i ∉ r
  ending : e.ending = none

/-- The codec between calls, before flushing: `out` has been written and the commands `done` taken. -/
structure EngOk (g : Cfg) (e : Eng) (out : List UInt8) (done : List Item) : Prop where
  mid : EngMid g e out (done ++ (e.cur.map (·.1)).toList) e.rest
  cur : ∀ x r, e.cur = some (x, r) → r ≠ []

theorem ready_nil (e : Eng) : Ready false e noneClosed [] :=
  ⟨⟨fun _ => false, ⟨fun i h => (by cases h), rfl⟩⟩, by simp⟩

theorem engOk_new (g : Cfg) : EngOk g (.new g.window) [] [] := by
  refine ⟨⟨⟨[], [], .nil, by simp [Trace.Ok], by simp [Trace.Ok], rfl, rfl, fun _ => [], ⟨⟨_, wr_new _, fun _ => coded_init⟩, rfl, by simp [Eng.new, Cmp.new, Mux.Mux.new]⟩, ?_⟩,
    ⟨_, snd_init_ok g.ring_ge⟩, ready_nil _, ?_, rfl⟩, ?_⟩
  · intro i; cases i <;> rfl
  · intro i h; simp [Eng.rest, Eng.new] at h
  · intro x r h; cases h

theorem EngMid.setCur {g : Cfg} {e : Eng} {out : List UInt8} {begun : List Item} {r : List Micro}
    (h : EngMid g e out begun r) (c : Option (Item × List Micro)) : EngMid g { e with cur := c } out begun r := by
  obtain ⟨⟨tc, tl, h1, h2, h3, h4, h5, sl, h6, h7⟩, hs, hr, ho, he⟩ := h
  exact ⟨⟨tc, tl, h1, h2, h3, h4, h5, sl, ⟨h6.hist, h6.stage, h6.eof⟩, h7⟩, hs, ⟨hr.ok, hr.val⟩, ho, he⟩

theorem Same.fields {e e' : Eng} (h : Same e e') : e'.snd = e.snd ∧ e'.sesC = e.sesC ∧ e'.sesL = e.sesL ∧
    e'.cur = e.cur ∧ e'.ending = e.ending := by
  unfold Same at h
  rw [h]
  exact ⟨rfl, rfl, rfl, rfl, rfl⟩

theorem mid_steps {g : Cfg} {e : Eng} {out : List UInt8} {begun : List Item} {r : List Micro}
    (h : EngMid g e out begun r) (hp : e.cmp.progress = 16) (room : Nat) :
    ∃ e' o r', steps r e room = some (e', o, r') ∧ EngMid g e' (out ++ o) begun r' ∧
      e'.cmp.progress = 16 ∧ o.length ≤ room ∧ Same e e' ∧
      (r' ≠ [] → o.length = room ∧ (r'.length < r.length ∨ r' = r ∧ e'.pending < e.pending)) := by
  obtain ⟨⟨tc, tl, h1, h2, h3, h4, h5, sl, h6, h7⟩, hs, hr, ho, he⟩ := h
  obtain ⟨e', o, r', sl', cl', k1, k2⟩ := steps_spec false r room h6 hp hr
  obtain ⟨f1, f2, f3, f4, f5⟩ := k2.same.fields
  obtain ⟨o1, o2⟩ := k2.open_ ho
  subst o1
  refine ⟨e', o, r', k1, ⟨⟨tc, tl, by rw [f1]; exact h1, h2, h3, by rw [f2]; exact h4, by rw [f3]; exact h5, sl',
    k2.mid, fun i => (k2.slots i).trans (h7 i)⟩, by rw [f1]; exact hs, k2.ready, o2, by rw [f5]; exact he⟩, k2.prog,
    k2.len, k2.same, fun hne => ?_⟩
  obtain ⟨a, -, b⟩ := k2.stop hne
  exact ⟨a, b⟩

theorem mid_need {g : Cfg} {e : Eng} {out : List UInt8} {begun : List Item}
    (h : EngMid g e out begun []) (hp : e.cmp.progress = 16) (room : Nat) :
    ∃ e' o ok, steps [.need false] e room = some (e', o, if ok then [] else [.need false]) ∧
      EngMid g e' (out ++ o) begun [] ∧ e'.cmp.progress = 16 ∧ o.length ≤ room ∧ Same e e' ∧
      (ok = true → (e'.enc false).q = []) ∧ (ok = false → o.length = room ∧ e'.pending < e.pending) := by
  obtain ⟨⟨tc, tl, h1, h2, h3, h4, h5, sl, h6, h7⟩, hs, hr, ho, he⟩ := h
  obtain ⟨e', o, ok, g1, g2, g3, g4, g5, g6, g7, g8, g9, g10, g11⟩ :=
    drain_spec false ((e.enc false).q.length + 1) room h6 hp (Nat.lt_succ_self _)
  obtain ⟨f1, f2, f3, f4, f5⟩ := g10.fields
  refine ⟨e', o, ok, ?_, ⟨⟨tc, tl, by rw [f1]; exact h1, h2, h3, by rw [f2]; exact h4, by rw [f3]; exact h5, sl,
    g2, h7⟩, by rw [f1]; exact hs, ready_nil _, ho, by rw [f5]; exact he⟩, g3, g4, g10, g5.1, fun hk => ⟨g6 hk, ?_⟩⟩
  · rw [steps, g1]
    cases ok with
    | false => rfl
    | true => simp [steps]
  · refine pending_lt (i := false) (g7 fun hq => ?_) g8
    obtain ⟨rfl, -⟩ := g9 hq
    rw [g5.2 hq] at hk
    cases hk

theorem start_spec {g : Cfg} {e : Eng} {out : List UInt8} {begun : List Item}
    (h : EngMid g e out begun []) {x : Item} (hv : x.Valid g.o g.dw g.ring) :
    ∃ f0 e' r, (∀ fuel, f0 ≤ fuel → e.start g.o g.dw fuel x = some (some (e', r))) ∧
      EngMid g e' out (begun ++ [x]) r ∧ e'.cmp = e.cmp ∧ e'.cur = e.cur := by
  obtain ⟨⟨tc, tl, h1, h2, h3, h4, h5, sl, h6, h7⟩, ⟨H, hs⟩, hr, ho, he⟩ := h
  obtain ⟨f0, a, b, s', k1, k2, k3, k4, k5⟩ := item_sent g.ring_ge (room := 128) (by decide) hv hs
  have hokC : e.sesC.Ok := by rw [h4]; exact sessionAfter_ok _ _ ok_init h2
  have hokL : e.sesL.Ok := by rw [h5]; exact sessionAfter_ok _ _ ok_init h3
  refine ⟨f0, { e with snd := s', sesC := sessionAfter e.sesC a, sesL := sessionAfter e.sesL b },
    script x (slotsOf e.sesC a) (slotsOf e.sesL b), fun fuel hf => by rw [Eng.start, k1 fuel hf],
    ⟨⟨tc ++ a, tl ++ b, h1.snoc ⟨f0, k1⟩, h2.append k2, h3.append k3, ?_, ?_, sl, ⟨h6.hist, h6.stage, h6.eof⟩, ?_⟩,
      ⟨_, k4⟩, ⟨⟨fun _ => false, fun i h => (by cases h), wf_script _ _ _ _⟩, fun i s hm => ?_⟩,
      close_script _ _ _, he⟩, rfl, rfl⟩
  · simp only; rw [h4, sessionAfter_append]
  · simp only; rw [h5, sessionAfter_append]
  · intro i
    rw [putsIn_script _ _ _ (fun hx => by rw [k5 hx]; rfl)]
    have := h7 i
    rw [putsIn, List.append_nil] at this
    rw [this]
    cases i with
    | false => simp only [tslots, Bool.false_eq_true, if_false]; rw [slotsOf_append, h4]
    | true => simp only [tslots, if_true]; rw [slotsOf_append, h5]
  · exact put_script (slotsOf_valid a _ hokC k2) (slotsOf_valid b _ hokL k3) i s hm

/-- Progress within a command. -/
def Eng.less (e' e : Eng) : Prop :=
  (e.cur = none ∧ e'.cur = none ∧ e'.pending < e.pending) ∨ (e.cur = none ∧ e'.cur ≠ none) ∨
    (e.cur ≠ none ∧ e'.cur ≠ none ∧ (e'.rest.length < e.rest.length ∨
      e'.rest.length = e.rest.length ∧ e'.pending < e.pending))

theorem go_spec {g : Cfg} {e : Eng} {out : List UInt8} {done : List Item} {x : Item} {r : List Micro}
    (h : EngMid g e out (done ++ [x]) r) (hp : e.cmp.progress = 16) (room : Nat) :
    ∃ e' o code, e.go x r room = some (e', o, code) ∧ o.length ≤ room ∧ e'.cmp.progress = 16 ∧
      (code = .success ∧ e'.cur = none ∧ EngOk g e' (out ++ o) (done ++ [x]) ∨
        code = .needsOutput ∧ o.length = room ∧ EngOk g e' (out ++ o) done ∧
          ∃ r', e'.cur = some (x, r') ∧ (r'.length < r.length ∨ r' = r ∧ e'.pending < e.pending)) := by
  obtain ⟨e', o, r', k1, k2, k3, k4, k5, k6⟩ := mid_steps h hp room
  rw [Eng.go, k1]
  cases r' with
  | nil =>
    refine ⟨_, o, .success, rfl, k4, k3, .inl ⟨rfl, rfl, ?_, fun x r hh => by cases hh⟩⟩
    simpa [Eng.rest] using k2.setCur none
  | cons m r' =>
    obtain ⟨q1, q2⟩ := k6 (by simp)
    refine ⟨_, o, .needsOutput, rfl, k4, k3, .inr ⟨rfl, q1, ⟨?_, ?_⟩, m :: r', rfl, q2⟩⟩
    · simpa [Eng.rest] using k2.setCur (some (x, m :: r'))
    · intro y s hh
      simp only [Option.some.injEq, Prod.mk.injEq] at hh
      rw [← hh.2]
      simp

theorem one_spec {g : Cfg} {e : Eng} {out : List UInt8} {done : List Item} (h : EngOk g e out done)
    (hp : e.cmp.progress = 16) {x : Item} (hv : x.Valid g.o g.dw g.ring)
    (hx : ∀ y r, e.cur = some (y, r) → y = x) (room : Nat) :
    ∃ f0 e' o code, (∀ fuel, f0 ≤ fuel → e.one g.o g.dw fuel x room = some (e', o, code)) ∧
      o.length ≤ room ∧ e'.cmp.progress = 16 ∧
      (code = .success ∧ e'.cur = none ∧ EngOk g e' (out ++ o) (done ++ [x]) ∨
        code = .needsOutput ∧ o.length = room ∧ EngOk g e' (out ++ o) done ∧ e'.less e ∧
          ∀ y r, e'.cur = some (y, r) → y = x) := by
  cases hc : e.cur with
  | some yr =>
    obtain ⟨y, r⟩ := yr
    obtain rfl := hx y r hc
    have hm := h.mid
    have hrest : e.rest = r := by simp [Eng.rest, hc]
    rw [hc, hrest] at hm
    obtain ⟨e', o, code, k1, k2, k3, k4⟩ := go_spec hm hp room
    refine ⟨0, e', o, code, fun fuel _ => ?_, k2, k3, ?_⟩
    · rw [Eng.one, hc]
      simp only [if_true]
      exact k1
    · rcases k4 with k4 | ⟨c1, c2, c3, r', c4, c5⟩
      · exact .inl k4
      · refine .inr ⟨c1, c2, c3, .inr (.inr ⟨by rw [hc]; simp, by rw [c4]; simp, ?_⟩), ?_⟩
        · have hrest' : e'.rest = r' := by simp [Eng.rest, c4]
          rw [hrest, hrest']
          rcases c5 with c5 | ⟨rfl, c5⟩
          · exact .inl c5
          · exact .inr ⟨rfl, c5⟩
        · intro z s hz
          rw [c4] at hz
          simp only [Option.some.injEq, Prod.mk.injEq] at hz
          exact hz.1.symm
  | none =>
    have hm := h.mid
    have hrest : e.rest = [] := by simp [Eng.rest, hc]
    rw [hc, hrest] at hm
    simp only [Option.map_none, Option.toList_none, List.append_nil] at hm
    obtain ⟨e1, o1, ok, k1, k2, k3, k4, k5, k6, k7⟩ := mid_need hm hp room
    have hc1 : e1.cur = none := by rw [k5.fields.2.2.2.1, hc]
    cases ok with
    | false =>
      obtain ⟨q1, q2⟩ := k7 rfl
      refine ⟨0, e1, o1, .needsOutput, fun fuel _ => ?_, k4, k3, .inr ⟨rfl, q1, ⟨?_, ?_⟩, .inl ⟨hc, hc1, q2⟩, ?_⟩⟩
      · rw [Eng.one, hc]
        simp only [k1, Bool.false_eq_true, if_false]
      · rw [hc1]
        simpa [Eng.rest, hc1] using k2
      · intro y r hy; rw [hc1] at hy; cases hy
      · intro y r hy; rw [hc1] at hy; cases hy
    | true =>
      obtain ⟨f0, e2, r, s1, s2, s3, s4⟩ := start_spec k2 hv
      obtain ⟨e', o, code, g1, g2, g3, g4⟩ := go_spec s2 (by rw [s3]; exact k3) (room - o1.length)
      rw [List.append_assoc] at g4
      refine ⟨f0, e', o1 ++ o, code, fun fuel hf => ?_, ?_, g3, ?_⟩
      · rw [Eng.one, hc]
        simp only [k1, if_true]
        rw [s1 fuel hf]
        simp only [g1, Option.map_some]
      · rw [List.length_append]; omega
      · rcases g4 with g4 | ⟨c1, c2, c3, r', c4, c5⟩
        · exact .inl g4
        · refine .inr ⟨c1, by rw [List.length_append, c2]; omega, c3, .inr (.inl ⟨hc, by rw [c4]; simp⟩), ?_⟩
          intro z s hz
          rw [c4] at hz
          simp only [Option.some.injEq, Prod.mk.injEq] at hz
          exact hz.1.symm

/-- What a call with commands does: `n` of the commands `xs` were taken. -/
structure Called (g : Cfg) (e : Eng) (out : List UInt8) (done xs : List Item) (room : Nat) (e' : Eng)
    (o : List UInt8) (n : Nat) (code : Code) : Prop where
  ok : EngOk g e' (out ++ o) (done ++ xs.take n)
  len : o.length ≤ room
  le : n ≤ xs.length
  head : ∀ y r, e'.cur = some (y, r) → (xs.drop n).head? = some y
  cases : code = .needsInput ∧ n = xs.length ∧ e'.cur = none ∨
    code = .needsOutput ∧ o.length = room ∧ n < xs.length ∧ (n = 0 → e'.less e)

theorem commands_spec {g : Cfg} : ∀ (xs : List Item) {e : Eng} {out : List UInt8} {done : List Item},
    xs ≠ [] → EngOk g e out done → e.cmp.progress = 16 → (∀ x ∈ xs, x.Valid g.o g.dw g.ring) →
    (∀ y r, e.cur = some (y, r) → xs.head? = some y) → ∀ room,
    ∃ f0 e' o n code, (∀ fuel, f0 ≤ fuel → e.commands g.o g.dw fuel xs room = some (e', o, n, code)) ∧
      e'.cmp.progress = 16 ∧ Called g e out done xs room e' o n code := by
  intro xs
  induction xs with
  | nil => intro e out done hne; exact absurd rfl hne
  | cons x xs ih =>
    intro e out done _ h hp hv hx room
    obtain ⟨f1, e1, o1, code, k1, k2, k3, k4⟩ := one_spec h hp (hv x (by simp)) (fun y r hy => by
      have := hx y r hy
      simpa using this.symm) room
    rcases k4 with ⟨rfl, c1, c2⟩ | ⟨rfl, c1, c2, c3, c4⟩
    · cases xs with
      | nil =>
        refine ⟨f1, e1, o1, 1, .needsInput, fun fuel hf => ?_, k3, ?_, k2, Nat.le_refl _, ?_, .inl ⟨rfl, rfl, c1⟩⟩
        · rw [Eng.commands, h.mid.ending]
          simp only [k1 fuel hf]
        · simpa using c2
        · intro y r hy; rw [c1] at hy; cases hy
      | cons y ys =>
        obtain ⟨f2, e2, o2, n, code, q1, q2, q3⟩ := ih (by simp) c2 k3 (fun z hz => hv z (by simp [hz]))
          (fun z r hz => by rw [c1] at hz; cases hz) (room - o1.length)
        refine ⟨max f1 f2, e2, o1 ++ o2, n + 1, code, fun fuel hf => ?_, q2, ?_, ?_, ?_, ?_, ?_⟩
        · rw [Eng.commands, h.mid.ending]
          simp only [k1 fuel (by omega)]
          rw [q1 fuel (by omega)]
          rfl
        · have := q3.ok
          rw [← List.append_assoc, List.take_succ_cons]
          simpa using this
        · rw [List.length_append]; have := q3.len; omega
        · have := q3.le; simp only [List.length_cons] at this ⊢; omega
        · intro z r hz
          rw [List.drop_succ_cons]
          exact q3.head z r hz
        · rcases q3.cases with ⟨a, b, c⟩ | ⟨a, b, c, d⟩
          · exact .inl ⟨a, by rw [b]; rfl, c⟩
          · refine .inr ⟨a, by rw [List.length_append, b]; omega, ?_, fun hn => by omega⟩
            simp only [List.length_cons] at c ⊢
            omega
    · refine ⟨f1, e1, o1, 0, .needsOutput, fun fuel hf => ?_, k3, ?_, k2, Nat.zero_le _, ?_, .inr ⟨rfl, c1, by simp, fun _ => c3⟩⟩
      · rw [Eng.commands, h.mid.ending]
        simp only [k1 fuel hf]
      · simpa using c2
      · intro y r hy
        rw [c4 y r hy]
        rfl

theorem header_ok {g : Cfg} {e : Eng} {out : List UInt8} {done : List Item} (h : EngOk g e out done) (room : Nat) :
    ∃ e' o ok, e.header room = (e', o, ok) ∧ EngOk g e' (out ++ o) done ∧ o.length ≤ room ∧
      (ok = true → e'.cmp.progress = 16) ∧ (ok = false → o.length = room ∧ e'.cmp.progress = e.cmp.progress + room) ∧
      e'.cur = e.cur ∧ e'.enc = e.enc ∧ e.cmp.progress ≤ 16 ∧ e'.cmp.progress ≤ 16 ∧
      (e.cmp.progress = 16 → e' = e ∧ o = []) := by
  obtain ⟨⟨⟨tc, tl, h1, h2, h3, h4, h5, sl, h6, h7⟩, hs, hr, ho, he⟩, hcur⟩ := h
  obtain ⟨popped, hw, hc⟩ := h6.hist
  obtain ⟨B, hinv⟩ := hw.inv
  obtain ⟨c', o, ok, e1, hinv', hl, -, hm, hst, h16, hno, -⟩ := header_spec hinv room
  have hw2 := hw.step (op := .begin room) rfl (c' := c') (o := o) (by simp only [COp.run, e1])
  refine ⟨{ e with cmp := c' }, o, ok, by rw [Eng.header, e1], ⟨⟨⟨tc, tl, h1, h2, h3, h4, h5, sl, ⟨⟨popped, ?_, hc⟩, ?_, ?_⟩, h7⟩,
    hs, ⟨hr.ok, hr.val⟩, ho, he⟩, hcur⟩, hl, h16, ?_, rfl, rfl, hinv.le, hinv'.le, ?_⟩
  · simpa [coded] using hw2
  · rw [hst]; exact h6.stage
  · simp only [hm]; exact h6.eof
  · intro hk
    refine ⟨(hno hk).1, ?_⟩
    subst hk
    unfold Cmp.header at e1
    split_ifs at e1
    · simp at e1
    · simp only [Prod.mk.injEq] at e1
      rw [← e1.1]
    · simp at e1
  · intro hh
    rw [Cmp.header, if_pos hh] at e1
    simp only [Prod.mk.injEq] at e1
    exact ⟨by rw [← e1.1], e1.2.1.symm⟩

/-- Progress of a call. -/
def Eng.Less (e' e : Eng) : Prop :=
  e.cmp.progress < e'.cmp.progress ∧ e'.cmp.progress ≤ 16 ∨ e'.cmp.progress = e.cmp.progress ∧ e'.less e

theorem encodeCommands_spec {g : Cfg} (xs : List Item) {e : Eng} {out : List UInt8} {done : List Item}
    (hne : xs ≠ []) (h : EngOk g e out done) (hv : ∀ x ∈ xs, x.Valid g.o g.dw g.ring)
    (hx : ∀ y r, e.cur = some (y, r) → xs.head? = some y) (room : Nat) :
    ∃ f0 e' o n code, (∀ fuel, f0 ≤ fuel → e.encodeCommands g.o g.dw fuel xs room = some (e', o, n, code)) ∧
      EngOk g e' (out ++ o) (done ++ xs.take n) ∧ o.length ≤ room ∧ n ≤ xs.length ∧ e.cmp.progress ≤ e'.cmp.progress ∧
      (∀ y r, e'.cur = some (y, r) → (xs.drop n).head? = some y) ∧
      (code = .success ∧ n = xs.length ∧ e'.cur = none ∨
        code = .needsOutput ∧ o.length = room ∧ n < xs.length ∧ (n = 0 → 0 < room → e'.Less e)) := by
  obtain ⟨e1, w, ok, k1, k2, k3, k4, k5, k6, k7, k8, k9, k10⟩ := header_ok h room
  cases ok with
  | false =>
    obtain ⟨q1, q2⟩ := k5 rfl
    refine ⟨0, e1, w, 0, .needsOutput, fun fuel _ => by rw [Eng.encodeCommands, k1], by simpa using k2, k3, Nat.zero_le _,
      by omega, ?_, .inr ⟨rfl, q1, by rw [List.length_pos_iff]; exact hne, fun _ hr => .inl ⟨by omega, k9⟩⟩⟩
    intro y r hy
    rw [k6] at hy
    exact hx y r hy
  | true =>
    obtain ⟨f0, e', o, n, code, q1, q2, q3⟩ := commands_spec xs hne k2 (k4 rfl) hv
      (fun y r hy => hx y r (by rw [← k6]; exact hy)) (room - w.length)
    refine ⟨f0, e', w ++ o, n, if code = .needsInput then .success else code, fun fuel hf => ?_, ?_, ?_, q3.le, by rw [q2]; exact k8, q3.head, ?_⟩
    · rw [Eng.encodeCommands, k1]
      simp only [q1 fuel hf, Option.map_some]
    · rw [← List.append_assoc]; exact q3.ok
    · rw [List.length_append]; have := q3.len; omega
    · rcases q3.cases with ⟨rfl, b, c⟩ | ⟨rfl, b, c, d⟩
      · exact .inl ⟨rfl, b, c⟩
      · refine .inr ⟨rfl, by rw [List.length_append, b]; omega, c, fun hn _ => ?_⟩
        by_cases h16 : e.cmp.progress = 16
        · obtain ⟨rfl, -⟩ := k10 h16
          exact .inr ⟨by rw [q2, h16], d hn⟩
        · exact .inl ⟨by rw [q2]; omega, by rw [q2]⟩

/-! ## Flushing -/

/-- The codec once the end marker has been written; the commands were `done`. -/
structure EngEnd (g : Cfg) (e : Eng) (out : List UInt8) (done : List Item) : Prop where
  prog : e.cmp.progress = 16
  tr : ∃ tc tl, (∃ f0, ∀ fuel, f0 ≤ fuel →
      sendAll g.o g.dw 128 fuel done (Snd.init g.ring) = some (.ok (tc, tl))) ∧
    ((∃ r, r ≠ [] ∧ e.ending = some r ∧ ∃ sl cl, Mid (windowOf g.window) e out sl cl ∧ Ready true e cl r ∧
        ∀ i, sl i ++ putsIn i r = tslots tc tl i) ∨
      (e.ending = some [] ∧ ∃ popped, Wr (windowOf g.window) e.cmp out popped ∧ Encodes tc (popped false) ∧
        Encodes tl (popped true)))

theorem container_finish {w : UInt8} {c : Cmp} {out : List UInt8} {popped : Bool → List UInt8}
    (h : Wr w c out popped) (hp : c.progress = 16) (room : Nat) :
    ∃ c' o ok, c.finish room = some (c', o, ok) ∧ Wr w c' (out ++ o) popped ∧ o.length ≤ room ∧
      c'.progress = 16 ∧ (ok = true ↔ c'.stage = .done) ∧ (ok = false → o.length = room) ∧
      c'.left + o.length ≤ c.left := by
  obtain ⟨B, hinv⟩ := h.inv
  obtain ⟨c', o, ok, B', e1, hinv', hl, -, hok, hno, hleft⟩ := finish_spec hinv hp room
  have hrun : (COp.flush room).run c = some (c', o) := by
    simp only [COp.run, Cmp.flush, Cmp.header, if_pos hp, List.length_nil, Nat.sub_zero, e1, Option.map_some,
      List.nil_append]
  have hw := h.step (op := .flush room) rfl hrun
  refine ⟨c', o, ok, e1, by simpa [coded] using hw, hl, ?_, hok, hno, hleft⟩
  rcases Nat.lt_or_ge c'.progress 16 with hlt | hge
  · exfalso
    have := hinv'.out
    obtain ⟨rfl, hst⟩ := hinv'.first hlt
    have h0 := hinv.out
    rw [hst] at this
    simp only [Stage.written, List.take_zero, List.append_nil] at this
    have h1 := congrArg List.length this
    have h2 := congrArg List.length h0
    simp only [List.length_append, List.length_take, makeHeader_length, hp] at h1 h2
    omega
  · have := hinv'.le; omega

theorem eng_finish_nil {g : Cfg} {e : Eng} {out : List UInt8} {done : List Item}
    {tc : Trace Codec.Key Unit} {tl : Trace Lit.Key Bool} (hp : e.cmp.progress = 16)
    (hs : ∃ f0, ∀ fuel, f0 ≤ fuel → sendAll g.o g.dw 128 fuel done (Snd.init g.ring) = some (.ok (tc, tl)))
    {popped : Bool → List UInt8} (hw : Wr (windowOf g.window) e.cmp out popped) (hc : Encodes tc (popped false))
    (hl : Encodes tl (popped true)) (room : Nat) :
    ∃ c o ok, e.cmp.finish room = some (c, o, ok) ∧
      EngEnd g { e with cmp := c, ending := some [] } (out ++ o) done ∧ o.length ≤ room ∧
      (ok = true ↔ c.stage = .done) ∧ (ok = false → o.length = room) ∧ c.left + o.length ≤ e.cmp.left := by
  obtain ⟨c, o, ok, k1, k2, k3, k4, k5, k6, k7⟩ := container_finish hw hp room
  exact ⟨c, o, ok, k1, ⟨k4, tc, tl, hs, .inr ⟨rfl, popped, k2, hc, hl⟩⟩, k3, k5, k6, k7⟩

/-- What a call of flush does. -/
structure Flushed (g : Cfg) (out : List UInt8) (done : List Item) (room : Nat) (e' : Eng)
    (o : List UInt8) (code : Code) : Prop where
  end_ : EngEnd g e' (out ++ o) done
  len : o.length ≤ room
  code : code = .success ∧ e'.ending = some [] ∧ e'.cmp.stage = .done ∨
    code = .needsOutput ∧ o.length = room

theorem eng_finish {g : Cfg} {e : Eng} {out : List UInt8} {done : List Item} {r : List Micro}
    {tc : Trace Codec.Key Unit} {tl : Trace Lit.Key Bool} {sl : Bool → List Slot} {cl : Bool → Bool}
    (hp : e.cmp.progress = 16)
    (hs : ∃ f0, ∀ fuel, f0 ≤ fuel → sendAll g.o g.dw 128 fuel done (Snd.init g.ring) = some (.ok (tc, tl)))
    (hm : Mid (windowOf g.window) e out sl cl) (hr : Ready true e cl r)
    (hsl : ∀ i, sl i ++ putsIn i r = tslots tc tl i) (room : Nat) :
    ∃ e' o code, e.finish r room = some (e', o, code) ∧ Flushed g out done room e' o code ∧
      ∃ r', e'.ending = some r' ∧ (r' ≠ [] → r'.length < r.length ∨ r' = r ∧ e'.pending < e.pending) := by
  obtain ⟨e', o, r', sl', cl', k1, k2⟩ := steps_spec true r room hm hp hr
  rw [Eng.finish, k1]
  cases r' with
  | cons m r' =>
    obtain ⟨q1, -, q2⟩ := k2.stop (by simp)
    refine ⟨_, o, .needsOutput, rfl, ⟨⟨k2.prog, tc, tl, hs, .inl ⟨m :: r', by simp, rfl, sl', cl',
      ⟨k2.mid.hist, k2.mid.stage, k2.mid.eof⟩, ⟨k2.ready.ok, k2.ready.val⟩, fun i => (k2.slots i).trans (hsl i)⟩⟩,
      k2.len, .inr ⟨rfl, q1⟩⟩, m :: r', rfl, fun _ => q2⟩
  | nil =>
    obtain ⟨k, hk, hwf⟩ := k2.ready.ok
    simp only [wf, Bool.not_true, Bool.false_or, Bool.and_eq_true] at hwf
    obtain ⟨⟨⟨w1, w2⟩, w3⟩, w4⟩ := hwf
    obtain ⟨popped, hw, hc⟩ := k2.mid.hist
    have hslots : ∀ i, sl' i = tslots tc tl i := fun i => by
      have := (k2.slots i).trans (hsl i)
      simpa [putsIn] using this
    have enc : ∀ i, cl' i = true → (e'.enc i).q = [] → ∃ ops e, Ans.putsOf ops = tslots tc tl i ∧
        Ans.ClosedOnce ops ∧ Ans.Enc.init.run ops = some (popped i, e) ∧ e.q = [] := by
      intro i hi hq
      obtain ⟨⟨ops, a, b, c⟩, -, -⟩ := hc i
      rw [hi] at b
      exact ⟨ops, _, a.trans (hslots i), b, c, hq⟩
    obtain ⟨c, o2, ok, f1, f2, f3, f4, f5, -⟩ := eng_finish_nil k2.prog hs hw (enc false w3 (hk false w1))
      (enc true w4 (hk true w2)) (room - o.length)
    simp only [f1]
    refine ⟨_, o ++ o2, _, rfl, ⟨by rw [← List.append_assoc]; exact f2, ?_, ?_⟩, [], rfl, fun hne => absurd rfl hne⟩
    · rw [List.length_append]; have := k2.len; omega
    · have := k2.len
      cases ok with
      | true => exact .inl ⟨rfl, rfl, f4.1 rfl⟩
      | false => exact .inr ⟨rfl, by rw [List.length_append, f5 rfl]; omega⟩

/-- Progress of flushing once the end marker has been written. -/
def Eng.lessEnd (e' e : Eng) : Prop :=
  (∃ r r', r ≠ [] ∧ r' ≠ [] ∧ e.ending = some r ∧ e'.ending = some r' ∧
    (r'.length < r.length ∨ r' = r ∧ e'.pending < e.pending)) ∨
  (∃ r, r ≠ [] ∧ e.ending = some r ∧ e'.ending = some []) ∨
  (e.ending = some [] ∧ e'.ending = some [] ∧ e'.cmp.left < e.cmp.left)

theorem header_noop {e : Eng} (hp : e.cmp.progress = 16) (room : Nat) : e.header room = (e, [], true) := by
  rw [Eng.header, Cmp.header, if_pos hp]

/-- Flushing again. -/
theorem flush_again {g : Cfg} {e : Eng} {out : List UInt8} {done : List Item} (h : EngEnd g e out done) (room : Nat) :
    ∃ e' o code, e.flush room = some (e', o, code) ∧ Flushed g out done room e' o code ∧
      (o ≠ [] → e'.lessEnd e) := by
  obtain ⟨hp, tc, tl, hs, h⟩ := h
  rcases h with ⟨r, hne, he, sl, cl, hm, hr, hsl⟩ | ⟨he, popped, hw, hc, hl⟩
  · obtain ⟨e', o, code, k1, k2, r', k3, k4⟩ := eng_finish hp hs hm hr hsl room
    refine ⟨e', o, code, by rw [Eng.flush, he]; exact k1, k2, fun _ => ?_⟩
    by_cases hr' : r' = []
    · subst hr'
      exact .inr (.inl ⟨r, hne, he, k3⟩)
    · exact .inl ⟨r, r', hne, hr', he, k3, k4 hr'⟩
  · obtain ⟨c, o, ok, f1, f2, f3, f4, f5, f6⟩ := eng_finish_nil hp hs hw hc hl room
    refine ⟨_, o, if ok then .success else .needsOutput, ?_, ⟨f2, f3, ?_⟩, fun hn => ?_⟩
    · rw [Eng.flush, he, ]
      simp only [Eng.finish, steps, List.length_nil, Nat.sub_zero, f1, List.nil_append]
    · cases ok with
      | true => exact .inl ⟨rfl, rfl, f4.1 rfl⟩
      | false => exact .inr ⟨rfl, f5 rfl⟩
    · refine .inr (.inr ⟨he, rfl, ?_⟩)
      have := List.length_pos_iff.2 hn
      simp only
      omega

theorem EngOk.done_mid {g : Cfg} {e : Eng} {out : List UInt8} {done : List Item} (h : EngOk g e out done)
    (hc : e.cur = none) : EngMid g e out done [] := by
  have hm := h.mid
  have hrest : e.rest = [] := by simp [Eng.rest, hc]
  rw [hc, hrest] at hm
  simpa using hm

/-- Flushing for the first time, between commands. -/
theorem flush_first {g : Cfg} {e : Eng} {out : List UInt8} {done : List Item} (h : EngOk g e out done)
    (hc : e.cur = none) (hp : e.cmp.progress = 16) (room : Nat) :
    ∃ e' o code, e.flush room = some (e', o, code) ∧
      (Flushed g out done room e' o code ∨
        code = .needsOutput ∧ o.length = room ∧ EngOk g e' (out ++ o) done ∧ e'.cur = none ∧
          e'.cmp.progress = 16 ∧ e'.pending < e.pending) := by
  have hm := h.done_mid hc
  obtain ⟨e1, o1, ok, k1, k2, k3, k4, k5, k6, k7⟩ := mid_need hm hp room
  have hc1 : e1.cur = none := by rw [k5.fields.2.2.2.1, hc]
  rw [Eng.flush, hm.ending]
  simp only [hc]
  rw [k1]
  cases ok with
  | false =>
    obtain ⟨q1, q2⟩ := k7 rfl
    refine ⟨e1, o1, .needsOutput, rfl, .inr ⟨rfl, q1, ⟨?_, ?_⟩, hc1, k3, q2⟩⟩
    · rw [hc1]; simpa [Eng.rest, hc1] using k2
    · intro y r hy; rw [hc1] at hy; cases hy
  | true =>
    obtain ⟨⟨tc, tl, h1, h2, h3, h4, h5, sl, h6, h7⟩, ⟨H, hs⟩, -, -, -⟩ := k2
    obtain ⟨y, n1, n2⟩ := end_sent hs.core
    simp only [if_true, n1]
    have hokC : e1.sesC.Ok := by rw [h4]; exact sessionAfter_ok _ _ ok_init h2
    have hlen : (slotsOf e1.sesC (symTrace [y])).length = 1 := by rw [slotsOf_length]; rfl
    obtain ⟨s, hs1⟩ : ∃ s, slotsOf e1.sesC (symTrace [y]) = [s] := by
      match hq : slotsOf e1.sesC (symTrace [y]), hlen with
      | [s], _ => exact ⟨s, rfl⟩
    have hval := slotsOf_valid _ _ hokC n2 s (by rw [hs1]; simp)
    have hslots : ∀ i, sl i ++ putsIn i ([s].map (Micro.put false) ++ shutdown) =
        tslots (tc ++ symTrace [y]) tl i := by
      intro i
      have := h7 i
      rw [putsIn, List.append_nil] at this
      rw [this]
      cases i with
      | false =>
        simp only [tslots]
        rw [slotsOf_append, ← h4, hs1]
        rfl
      | true => simp [tslots, putsIn, shutdown]
    have hready : Ready true { e1 with sesC := sessionAfter e1.sesC (symTrace [y]) } noneClosed
        ([s].map (Micro.put false) ++ shutdown) := by
      refine ⟨⟨fun i => !i, fun i hi => ?_, by rfl⟩, fun i t ht => ?_⟩
      · cases i with
        | false => exact k6 rfl
        | true => cases hi
      · simp only [shutdown, List.map_cons, List.map_nil, List.mem_append, List.mem_cons, List.not_mem_nil,
          or_false, Micro.put.injEq, reduceCtorEq] at ht
        rw [ht.2]
        exact hval
    obtain ⟨e', o, code, q1, q2, -⟩ := eng_finish (e := { e1 with sesC := sessionAfter e1.sesC (symTrace [y]) })
      (out := out ++ o1) (done := done) (g := g) k3 (h1.all n1) ⟨h6.hist, h6.stage, h6.eof⟩ hready hslots (room - o1.length)
    rw [hs1, q1]
    refine ⟨e', o1 ++ o, code, rfl, .inl ⟨?_, ?_, ?_⟩⟩
    · rw [← List.append_assoc]; exact q2.end_
    · rw [List.length_append]; have := q2.len; omega
    · rcases q2.code with q | ⟨a, b⟩
      · exact .inl q
      · exact .inr ⟨a, by rw [List.length_append, b]; omega⟩

end Divans.Eng
