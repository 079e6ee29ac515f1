import Verif.RawLen
import Verif.CompLemmas

/-!
# Calls of the compressor

What each call does to the compressor: invariants and progress.
-/

namespace Divans.Eng
open Divans.Adaptive Divans.Pipe Divans.Frame
open Divans.Ans hiding Item

/-- A prediction mode command that comes first is always taken. -/
theorem commands_pm {g : Cfg} {e : Eng} {out : List UInt8} (h : EngOk g e out []) (hc : e.cur = none)
    (henc : e.enc false = .init) {q : Codec.PmIn} (hv : (Item.pm q).Valid g.o g.dw g.ring) (xs : List Item)
    (room : Nat) :
    ∃ f0, ∀ fuel, f0 ≤ fuel → ∀ e' o n code,
      e.commands g.o g.dw fuel (.pm q :: xs) room = some (e', o, n, code) → 1 ≤ n := by
  obtain ⟨f0, hf⟩ := one_pm h hc henc hv room
  refine ⟨f0, fun fuel hl e' o n code hr => ?_⟩
  obtain ⟨e1, h1⟩ := hf fuel hl
  have hend := h.mid.ending
  rw [Eng.commands, hend] at hr
  simp only [h1] at hr
  cases xs with
  | nil => cases hr; exact Nat.le_refl _
  | cons y ys =>
    simp only [Option.map_eq_some_iff] at hr
    obtain ⟨z, -, hz⟩ := hr
    cases hz
    omega

end Divans.Eng

namespace Divans.Compressor
open Divans.Adaptive Divans.Pipe Divans.Frame Divans.Eng

theorem thaw_freeze {ring : List UInt8} : ∀ {cs : List RawCmd.Cmd}, (∀ x ∈ cs, RawCmd.Lies ring x) →
    RawCmd.Cmd.pm ∉ cs → thawAll ring (cs.map freeze) = some cs
  | [], _, _ => rfl
  | .pm :: cs, _, h => absurd (List.mem_cons_self ..) h
  | .lit off d :: cs, hl, hp => by
    have h1 := thaw_freeze (ring := ring) (cs := cs) (fun x hx => hl x (List.mem_cons_of_mem _ hx))
      (fun hx => hp (List.mem_cons_of_mem _ hx))
    have h2 := (hl (.lit off d) (List.mem_cons_self ..)).1
    simp only [List.map_cons, thawAll, freeze, thaw, h1, h2, Option.map_some]

/-- What does not change while commands are sent: the commands taken by the codec, and those kept. -/
structure Work (g : Cfg) (c : Comp) (out : List UInt8) (done fr : List RawCmd.Cmd) : Prop where
  frozen : c.frozen = fr.map freeze
  len : c.asm.ring.length = g.ring
  lies : ∀ x ∈ fr, RawCmd.Lies c.asm.ring x
  nopm : RawCmd.Cmd.pm ∉ fr
  eng : EngOk g c.eng out (done.map item)
  cur : ∀ y r, c.eng.cur = some (y, r) → (fr.map item).head? = some y

/-- The compressor has its prediction mode command ahead of it. -/
def Fresh (c : Comp) (done fr : List RawCmd.Cmd) : Prop :=
  c.asm.hdr = false → done = [] ∧ fr = [] ∧ c.eng.enc false = .init

theorem ring_le (g : Cfg) : g.ring ≤ 2 ^ 24 :=
  Nat.pow_le_pow_right (by omega) (window_clamped g.window).2.1

theorem lies_valid {g : Cfg} {ring : List UInt8} (hl : ring.length = g.ring)
    (hpm : (Item.pm rawPm).Valid g.o g.dw g.ring) {x : RawCmd.Cmd} (h : RawCmd.Lies ring x) :
    (item x).Valid g.o g.dw g.ring := by
  cases x with
  | pm => exact hpm
  | lit off d =>
    obtain ⟨h1, h2⟩ := h
    have h3 : d.length ≤ ring.length := by
      unfold RawCmd.piece at h1
      split at h1
      · omega
      · cases h1
    have := ring_le g
    exact ⟨⟨h2, by omega⟩, trivial, fun p hp => by cases hp⟩

/-- Progress inside the codec, as numbers. -/
def engMu (e : Eng) : Nat × Nat × Nat := (if e.cur = none then 1 else 0, e.rest.length, e.pending)

/-- Order of triples. -/
def lt3 : Nat × Nat × Nat → Nat × Nat × Nat → Prop := Prod.Lex (· < ·) (Prod.Lex (· < ·) (· < ·))

theorem lt3_iff {a b c x y z : Nat} : lt3 (a, b, c) (x, y, z) ↔ a < x ∨ a = x ∧ (b < y ∨ b = y ∧ c < z) := by
  simp only [lt3, Prod.lex_def]

theorem less_mu {e e' : Eng} (h : e'.less e) : lt3 (engMu e') (engMu e) := by
  unfold engMu
  rw [lt3_iff]
  rcases h with ⟨h1, h2, h3⟩ | ⟨h1, h2⟩ | ⟨h1, h2, h3⟩
  · have r1 : e.rest.length = 0 := by simp [Eng.rest, h1]
    have r2 : e'.rest.length = 0 := by simp [Eng.rest, h2]
    rw [if_pos h1, if_pos h2]
    omega
  · rw [if_neg h2, if_pos h1]; omega
  · rw [if_neg h2, if_neg h1]; omega

/-- Progress of the compressor with no input: header, kept commands, codec. -/
def mu (c : Comp) : Nat × Nat × Nat × Nat × Nat := (16 - c.eng.cmp.progress, c.frozen.length, engMu c.eng)

/-- Order of these. -/
def lt5 : Nat × Nat × Nat × Nat × Nat → Nat × Nat × Nat × Nat × Nat → Prop :=
  Prod.Lex (· < ·) (Prod.Lex (· < ·) lt3)

theorem lt5_wf : WellFounded lt5 :=
  WellFounded.prod_lex Nat.lt_wfRel.wf (WellFounded.prod_lex Nat.lt_wfRel.wf
    (WellFounded.prod_lex Nat.lt_wfRel.wf (WellFounded.prod_lex Nat.lt_wfRel.wf Nat.lt_wfRel.wf)))

theorem lt5_iff {a b x y : Nat} {t u : Nat × Nat × Nat} :
    lt5 (a, b, t) (x, y, u) ↔ a < x ∨ a = x ∧ (b < y ∨ b = y ∧ lt3 t u) := by
  simp only [lt5, Prod.lex_def]

/-- Finishing the header does no harm to the order. -/
theorem mu_header {c c1 c2 : Comp} (h1 : c.eng.cmp.progress ≤ 16) (hp : c1.eng.cmp.progress = 16)
    (h : lt5 (mu c2) (mu c1)) (hs : c1 = { c with eng := c1.eng }) (he : c.eng.cmp.progress = 16 → c1.eng = c.eng) :
    lt5 (mu c2) (mu c) := by
  by_cases hq : c.eng.cmp.progress = 16
  · rw [he hq] at hs
    rw [hs] at h
    exact h
  · unfold mu at h ⊢
    rw [lt5_iff] at h ⊢
    left
    omega

/-- Sending commands `cs`, which lie in the ring `s.ring`, when none are kept. -/
structure Sent (g : Cfg) (c : Comp) (out : List UInt8) (done cs : List RawCmd.Cmd) (room : Nat) (s : RawCmd.St)
    (e : Eng) (o : List UInt8) (n : Nat) (code : Code) : Prop where
  prog : e.cmp.progress = 16
  len : o.length ≤ room
  le : n ≤ cs.length
  cases : code = .needsInput ∧ n = cs.length ∧ Work g ⟨e, s, []⟩ (out ++ o) (done ++ cs) [] ∨
    code = .needsOutput ∧ o.length = room ∧ n < cs.length ∧
      Work g ⟨e, s, (cs.drop n).map freeze⟩ (out ++ o) (done ++ cs.take n) (cs.drop n) ∧
      (n = 0 → e.less c.eng)

theorem send_spec {g : Cfg} {c : Comp} {out : List UInt8} {done cs : List RawCmd.Cmd} {s : RawCmd.St}
    (h : EngOk g c.eng out (done.map item)) (hp : c.eng.cmp.progress = 16)
    (hpm : (Item.pm rawPm).Valid g.o g.dw g.ring) (hne : cs ≠ [])
    (hlen : s.ring.length = g.ring) (hl : ∀ x ∈ cs, RawCmd.Lies s.ring x)
    (hcur : ∀ y r, c.eng.cur = some (y, r) → (cs.map item).head? = some y)
    (hpm1 : RawCmd.Cmd.pm ∉ cs ∨ (∃ t, cs = .pm :: t ∧ RawCmd.Cmd.pm ∉ t) ∧ done = [] ∧ c.eng.cur = none ∧
      c.eng.enc false = .init) (room : Nat) :
    ∃ f0 e o n code, (∀ fuel, f0 ≤ fuel → c.eng.commands g.o g.dw fuel (cs.map item) room = some (e, o, n, code)) ∧
      Sent g c out done cs room s e o n code := by
  have hv : ∀ x ∈ cs.map item, x.Valid g.o g.dw g.ring := by
    intro x hx
    obtain ⟨y, hy, rfl⟩ := List.mem_map.1 hx
    exact lies_valid hlen hpm (hl y hy)
  obtain ⟨f0, e, o, n, code, k1, k2, k3⟩ := commands_spec (cs.map item) (by simpa using hne) h hp hv hcur room
  have k3le := k3.le
  rw [List.length_map] at k3le
  have hpmn : code = .needsOutput → RawCmd.Cmd.pm ∉ cs.drop n := by
    intro _ hin
    rcases hpm1 with h1 | ⟨⟨t, rfl, h1⟩, rfl, h3, h4⟩
    · exact h1 (List.mem_of_mem_drop hin)
    · obtain ⟨f1, hf⟩ := commands_pm h h3 h4 hpm (t.map item) room
      have := hf (max f0 f1) (by omega) e o n code (k1 _ (by omega))
      obtain ⟨m, rfl⟩ : ∃ m, n = m + 1 := ⟨n - 1, by omega⟩
      exact h1 (List.mem_of_mem_drop (by simpa using hin))
  refine ⟨f0, e, o, n, code, k1, k2, k3.len, k3le, ?_⟩
  have hok := k3.ok
  rcases k3.cases with ⟨rfl, h1, h2⟩ | ⟨rfl, h1, h2, h3⟩
  · rw [List.length_map] at h1
    refine .inl ⟨rfl, h1, rfl, hlen, by simp, by simp, ?_, ?_⟩
    · rw [h1, ← List.length_map (f := item), List.take_length] at hok
      simpa using hok
    · intro y r hy
      have : e.cur = some (y, r) := hy
      rw [h2] at this; cases this
  · rw [List.length_map] at h2
    refine .inr ⟨rfl, h1, h2, ⟨rfl, hlen, fun x hx => hl x (List.mem_of_mem_drop hx), hpmn rfl, ?_, ?_⟩, h3⟩
    · simpa [List.map_take] using hok
    · intro y r hy
      have := k3.head y r hy
      simpa [List.map_drop] using this

/-- What sending the kept commands does. -/
structure Unfrozen (g : Cfg) (c : Comp) (out : List UInt8) (done fr : List RawCmd.Cmd) (room : Nat) (c' : Comp)
    (o : List UInt8) (code : Code) : Prop where
  asm : c'.asm = c.asm
  prog : c'.eng.cmp.progress = 16
  len : o.length ≤ room
  cases : code = .success ∧ Work g c' (out ++ o) (done ++ fr) [] ∧ (fr = [] → c' = c ∧ o = []) ∨
    code = .needsOutput ∧ o.length = room ∧ (∃ n, n < fr.length ∧ Work g c' (out ++ o) (done ++ fr.take n) (fr.drop n)) ∧
      lt5 (mu c') (mu c)

theorem unfreeze_spec {g : Cfg} {c : Comp} {out : List UInt8} {done fr : List RawCmd.Cmd} (h : Work g c out done fr)
    (hp : c.eng.cmp.progress = 16) (hpm : (Item.pm rawPm).Valid g.o g.dw g.ring) (room : Nat) :
    ∃ f0 c' o code, (∀ fuel, f0 ≤ fuel → c.unfreeze g.o g.dw fuel room = some (c', o, code)) ∧
      Unfrozen g c out done fr room c' o code := by
  by_cases hfr : fr = []
  · subst hfr
    refine ⟨0, c, [], .success, fun fuel _ => ?_, rfl, hp, by simp, .inl ⟨rfl, by simpa using h, fun _ => ⟨rfl, rfl⟩⟩⟩
    rw [Comp.unfreeze, if_pos (by simpa using h.frozen)]
  · have hfz : ¬ c.frozen = [] := by rw [h.frozen]; simpa using hfr
    obtain ⟨f0, e, o, n, code, k1, k2⟩ := send_spec (s := c.asm) h.eng hp hpm hfr h.len h.lies h.cur (.inl h.nopm) room
    have ht := thaw_freeze h.lies h.nopm
    have hle := k2.le
    refine ⟨f0, ⟨e, c.asm, c.frozen.drop n⟩, o, if code = .needsInput then .success else code, fun fuel hf => ?_, rfl,
      k2.prog, k2.len, ?_⟩
    · rw [Comp.unfreeze, if_neg hfz, h.frozen, ht]
      simp only [k1 fuel hf]
    · rcases k2.cases with ⟨rfl, h1, h2⟩ | ⟨rfl, h1, h2, h3, h4⟩
      · refine .inl ⟨rfl, ?_, fun hh => absurd hh hfr⟩
        rw [h.frozen, ← List.map_drop, h1, List.drop_length]
        exact h2
      · refine .inr ⟨rfl, h1, ⟨n, h2, ?_⟩, ?_⟩
        · rw [h.frozen, ← List.map_drop]; exact h3
        · unfold mu
          rw [lt5_iff]
          right
          refine ⟨by rw [k2.prog, hp], ?_⟩
          simp only [h.frozen, List.length_drop, List.length_map]
          by_cases hn : n = 0
          · right; exact ⟨by omega, less_mu (h4 hn)⟩
          · left; omega

/-! ## Input -/

theorem run_snoc {op : RawCmd.Op} : ∀ {ops : List RawCmd.Op} {s s1 s2 : RawCmd.St} {i j : List UInt8}
    {cs ds : List RawCmd.Cmd}, RawCmd.run s ops = some (s1, i, cs) → RawCmd.step s1 op = some (s2, j, ds) →
    RawCmd.run s (ops ++ [op]) = some (s2, i ++ j, cs ++ ds)
  | [], s, s1, s2, i, j, cs, ds, h, h2 => by
    cases h
    simp only [List.nil_append, RawCmd.run, h2, Option.map_some, List.append_nil]
  | a :: ops, s, s1, s2, i, j, cs, ds, h, h2 => by
    rw [RawCmd.run] at h
    cases hs : RawCmd.step s a with
    | none => rw [hs] at h; cases h
    | some x =>
      obtain ⟨x1, x2, x3⟩ := x
      rw [hs] at h
      simp only [Option.map_eq_some_iff] at h
      obtain ⟨⟨y1, y2, y3⟩, hy, he⟩ := h
      cases he
      have := run_snoc hy h2
      simp only [List.cons_append, RawCmd.run, hs, this, Option.map_some, List.append_assoc]

/-- The compressor while input is offered: `ops` are the calls the assembler has had, `taken` the input it
took, `done` and `fr` the commands it made. -/
structure Pushing (g : Cfg) (c : Comp) (out : List UInt8) (ops : List RawCmd.Op) (taken : List UInt8)
    (done fr : List RawCmd.Cmd) : Prop where
  work : Work g c out done fr
  run : RawCmd.run (RawCmd.new (List.replicate g.ring 0)) ops = some (c.asm, taken, done ++ fr)
  only : RawCmd.Roomy ops
  inv : RawCmd.Inv c.asm
  fresh : Fresh c done fr
  calm : RawCmd.content c.asm = [] ∨ RawCmd.full c.asm = false

theorem Pushing.pm_first {g : Cfg} {c : Comp} {out : List UInt8} {ops : List RawCmd.Op} {taken : List UInt8}
    {done : List RawCmd.Cmd} (h : Pushing g c out ops taken done []) {s : RawCmd.St} {cs : List RawCmd.Cmd}
    (hs : RawCmd.Shape c.asm.hdr s.hdr cs) :
    RawCmd.Cmd.pm ∉ cs ∨ (∃ t, cs = .pm :: t ∧ RawCmd.Cmd.pm ∉ t) ∧ done = [] ∧ c.eng.cur = none ∧
      c.eng.enc false = .init := by
  rcases hs with ⟨-, h1⟩ | ⟨h1, -, h2⟩
  · exact .inl h1
  · obtain ⟨a, -, b⟩ := h.fresh h1
    refine .inr ⟨h2, a, ?_, b⟩
    cases hc : c.eng.cur with
    | none => rfl
    | some yr => have := h.work.cur yr.1 yr.2 hc; simp at this

theorem no_cur {g : Cfg} {c : Comp} {out : List UInt8} {done : List RawCmd.Cmd} (h : Work g c out done []) :
    c.eng.cur = none := by
  cases hc : c.eng.cur with
  | none => rfl
  | some yr => have := h.cur yr.1 yr.2 hc; simp at this

/-- What a call of `encode` does from the point on where header and kept commands are out. -/
structure Looped (g : Cfg) (c : Comp) (ops : List RawCmd.Op) (out : List UInt8) (taken inp : List UInt8) (room : Nat) (c' : Comp) (n : Nat)
    (o : List UInt8) (code : Code) : Prop where
  le : n ≤ inp.length
  len : o.length ≤ room
  prog : c'.eng.cmp.progress = 16
  cases : code = .needsInput ∧ n = inp.length ∧
      (∃ ops' done, Pushing g c' (out ++ o) (ops ++ ops') (taken ++ inp.take n) done [] ∧ RawCmd.Chain c.asm inp ops' n c'.asm) ∨
    code = .needsOutput ∧ o.length = room ∧
      (∃ ops' done fr, fr ≠ [] ∧ Pushing g c' (out ++ o) (ops ++ ops') (taken ++ inp.take n) done fr ∧
        RawCmd.Chain c.asm inp ops' n c'.asm)
  some_ : inp ≠ [] → 1 ≤ n

theorem loop_spec {g : Cfg} (hpm : (Item.pm rawPm).Valid g.o g.dw g.ring) :
    ∀ (k : Nat) {c : Comp} {out : List UInt8} {ops : List RawCmd.Op} {taken : List UInt8} {done : List RawCmd.Cmd},
      Pushing g c out ops taken done [] → c.eng.cmp.progress = 16 → ∀ (inp : List UInt8), inp.length < k → ∀ room,
    ∃ f0 c' n o code, (∀ fuel, f0 ≤ fuel → c.loop g.o g.dw fuel k inp room = some (c', n, o, code)) ∧
      Looped g c ops out taken inp room c' n o code := by
  intro k
  induction k with
  | zero => intro c out ops taken done _ _ inp h; omega
  | succ k ih =>
    intro c out ops taken done h hp inp hk room
    have h2 : 2 ≤ c.asm.ring.length := by rw [h.work.len]; have := g.ring_ge; omega
    obtain ⟨s, n, cs, r, e1, st⟩ := RawCmd.streamed h.inv h2 inp (room := slots) (by decide)
    have hst : RawCmd.step c.asm (.stream inp slots) = some (s, inp.take n, cs) := by
      rw [RawCmd.step, e1]; rfl
    have hrun := run_snoc h.run hst
    rw [List.append_nil] at hrun
    have hone : RawCmd.Chain c.asm inp [.stream inp slots] n s := by
      have := RawCmd.Chain.cons e1 (by decide) (fun h => absurd rfl h) (.nil (s := s))
      simpa using this
    have honly : RawCmd.Roomy (ops ++ [.stream inp slots]) := by
      intro op ho
      rcases List.mem_append.1 ho with ho | ho
      · exact h.only op ho
      · simp only [List.mem_singleton] at ho
        exact ⟨_, _, by decide, ho⟩
    have hlen : s.ring.length = g.ring := st.len.trans h.work.len
    have hnr : ¬ r = .success := by rcases st.asks with ⟨rfl, -⟩ | ⟨rfl, -⟩ <;> decide
    have hmf := RawCmd.mode_first hrun
    have some_ := st.some_ h.calm
    have loop_eq : ∀ fuel, c.loop g.o g.dw fuel (k + 1) inp room = match RawCmd.stream c.asm inp slots with
        | none => none
        | some (s, n, cs, r) =>
          if r = .success then some ({ c with asm := s }, n, [], .failure)
          else if r = .needsInput ∧ cs = [] then some ({ c with asm := s }, n, [], .needsInput)
          else
            match c.eng.commands g.o g.dw fuel (cs.map item) room with
            | none => none
            | some (e, out, m, code) =>
              if code = .needsInput ∨ code = .success then
                if m ≠ cs.length then none
                else if r = .needsInput then some ({ c with asm := s, eng := e }, n, out, .needsInput)
                else
                  (Comp.loop g.o g.dw fuel k { c with asm := s, eng := e } (inp.drop n) (room - out.length)).map
                    fun z => (z.1, n + z.2.1, out ++ z.2.2.1, z.2.2.2)
              else some ({ c with asm := s, eng := e, frozen := (cs.drop m).map freeze }, n, out, code) := fun _ => rfl
    by_cases hcs : cs = []
    · subst hcs
      obtain ⟨rfl, hn⟩ : r = .needsInput ∧ n = inp.length := by
        rcases st.asks with h | ⟨-, -, h, -⟩
        · exact h
        · exact absurd rfl h
      rw [List.append_nil] at hrun
      refine ⟨0, { c with asm := s }, n, [], .needsInput, fun fuel _ => ?_, st.le, by simp, hp,
        .inl ⟨rfl, hn, _, done, ⟨?_, ?_, honly, st.inv, ?_, st.rest⟩, hone⟩, some_⟩
      · rw [loop_eq, e1]
        simp only [hnr, if_false, and_self, if_true]
      · obtain ⟨a1, a2, a3, a4, a5, a6⟩ := h.work
        exact ⟨a1, hlen, by simp, a4, by simpa using a5, a6⟩
      · simpa using hrun
      · intro hh
        have : c.asm.hdr = false := by
          rcases st.shape with ⟨h1, -⟩ | ⟨h1, -⟩
          · rw [h1]; exact hh
          · exact h1
        exact h.fresh this
    · obtain ⟨f0, e, o, m, code, k1, k2⟩ := send_spec (s := s) (cs := cs) h.work.eng hp hpm hcs hlen st.lies
        (fun y r hy => by rw [no_cur h.work] at hy; cases hy) (h.pm_first st.shape) room
      have hhdr : s.hdr ≠ false := by
        rcases hmf with ⟨-, h1⟩ | ⟨h1, -⟩
        · rw [List.length_append] at h1
          have := List.length_pos_iff.2 hcs
          omega
        · rw [h1]; decide
      have hfz : c.frozen = [] := h.work.frozen
      rcases k2.cases with ⟨rfl, h1, h3⟩ | ⟨rfl, h1, h3, h4, -⟩
      · have hpush : Pushing g ⟨e, s, []⟩ (out ++ o) (ops ++ [.stream inp slots]) (taken ++ inp.take n) (done ++ cs) [] :=
          ⟨h3, by simpa using hrun, honly, st.inv, fun hh => absurd hh hhdr, st.rest⟩
        rcases st.asks with ⟨rfl, hn⟩ | ⟨rfl, hn, -, hcont⟩
        · refine ⟨f0, ⟨e, s, []⟩, n, o, .needsInput, fun fuel hf => ?_, st.le, k2.len, k2.prog,
            .inl ⟨rfl, hn, _, _, hpush, hone⟩, some_⟩
          rw [loop_eq, e1]
          simp only [hnr, if_false, hcs, and_false, k1 fuel hf, h1, ne_eq, not_true_eq_false, true_or, if_true, hfz]
        · have hine : inp ≠ [] := by rintro rfl; simp at hn
          have hn1 := some_ hine
          obtain ⟨f1, c', n2, o2, code, l1, l2⟩ := ih hpush k2.prog (inp.drop n)
            (by rw [List.length_drop]; omega) (room - o.length)
          refine ⟨max f0 f1, c', n + n2, o ++ o2, code, fun fuel hf => ?_, ?_, ?_, l2.prog, ?_, fun _ => by omega⟩
          · rw [loop_eq, e1]
            simp only [hnr, if_false, hcs, and_false, k1 fuel (by omega), h1, ne_eq, not_true_eq_false, true_or, if_true, hfz,
              l1 fuel (by omega)]
            simp
          · have := l2.le; rw [List.length_drop] at this; omega
          · have := l2.len; have := k2.len; rw [List.length_append]; omega
          · have hcat : ∀ ops', ops ++ [RawCmd.Op.stream inp slots] ++ ops' = ops ++ (RawCmd.Op.stream inp slots :: ops') := by simp
            have hch : ∀ ops', RawCmd.Chain s (inp.drop n) ops' n2 c'.asm →
                RawCmd.Chain c.asm inp (.stream inp slots :: ops') (n + n2) c'.asm := fun ops' hc =>
              .cons e1 (by decide) (fun _ => by omega) hc
            have htk : taken ++ inp.take n ++ (inp.drop n).take n2 = taken ++ inp.take (n + n2) := by
              rw [List.append_assoc, List.take_add]
            rw [← List.append_assoc]
            rcases l2.cases with ⟨q1, q2, ops', d', q3, q5⟩ | ⟨q1, q2, ops', d', fr', q3, q4, q5⟩
            · rw [List.length_drop] at q2
              rw [htk, hcat] at q3
              exact .inl ⟨q1, by omega, _, d', q3, hch _ q5⟩
            · rw [htk, hcat] at q4
              have := k2.len
              exact .inr ⟨q1, by rw [List.length_append]; omega, _, d', fr', q3, q4, hch _ q5⟩
      · refine ⟨f0, ⟨e, s, (cs.drop m).map freeze⟩, n, o, .needsOutput, fun fuel hf => ?_, st.le, k2.len, k2.prog,
          .inr ⟨rfl, h1, [.stream inp slots], done ++ cs.take m, cs.drop m, ?_,
            ⟨h4, ?_, honly, st.inv, fun hh => absurd hh hhdr, st.rest⟩, hone⟩, some_⟩
        · rw [loop_eq, e1]
          simp only [hnr, if_false, hcs, and_false, k1 fuel hf]
          simp
        · intro hd
          have := congrArg List.length hd
          rw [List.length_drop, List.length_nil] at this
          omega
        · rw [List.append_assoc, List.take_append_drop]
          exact hrun

theorem Pushing.header {g : Cfg} {c : Comp} {out : List UInt8} {ops : List RawCmd.Op} {taken : List UInt8}
    {done fr : List RawCmd.Cmd} (h : Pushing g c out ops taken done fr) {e : Eng} {o : List UInt8}
    (he : EngOk g e (out ++ o) (done.map item)) (hc : e.cur = c.eng.cur) (hn : e.enc = c.eng.enc) :
    Pushing g { c with eng := e } (out ++ o) ops taken done fr := by
  obtain ⟨⟨a1, a2, a3, a4, a5, a6⟩, b, d, i, f, j⟩ := h
  exact ⟨⟨a1, a2, a3, a4, he, fun y r hy => a6 y r (hc ▸ hy)⟩, b, d, i, fun hh => by
    obtain ⟨x, y, z⟩ := f hh; exact ⟨x, y, by rw [← z]; exact congrFun hn false⟩, j⟩

/-- What a call of `encode` does. -/
structure Pushed (g : Cfg) (c : Comp) (ops : List RawCmd.Op) (out : List UInt8) (taken inp : List UInt8) (room : Nat) (c' : Comp) (n : Nat)
    (o : List UInt8) (code : Code) : Prop where
  le : n ≤ inp.length
  len : o.length ≤ room
  how : ∃ ops' done fr, Pushing g c' (out ++ o) (ops ++ ops') (taken ++ inp.take n) done fr ∧ RawCmd.Chain c.asm inp ops' n c'.asm
  cases : code = .needsInput ∧ n = inp.length ∨ code = .needsOutput ∧ o.length = room
  progress : inp ≠ [] → 0 < room → 1 ≤ n ∨ lt5 (mu c') (mu c)
  why : code = .needsOutput → c'.eng.cmp.progress < 16 ∨ c'.frozen ≠ []
  first : c.eng.cmp.progress < 16 → 0 < room → o ≠ []
  idle : inp = [] → 0 < room → code = .needsOutput →
    lt5 (mu c') (mu c) ∨ ∃ s m cs r, RawCmd.stream c.asm [] slots = some (s, m, cs, r) ∧ cs ≠ [] ∧ c'.asm = s

theorem Pushed.ok {g : Cfg} {c : Comp} {ops : List RawCmd.Op} {out taken inp : List UInt8} {room : Nat} {c' : Comp} {n : Nat}
    {o : List UInt8} {code : Code} (h : Pushed g c ops out taken inp room c' n o code) :
    ∃ ops done fr, Pushing g c' (out ++ o) ops (taken ++ inp.take n) done fr := by
  obtain ⟨a, b, d, q, -⟩ := h.how
  exact ⟨_, b, d, q⟩

/-- What `write_header` does to a header that is not complete. -/
theorem header_part {e e' : Eng} {room : Nat} {w : List UInt8} {ok : Bool} (h : e.header room = (e', w, ok)) :
    (ok = false → e'.cmp.progress < 16) ∧ (e.cmp.progress < 16 → 0 < room → w ≠ []) := by
  unfold Eng.header Cmp.header at h
  have hl : (makeHeader e.cmp.window).length = 16 := by simp [makeHeader, magic]
  by_cases h1 : e.cmp.progress = 16
  · simp only [if_pos h1, Prod.mk.injEq] at h
    obtain ⟨rfl, rfl, rfl⟩ := h
    exact ⟨fun h => by simp at h, fun h => by omega⟩
  · by_cases h2 : room + e.cmp.progress < 16
    · simp only [if_neg h1, if_pos h2, Prod.mk.injEq] at h
      obtain ⟨rfl, rfl, rfl⟩ := h
      refine ⟨fun _ => by simp only; omega, fun h3 h4 h5 => ?_⟩
      have := congrArg List.length h5
      rw [List.length_take, List.length_drop, hl, List.length_nil] at this
      omega
    · simp only [if_neg h1, if_neg h2, Prod.mk.injEq] at h
      obtain ⟨rfl, rfl, rfl⟩ := h
      refine ⟨fun h => by simp at h, fun h3 h4 h5 => ?_⟩
      have := congrArg List.length h5
      rw [List.length_drop, hl, List.length_nil] at this
      omega

theorem encode_spec {g : Cfg} (hpm : (Item.pm rawPm).Valid g.o g.dw g.ring) {c : Comp} {out : List UInt8}
    {ops : List RawCmd.Op} {taken : List UInt8} {done fr : List RawCmd.Cmd} (h : Pushing g c out ops taken done fr)
    (inp : List UInt8) (room : Nat) :
    ∃ f0 c' n o code, (∀ fuel, f0 ≤ fuel → c.encode g.o g.dw fuel inp room = some (c', n, o, code)) ∧
      Pushed g c ops out taken inp room c' n o code := by
  obtain ⟨e, w, ok, k1, k2, k3, k4, k5, k6, k7, k8, k9, k10⟩ := header_ok h.work.eng room
  have hh := h.header k2 k6 k7
  obtain ⟨hp1, hp2⟩ := header_part k1
  cases ok with
  | false =>
    obtain ⟨q1, q2⟩ := k5 rfl
    refine ⟨0, { c with eng := e }, 0, w, .needsOutput, fun fuel _ => by rw [Comp.encode, k1], by omega, k3,
      ⟨[], done, fr, by simpa using hh, .nil⟩, .inr ⟨rfl, q1⟩, fun _ hr => .inr ?_, fun _ => .inl (hp1 rfl), hp2,
      fun _ hr _ => .inl ?_⟩
    all_goals
      unfold mu
      rw [lt5_iff]
      left
      simp only
      omega
  | true =>
    have hp := k4 rfl
    obtain ⟨f1, c1, o1, code, u1, u2⟩ := unfreeze_spec hh.work hp hpm (room - w.length)
    have hl1 := u2.len
    rcases u2.cases with ⟨rfl, v1, v2⟩ | ⟨rfl, v1, ⟨m, v2, v3⟩, v4⟩
    · have hh1 : Pushing g c1 (out ++ w ++ o1) ops taken (done ++ fr) [] := by
        refine ⟨v1, ?_, h.only, ?_, ?_, ?_⟩
        · rw [u2.asm, List.append_nil]; exact hh.run
        · rw [u2.asm]; exact hh.inv
        · intro hf
          rw [u2.asm] at hf
          obtain ⟨x, y, z⟩ := hh.fresh hf
          rw [(v2 y).1]
          exact ⟨by rw [x, y]; rfl, rfl, z⟩
        · rw [u2.asm]; exact hh.calm
      obtain ⟨f2, c2, n, o2, code, l1, l2⟩ := loop_spec hpm (inp.length + 2) hh1 u2.prog inp (by omega)
        (room - w.length - o1.length)
      have hl2 := l2.len
      refine ⟨max f1 f2, c2, n, w ++ o1 ++ o2, code, fun fuel hf => ?_, l2.le, ?_, ?_, ?_, fun hne _ => .inl (l2.some_ hne), ?_, ?_, ?_⟩
      · rw [Comp.encode, k1]
        simp only [u1 fuel (by omega), if_true, l1 fuel (by omega), Option.map_some]
      · simp only [List.length_append]; omega
      · rcases l2.cases with ⟨-, -, a, b, q, q'⟩ | ⟨-, -, a, b, d, -, q, q'⟩
        · exact ⟨a, b, [], by simpa using q, u2.asm ▸ q'⟩
        · exact ⟨a, b, d, by simpa using q, u2.asm ▸ q'⟩
      · rcases l2.cases with ⟨a, b, -⟩ | ⟨a, b, -⟩
        · exact .inl ⟨a, b⟩
        · exact .inr ⟨a, by simp only [List.length_append]; omega⟩
      · intro hc
        rcases l2.cases with ⟨a, -⟩ | ⟨-, -, a1, a2, d, hd, q, -⟩
        · rw [a] at hc; cases hc
        · right
          rw [q.work.frozen]
          simpa using hd
      · intro a b hn
        simp only [List.append_eq_nil_iff] at hn
        exact hp2 a b hn.1.1
      · rintro rfl - hc
        right
        have h2 : 2 ≤ c.asm.ring.length := by rw [h.work.len]; have := g.ring_ge; omega
        obtain ⟨s, m, cs, r, e1, st⟩ := RawCmd.streamed h.inv h2 [] (room := slots) (by decide)
        have hr : r = .needsInput := by
          rcases st.asks with ⟨a, -⟩ | ⟨-, a, -⟩
          · exact a
          · simp at a
        have hl := l1 f2 (Nat.le_refl _)
        rw [Comp.loop, u2.asm, e1] at hl
        subst hr
        by_cases hcs : cs = []
        · exfalso
          subst hcs
          simp only at hl
          rw [if_neg (by simp), if_pos (by simp)] at hl
          simp only [Option.some.injEq, Prod.mk.injEq] at hl
          rw [← hl.2.2.2] at hc
          cases hc
        · refine ⟨s, m, cs, .needsInput, e1, hcs, ?_⟩
          simp only at hl
          rw [if_neg (by simp), if_neg (by simp [hcs])] at hl
          cases hm : c1.eng.commands g.o g.dw f2 (cs.map item) (room - w.length - o1.length) with
          | none => rw [hm] at hl; cases hl
          | some x =>
            obtain ⟨x1, x2, x3, x4⟩ := x
            rw [hm] at hl
            simp only at hl
            by_cases hx : x4 = .needsInput ∨ x4 = .success
            · rw [if_pos hx] at hl
              by_cases hy : x3 ≠ cs.length
              · rw [if_pos hy] at hl; cases hl
              · rw [if_neg hy] at hl
                simp only [if_true, Option.some.injEq, Prod.mk.injEq] at hl
                rw [← hl.1]
            · rw [if_neg hx] at hl
              simp only [Option.some.injEq, Prod.mk.injEq] at hl
              rw [← hl.1]
    · refine ⟨f1, c1, 0, w ++ o1, .needsOutput, fun fuel hf => ?_, by omega, ?_, ⟨[], done ++ fr.take m, fr.drop m, ?_, ?_⟩,
        .inr ⟨rfl, ?_⟩, fun _ _ => .inr ?_, fun _ => .inr ?_, ?_, fun _ _ _ => .inl ?_⟩
      · rw [Comp.encode, k1]
        simp only [u1 fuel hf]
        simp
      · simp only [List.length_append]; omega
      · rw [List.append_nil]
        refine ⟨by simpa using v3, ?_, h.only, ?_, ?_, ?_⟩
        · rw [u2.asm, List.append_assoc, List.take_append_drop]; simpa using hh.run
        · rw [u2.asm]; exact hh.inv
        · intro hf
          rw [u2.asm] at hf
          obtain ⟨x, y, z⟩ := hh.fresh hf
          rw [y] at v2; simp at v2
        · rw [u2.asm]; exact hh.calm
      · rw [u2.asm]; exact .nil
      · simp only [List.length_append]; omega
      · exact mu_header k8 hp v4 rfl fun hq => (k10 hq).1
      · rw [v3.frozen]
        intro hn
        have := congrArg List.length hn
        rw [List.length_map, List.length_drop, List.length_nil] at this
        omega
      · intro a b hn
        simp only [List.append_eq_nil_iff] at hn
        exact hp2 a b hn.1
      · exact mu_header k8 hp v4 rfl fun hq => (k10 hq).1

end Divans.Compressor

namespace Divans.RawCmd

theorem flushTail_end {s s' : St} {cs cs' : List Cmd} {room : Nat}
    (e : flushTail s cs room = some (s', cs', .success)) : s'.dec = s'.out := by
  unfold flushTail at e
  split at e
  · cases e; assumption
  · split at e
    · cases e
    · split at e
      · cases e
      · split at e
        · cases e
        · split at e
          · cases e; rfl
          · cases e

theorem flushWrap_end {s s' : St} {cs cs' : List Cmd} {room : Nat}
    (e : flushWrap s cs room = some (s', cs', .success)) : s'.dec = s'.out := by
  unfold flushWrap at e
  split at e
  · split at e
    · cases e
    · simp only at e
      split at e
      · split at e
        · cases e
        · split at e
          · cases e
          · exact flushTail_end e
      · exact flushTail_end e
  · exact flushTail_end e

/-- A second flush has nothing to do. -/
theorem flush_twice {s s' : St} {cs : List Cmd} {room : Nat} (e : flush s room = some (s', cs, .success)) :
    flush s' room = some (s', [], .success) ∧ s'.hdr = true := by
  have hs := flush_shape e
  have key : s'.dec = s'.out ∧ room ≠ 0 ∧ s'.hdr = true := by
    unfold flush at e
    by_cases hr : room = 0
    · rw [if_pos hr] at e; cases e
    · rw [if_neg hr] at e
      by_cases hh : s.hdr = false
      · rw [if_pos hh] at e
        split at e
        · cases e
        · exact ⟨flushWrap_end e, hr, (flushWrap_shape e).1⟩
      · rw [if_neg hh] at e
        refine ⟨flushWrap_end e, hr, ?_⟩
        rw [(flushWrap_shape e).1]
        simpa using hh
  obtain ⟨h1, h2, h3⟩ := key
  refine ⟨?_, h3⟩
  unfold flush
  rw [if_neg h2, if_neg (by rw [h3]; decide)]
  unfold flushWrap
  rw [if_neg (by omega)]
  unfold flushTail
  rw [if_pos h1]

end Divans.RawCmd

namespace Divans.Compressor
open Divans.Adaptive Divans.Pipe Divans.Frame Divans.Eng

/-! ## Flush -/

/-- Flushing, before the end marker: `all` are the commands the file will have. -/
structure Before (g : Cfg) (c : Comp) (out : List UInt8) (done fr last : List RawCmd.Cmd) : Prop where
  work : Work g c out done fr
  inv : RawCmd.Inv c.asm
  fresh : Fresh c done fr
  last : ∃ s, RawCmd.flush c.asm slots = some (s, last, .success)

/-- Flushing, after the end marker. -/
structure After (g : Cfg) (c : Comp) (out : List UInt8) (all : List RawCmd.Cmd) : Prop where
  eng : EngEnd g c.eng out (all.map item)
  frozen : c.frozen = []
  last : RawCmd.flush c.asm slots = some (c.asm, [], .success)

/-- Flushing. -/
def Closing (g : Cfg) (c : Comp) (out : List UInt8) (all : List RawCmd.Cmd) : Prop :=
  (∃ done fr last, Before g c out done fr last ∧ all = done ++ fr ++ last) ∨ After g c out all

/-- How many commands the assembler still has to give. -/
def asmLeft (s : RawCmd.St) : Nat := ((RawCmd.flush s slots).map fun x => x.2.1.length).getD 0

/-- Progress of flushing. -/
def rank (c : Comp) : Nat × Nat × Nat × Nat × Nat × Nat × Nat :=
  match c.eng.ending with
  | none => (1, asmLeft c.asm, mu c)
  | some r => (0, r.length, if r = [] then c.eng.cmp.left else c.eng.pending, 0, 0, 0, 0)

/-- Its order. -/
def lt7 : Nat × Nat × Nat × Nat × Nat × Nat × Nat → Nat × Nat × Nat × Nat × Nat × Nat × Nat → Prop :=
  Prod.Lex (· < ·) (Prod.Lex (· < ·) lt5)

theorem lt7_wf : WellFounded lt7 := WellFounded.prod_lex Nat.lt_wfRel.wf (WellFounded.prod_lex Nat.lt_wfRel.wf lt5_wf)

theorem lt7_iff {a b x y : Nat} {t u : Nat × Nat × Nat × Nat × Nat} :
    lt7 (a, b, t) (x, y, u) ↔ a < x ∨ a = x ∧ (b < y ∨ b = y ∧ lt5 t u) := by
  simp only [lt7, Prod.lex_def]

theorem rank_end {c c' : Comp} (h : c'.eng.lessEnd c.eng) : lt7 (rank c') (rank c) := by
  rcases h with ⟨r, r', n1, n2, h1, h2, h3⟩ | ⟨r, n1, h1, h2⟩ | ⟨h1, h2, h3⟩
  · simp only [rank, h1, h2, if_neg n1, if_neg n2]
    rw [lt7_iff, lt5_iff]
    rcases h3 with h3 | ⟨rfl, h3⟩
    · omega
    · right; exact ⟨rfl, .inr ⟨rfl, .inl h3⟩⟩
  · simp only [rank, h1, h2]
    rw [lt7_iff]
    have := List.length_pos_iff.2 n1
    right; exact ⟨rfl, .inl (by simpa using this)⟩
  · simp only [rank, h1, h2, if_true]
    rw [lt7_iff, lt5_iff]
    right; exact ⟨rfl, .inr ⟨rfl, .inl h3⟩⟩

/-- The first flush writes the end marker. -/
theorem rank_marker {c c' : Comp} (h : c.eng.ending = none) {r : List Micro} (h' : c'.eng.ending = some r) :
    lt7 (rank c') (rank c) := by
  simp only [rank, h, h']
  rw [lt7_iff]
  left; omega

theorem rank_mu {c c' : Comp} (h : c.eng.ending = none) (h' : c'.eng.ending = none)
    (hm : asmLeft c'.asm < asmLeft c.asm ∨ asmLeft c'.asm = asmLeft c.asm ∧ lt5 (mu c') (mu c)) :
    lt7 (rank c') (rank c) := by
  simp only [rank, h, h']
  rw [lt7_iff]
  right
  exact ⟨rfl, hm⟩

/-- What the loop of `flush` does. -/
structure Rested (g : Cfg) (c : Comp) (out : List UInt8) (done last : List RawCmd.Cmd) (room : Nat) (c' : Comp)
    (o : List UInt8) (code : Code) : Prop where
  prog : c'.eng.cmp.progress = 16
  len : o.length ≤ room
  quiet : RawCmd.flush c'.asm slots = some (c'.asm, [], .success)
  hdr : c'.asm.hdr = true
  inv : RawCmd.Inv c'.asm
  same : last = [] → c'.eng = c.eng ∧ c'.frozen = c.frozen ∧ o = []
  cases : code = .success ∧ Work g c' (out ++ o) (done ++ last) [] ∨
    code = .needsOutput ∧ o.length = room ∧ last ≠ [] ∧ ∃ n, Work g c' (out ++ o) (done ++ last.take n) (last.drop n)

theorem rest_spec {g : Cfg} (hpm : (Item.pm rawPm).Valid g.o g.dw g.ring) {c : Comp} {out : List UInt8}
    {done last : List RawCmd.Cmd} (h : Before g c out done [] last) (hp : c.eng.cmp.progress = 16) (k room : Nat) :
    ∃ f0 c' o code, (∀ fuel, f0 ≤ fuel → c.rest g.o g.dw fuel (k + 1) room = some (c', o, code)) ∧
      Rested g c out done last room c' o code := by
  obtain ⟨s, hs⟩ := h.last
  obtain ⟨l1, l2⟩ := RawCmd.flush_lies hs
  obtain ⟨t1, t2⟩ := RawCmd.flush_twice hs
  have hinv : RawCmd.Inv s := by
    obtain ⟨s2, cs2, r2, e2, i2, -⟩ := RawCmd.flush_spec h.inv slots
    rw [hs] at e2; cases e2; exact i2
  have hlen : s.ring.length = g.ring := by rw [l1]; exact h.work.len
  have hsh := RawCmd.flush_shape hs
  by_cases hl : last = []
  · subst hl
    refine ⟨0, { c with asm := s }, [], .success, fun fuel _ => ?_, hp, by simp, t1, t2, hinv, fun _ => ⟨rfl, rfl, rfl⟩, .inl ⟨rfl, ?_⟩⟩
    · rw [Comp.rest, hs]
      simp
    · obtain ⟨a1, a2, a3, a4, a5, a6⟩ := h.work
      exact ⟨a1, hlen, by simp, a4, by simpa using a5, a6⟩
  · have hpf : RawCmd.Cmd.pm ∉ last ∨ (∃ t, last = .pm :: t ∧ RawCmd.Cmd.pm ∉ t) ∧ done = [] ∧ c.eng.cur = none ∧
        c.eng.enc false = .init := by
      rcases hsh with ⟨-, h1⟩ | ⟨h1, -, h2⟩
      · exact .inl h1
      · obtain ⟨a, -, b⟩ := h.fresh h1
        exact .inr ⟨h2, a, no_cur h.work, b⟩
    obtain ⟨f0, e, o, m, code, k1, k2⟩ := send_spec (s := s) (cs := last) h.work.eng hp hpm hl hlen l2
      (fun y r hy => by rw [no_cur h.work] at hy; cases hy) hpf room
    have hfz : c.frozen = [] := h.work.frozen
    rcases k2.cases with ⟨rfl, h1, h3⟩ | ⟨rfl, h1, h3, h4, -⟩
    · refine ⟨f0, ⟨e, s, []⟩, o, .success, fun fuel hf => ?_, k2.prog, k2.len, t1, t2, hinv, fun hh => absurd hh hl, .inl ⟨rfl, h3⟩⟩
      rw [Comp.rest, hs]
      simp only [hl, and_false, if_false, k1 fuel hf, h1, ne_eq, not_true_eq_false, true_or, if_true, hfz]
    · refine ⟨f0, ⟨e, s, (last.drop m).map freeze⟩, o, .needsOutput, fun fuel hf => ?_, k2.prog, k2.len, t1, t2, hinv,
        fun hh => absurd hh hl, .inr ⟨rfl, h1, hl, m, h4⟩⟩
      rw [Comp.rest, hs]
      simp only [hl, and_false, if_false, k1 fuel hf]
      simp

/-- What a call of `flush` does. -/
structure Closed (g : Cfg) (c : Comp) (out : List UInt8) (all : List RawCmd.Cmd) (room : Nat) (c' : Comp)
    (o : List UInt8) (code : Code) : Prop where
  len : o.length ≤ room
  ok : Closing g c' (out ++ o) all
  cases : code = .success ∧ After g c' (out ++ o) all ∧ c'.eng.ending = some [] ∧ c'.eng.cmp.stage = .done ∨
    code = .needsOutput ∧ o.length = room ∧ (0 < room → lt7 (rank c') (rank c))
  again : code = .success → o ≠ [] → lt7 (rank c') (rank c)

theorem asmLeft_of {s s' : RawCmd.St} {cs : List RawCmd.Cmd} {r : RawCmd.Res}
    (h : RawCmd.flush s slots = some (s', cs, r)) : asmLeft s = cs.length := by
  rw [asmLeft, h]; rfl

theorem flush_after {g : Cfg} {c : Comp} {out : List UInt8} {all : List RawCmd.Cmd} (h : After g c out all)
    (room : Nat) :
    ∃ c' o code, (∀ fuel, c.flush g.o g.dw fuel room = some (c', o, code)) ∧ Closed g c out all room c' o code := by
  obtain ⟨e, o, code, k1, k2, k3⟩ := flush_again h.eng room
  have ha : After g { c with eng := e } (out ++ o) all := ⟨k2.end_, h.frozen, h.last⟩
  refine ⟨{ c with eng := e }, o, code, fun fuel => ?_, k2.len, .inr ha, ?_, fun _ ho => rank_end (k3 ho)⟩
  · rw [Comp.flush, header_noop h.eng.prog]
    simp only [Comp.unfreeze, h.frozen, if_true, Comp.rest, h.last, and_self, List.length_nil, Nat.sub_zero, k1,
      Option.map_some, List.nil_append]
  · rcases k2.code with ⟨rfl, q1, q2⟩ | ⟨rfl, q1⟩
    · exact .inl ⟨rfl, ha, q1, q2⟩
    · refine .inr ⟨rfl, q1, fun hr => rank_end (k3 fun h0 => ?_)⟩
      rw [h0, List.length_nil] at q1
      omega

theorem flush_before {g : Cfg} (hpm : (Item.pm rawPm).Valid g.o g.dw g.ring) {c : Comp} {out : List UInt8}
    {done fr last : List RawCmd.Cmd} (h : Before g c out done fr last) (room : Nat) :
    ∃ f0 c' o code, (∀ fuel, f0 ≤ fuel → c.flush g.o g.dw fuel room = some (c', o, code)) ∧
      Closed g c out (done ++ fr ++ last) room c' o code := by
  obtain ⟨e, w, ok, k1, k2, k3, k4, k5, k6, k7, k8, k9, k10⟩ := header_ok h.work.eng room
  have hend : c.eng.ending = none := h.work.eng.mid.ending
  have hh : Before g { c with eng := e } (out ++ w) done fr last := by
    obtain ⟨⟨a1, a2, a3, a4, a5, a6⟩, i, f, l⟩ := h
    exact ⟨⟨a1, a2, a3, a4, k2, fun y r hy => a6 y r (k6 ▸ hy)⟩, i, fun hh => by
      obtain ⟨x, y, z⟩ := f hh; exact ⟨x, y, by rw [← z]; exact congrFun k7 false⟩, l⟩
  obtain ⟨s, hs⟩ := h.last
  have hal := asmLeft_of hs
  cases ok with
  | false =>
    obtain ⟨q1, q2⟩ := k5 rfl
    refine ⟨0, { c with eng := e }, w, .needsOutput, fun fuel _ => by rw [Comp.flush, k1], k3,
      .inl ⟨done, fr, last, hh, rfl⟩, .inr ⟨rfl, q1, fun hr => rank_mu hend k2.mid.ending (.inr ⟨rfl, ?_⟩)⟩, fun h => by cases h⟩
    unfold mu
    rw [lt5_iff]
    left
    simp only
    omega
  | true =>
    have hp := k4 rfl
    obtain ⟨f1, c1, o1, code, u1, u2⟩ := unfreeze_spec hh.work hp hpm (room - w.length)
    have hl1 := u2.len
    have hmu : ∀ {c2 : Comp}, lt5 (mu c2) (mu { c with eng := e }) → lt5 (mu c2) (mu c) := fun hlt =>
      mu_header k8 hp hlt rfl fun hq => (k10 hq).1
    rcases u2.cases with ⟨rfl, v1, v2⟩ | ⟨rfl, v1, ⟨m, v2, v3⟩, v4⟩
    · have hb1 : Before g c1 (out ++ w ++ o1) (done ++ fr) [] last := by
        refine ⟨v1, by rw [u2.asm]; exact h.inv, ?_, ⟨s, by rw [u2.asm]; exact hs⟩⟩
        intro hf
        rw [u2.asm] at hf
        obtain ⟨x, y, z⟩ := hh.fresh hf
        rw [(v2 y).1]
        exact ⟨by rw [x, y]; rfl, rfl, z⟩
      obtain ⟨f2, c2, o2, code, r1, r2⟩ := rest_spec hpm hb1 u2.prog 1 (room - w.length - o1.length)
      have hl2 := r2.len
      have hal2 := asmLeft_of r2.quiet
      have fresh2 : ∀ d f, Fresh c2 d f := fun d f hf => by rw [r2.hdr] at hf; cases hf
      rcases r2.cases with ⟨rfl, w1⟩ | ⟨rfl, w1, w2, m, w3⟩
      · obtain ⟨e3, o3, code, z1, z2⟩ := flush_first w1.eng (no_cur w1) r2.prog (room - w.length - o1.length - o2.length)
        have hfz : c2.frozen = [] := w1.frozen
        refine ⟨max f1 f2, { c2 with eng := e3 }, w ++ o1 ++ o2 ++ o3, code, fun fuel hf => ?_, ?_⟩
        · rw [Comp.flush, k1]
          simp only [u1 fuel (by omega), if_true, r1 fuel (by omega), z1, Option.map_some]
        · have hout : out ++ (w ++ o1 ++ o2 ++ o3) = out ++ w ++ o1 ++ o2 ++ o3 := by simp
          rcases z2 with z2 | ⟨rfl, q1, q2, q3, q4, q5⟩
          · have hl3 := z2.len
            have ha : After g { c2 with eng := e3 } (out ++ (w ++ o1 ++ o2 ++ o3)) (done ++ fr ++ last) := by
              rw [hout]
              exact ⟨z2.end_, hfz, r2.quiet⟩
            have hmark : lt7 (rank { c2 with eng := e3 }) (rank c) := by
              obtain ⟨_, _, _, hc⟩ := z2.end_.tr
              rcases hc with ⟨r, -, hr, -⟩ | ⟨hr, -⟩
              · exact rank_marker hend hr
              · exact rank_marker hend hr
            refine ⟨by simp only [List.length_append]; omega, .inr ha, ?_, fun _ _ => hmark⟩
            rcases z2.code with ⟨rfl, y1, y2⟩ | ⟨rfl, y1⟩
            · exact .inl ⟨rfl, ha, y1, y2⟩
            · exact .inr ⟨rfl, by simp only [List.length_append]; omega, fun _ => hmark⟩
          · refine ⟨by simp only [List.length_append]; omega, .inl ⟨done ++ fr ++ last, [], [], ⟨?_, r2.inv, ?_, ⟨_, r2.quiet⟩⟩, by simp⟩,
              .inr ⟨rfl, by simp only [List.length_append]; omega, fun _ => rank_mu hend q2.mid.ending ?_⟩, fun h => by cases h⟩
            · rw [hout]
              obtain ⟨a1, a2, a3, a4, a5, a6⟩ := w1
              exact ⟨a1, a2, a3, a4, q2, fun y r hy => by
                have : e3.cur = some (y, r) := hy
                rw [q3] at this; cases this⟩
            · intro hf
              have : c2.asm.hdr = false := hf
              rw [r2.hdr] at this; cases this
            · by_cases hla : last = []
              · right
                obtain ⟨s1, s2, s3⟩ := r2.same hla
                refine ⟨by rw [hal, hal2, hla], hmu ?_⟩
                unfold mu
                rw [lt5_iff]
                right
                refine ⟨by rw [q4, hp], ?_⟩
                by_cases hfr : fr = []
                · obtain ⟨rfl, rfl⟩ := v2 hfr
                  right
                  refine ⟨by rw [s2], less_mu (.inl ⟨?_, q3, by rw [← s1]; exact q5⟩)⟩
                  rw [← s1]; exact no_cur w1
                · left
                  simp only [hfz, List.length_nil]
                  rw [h.work.frozen, List.length_map]
                  exact List.length_pos_iff.2 hfr
              · left
                rw [hal, hal2]
                exact List.length_pos_iff.2 hla
      · refine ⟨max f1 f2, c2, w ++ o1 ++ o2, .needsOutput, fun fuel hf => ?_, by simp only [List.length_append]; omega,
          .inl ⟨done ++ fr ++ last.take m, last.drop m, [], ⟨by simpa using w3, r2.inv, fresh2 _ _, ⟨_, r2.quiet⟩⟩, ?_⟩,
          .inr ⟨rfl, by simp only [List.length_append]; omega, fun _ => rank_mu hend w3.eng.mid.ending (.inl ?_)⟩, fun h => by cases h⟩
        · rw [Comp.flush, k1]
          simp only [u1 fuel (by omega), if_true, r1 fuel (by omega)]
          simp
        · rw [List.append_nil, List.append_assoc _ (last.take m), List.take_append_drop]
        · rw [hal, hal2]
          exact List.length_pos_iff.2 w2
    · refine ⟨f1, c1, w ++ o1, .needsOutput, fun fuel hf => ?_, by simp only [List.length_append]; omega,
        .inl ⟨done ++ fr.take m, fr.drop m, last, ⟨by simpa using v3, by rw [u2.asm]; exact h.inv, ?_,
          ⟨s, by rw [u2.asm]; exact hs⟩⟩, ?_⟩,
        .inr ⟨rfl, by simp only [List.length_append]; omega, fun _ => rank_mu hend v3.eng.mid.ending (.inr ⟨?_, hmu v4⟩)⟩, fun h => by cases h⟩
      · rw [Comp.flush, k1]
        simp only [u1 fuel hf]
        simp
      · intro hf
        rw [u2.asm] at hf
        obtain ⟨x, y, z⟩ := hh.fresh hf
        rw [y] at v2; simp at v2
      · rw [List.append_assoc done (fr.take m), List.take_append_drop]
      · rw [u2.asm]

theorem flush_spec {g : Cfg} (hpm : (Item.pm rawPm).Valid g.o g.dw g.ring) {c : Comp} {out : List UInt8}
    {all : List RawCmd.Cmd} (h : Closing g c out all) (room : Nat) :
    ∃ f0 c' o code, (∀ fuel, f0 ≤ fuel → c.flush g.o g.dw fuel room = some (c', o, code)) ∧
      Closed g c out all room c' o code := by
  rcases h with ⟨done, fr, last, hb, rfl⟩ | ha
  · exact flush_before hpm hb room
  · obtain ⟨c', o, code, h1, h2⟩ := flush_after ha room
    exact ⟨0, c', o, code, fun fuel _ => h1 fuel, h2⟩

end Divans.Compressor
