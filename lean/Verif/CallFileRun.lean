import Verif.CallFile
import Verif.CallProps

/-!
# The calls of `decode`, on any bytes, are runs of the decompressor of `Verif.File` (continued)

The parts of a call one after the other, a call, and a sequence of calls.
-/

namespace Divans.Call
open Divans.Adaptive Divans.Pipe Divans.File

variable {dw : Nat → Nat → Nat → List UInt8} {skip : Bool}

/-! ## Input -/

theorem body_input_nil (b : File.Body) : b.input skip [] = some (b, []) := by
  unfold Body.input
  have : Mux.deserialize b.mux [] = some (b.mux, 0) := rfl
  have hc : Crc.update b.crc [] = b.crc := by
    show b.crc ^^^ 0xffffffff ^^^ 0xffffffff = b.crc
    rw [Nat.xor_assoc, Nat.xor_self, Nat.xor_zero]
  rw [this]
  simp only [List.take_nil, List.drop_nil, List.append_nil, ite_self, hc]

/-- What is taken of the input; of what is left not more than the first byte matters. -/
theorem body_input_take {b b' : File.Body} {pend rest : List UInt8} (e : b.input skip pend = some (b', rest)) :
    ∃ u, rest = pend.drop u ∧ b.input skip (pend.take (u + 1)) = some (b', rest.take 1) := by
  unfold Body.input at e
  cases hd : Mux.deserialize b.mux pend with
  | none => rw [hd] at e; cases e
  | some y =>
    obtain ⟨m, n⟩ := y
    rw [hd] at e
    simp only at e
    by_cases hc : m.sawEof = true ∧ b.sum.length ≠ 8
    · rw [if_pos hc] at e
      simp only [Option.some.injEq, Prod.mk.injEq] at e
      obtain ⟨e1, e2⟩ := e
      generalize hk : min (pend.drop n).length (8 - b.sum.length) = k at e1 e2
      refine ⟨n + k, by rw [← e2, List.drop_drop], ?_⟩
      have h1 := Mux.deserialize_take hd (n + k + 1) (Or.inl (by omega))
      have h2 : (pend.take (n + k + 1)).drop n = (pend.drop n).take (k + 1) := by
        rw [List.drop_take]; congr 1; omega
      have h3 : (pend.take (n + k + 1)).take n = pend.take n := by
        rw [List.take_take]; congr 1; omega
      have h4 : min ((pend.drop n).take (k + 1)).length (8 - b.sum.length) = k := by
        rw [List.length_take]; omega
      unfold Body.input
      rw [h1]
      simp only
      rw [if_pos hc, h2, h3, h4, ← e1, ← e2, List.take_take, Nat.min_eq_left (by omega), List.drop_take]
      congr 3
      omega
    · rw [if_neg hc] at e
      simp only [Option.some.injEq, Prod.mk.injEq] at e
      obtain ⟨e1, e2⟩ := e
      refine ⟨n, e2.symm, ?_⟩
      have h1 := Mux.deserialize_take hd (n + 1) (Or.inl (by omega))
      unfold Body.input
      rw [h1]
      simp only
      rw [if_neg hc, List.take_take, Nat.min_eq_left (by omega), ← e1, ← e2, List.drop_take]
      congr 3
      omega

/-- Input only concerns the demultiplexer, the checksum and the trailer. -/
theorem body_input_parts {b b' : File.Body} {q r : List UInt8} (e : b.input skip q = some (b', r)) (c : File.Body)
    (h1 : c.mux = b.mux) (h2 : c.crc = b.crc) (h3 : c.sum = b.sum) :
    b'.rcv = b.rcv ∧ c.input skip q = some ({ c with mux := b'.mux, crc := b'.crc, sum := b'.sum }, r) := by
  unfold Body.input at e ⊢
  rw [h1, h2, h3]
  cases hd : Mux.deserialize b.mux q with
  | none => rw [hd] at e; cases e
  | some y =>
    obtain ⟨m, n⟩ := y
    rw [hd] at e
    simp only at e ⊢
    by_cases hc : m.sawEof = true ∧ b.sum.length ≠ 8
    · rw [if_pos hc] at e ⊢
      cases e
      exact ⟨rfl, rfl⟩
    · rw [if_neg hc] at e ⊢
      cases e
      exact ⟨rfl, rfl⟩

theorem fed_more (q : List UInt8) : fed [.more q, .input] = q := by simp [fed]

/-- The decompressor looks at its input. -/
theorem Sim.input {s s' : St} {b : File.Body} {p pend rest fut : List UInt8} {go : Bool} (h : Sim s b)
    (hp : p.length ≤ 1) (hpp : p <+: pend ++ fut) (e : s.input skip pend = some (s', rest, go)) :
    ∃ acts b' p' x, run dw ⟨skip, .body b, p⟩ acts = .ok (⟨skip, .body b', p'⟩, []) ∧ Sim s' b' ∧ p'.length ≤ 1 ∧
      p' <+: rest ++ fut ∧ pend = x ++ rest ∧ p ++ fed acts = x ++ p' := by
  -- first the input itself
  have key : ∃ y r, s.b.input skip pend = some (y, r) ∧ rest = r ∧
      (s' = { s with b := y } ∨ ({ s with b := y } : St).push = some s') := by
    unfold St.input at e
    cases hi : s.b.input skip pend with
    | none => rw [hi] at e; cases e
    | some z =>
      obtain ⟨y, r⟩ := z
      rw [hi] at e
      simp only at e
      refine ⟨y, r, rfl, ?_⟩
      by_cases hu : y.mux.unread false ≠ []
      · rw [if_pos hu] at e
        cases hps : ({ s with b := y } : St).push with
        | none =>
          rw [hps] at e
          cases e
          exact ⟨rfl, Or.inl rfl⟩
        | some t =>
          rw [hps] at e
          cases e
          exact ⟨rfl, Or.inr rfl⟩
      · rw [if_neg hu] at e
        cases e
        exact ⟨rfl, Or.inl rfl⟩
  obtain ⟨y, r, hi, rfl, hs'⟩ := key
  obtain ⟨m1, m2, m3, -⟩ := h.parts
  have first : ∃ acts b' p' x, run dw ⟨skip, .body b, p⟩ acts = .ok (⟨skip, .body b', p'⟩, []) ∧ Sim { s with b := y } b' ∧
      p'.length ≤ 1 ∧ p' <+: rest ++ fut ∧ pend = x ++ rest ∧ p ++ fed acts = x ++ p' := by
    by_cases hnil : pend = []
    · subst hnil
      rw [body_input_nil] at hi
      cases hi
      exact ⟨[], b, p, [], rfl, h, hp, hpp, rfl, by simp [fed]⟩
    obtain ⟨u, hu, hin⟩ := body_input_take hi
    obtain ⟨hr, hb⟩ := body_input_parts hin b m1 m2 m3
    have hsw := h.swap y.mux y.crc y.sum
    have hsy : ({ s with b := { s.b with mux := y.mux, crc := y.crc, sum := y.sum } } : St) = { s with b := y } := by
      have : y = ⟨y.mux, y.crc, y.sum, y.rcv⟩ := rfl
      rw [this, hr]
    rw [hsy] at hsw
    have hpq : p <+: pend.take (u + 1) := by
      have h1 : pend.take (u + 1) <+: pend ++ fut := (List.take_prefix _ _).trans (List.prefix_append _ _)
      refine List.prefix_of_prefix_length_le hpp h1 ?_
      have := List.length_pos_iff.mpr hnil
      rw [List.length_take]
      omega
    obtain ⟨q, hq⟩ := hpq
    refine ⟨[.more q, .input], _, rest.take 1, pend.take u, ?_, hsw, by rw [List.length_take]; omega,
      (List.take_prefix _ _).trans (List.prefix_append _ _), by rw [hu, List.take_append_drop], ?_⟩
    · simp only [File.run, File.Dec.act, Codec.Res.bind, hq, File.Dec.input, hb, List.append_nil]
    · rw [fed_more, hq, hu, List.take_add]
  obtain ⟨acts, b', p', x, a1, a2, a3, a4, a5, a6⟩ := first
  rcases hs' with rfl | hps
  · exact ⟨acts, b', p', x, a1, a2, a3, a4, a5, a6⟩
  · obtain ⟨b2, hgo, hs2⟩ := a2.push (dw := dw) (skip := skip) hps
    obtain ⟨acts2, r2, f2⟩ := hgo p'
    exact ⟨acts ++ acts2, b2, p', x, run_append _ _ _ _ _ _ _ a1 r2, hs2, a3, a4, a5, by rw [fed_append, f2, List.append_nil]; exact a6⟩

/-! ## Output -/

theorem push_keeps {s t : St} (h : s.push = some t) : t.b.rcv = s.b.rcv ∧ t.result = s.result ∧ t.hold = s.hold ∧ t.sawEnd = s.sawEnd := by
  unfold St.push at h
  by_cases hc : s.data.length < 2 ∧ s.b.mux.unread false ≠ []
  · rw [if_pos hc] at h
    cases h
    exact ⟨rfl, rfl, rfl, rfl⟩
  · rw [if_neg hc] at h; cases h

theorem Sim.refill {s : St} {b : File.Body} (h : Sim s b) (need : Bool) :
    (∃ b', Goes dw skip b b' [] ∧ Sim (s.refill need).1 b') ∧ (s.refill need).1.b.rcv = s.b.rcv ∧
      (s.refill need).1.result = s.result ∧ (s.refill need).1.hold = s.hold ∧ (s.refill need).1.sawEnd = s.sawEnd := by
  unfold St.refill
  cases hp : s.push with
  | none => exact ⟨⟨b, .rfl', h⟩, rfl, rfl, rfl, rfl⟩
  | some t => exact ⟨h.push hp, push_keeps hp⟩

theorem Sim.giveBack : ∀ (ms : List (List UInt8)) {s t : St} {b : File.Body} {need need' : Bool}, Sim s b →
    St.giveBack ms s need = some (t, need') →
    (∃ b', Goes dw skip b b' [] ∧ Sim t b') ∧ t.b.rcv = s.b.rcv ∧ t.result = s.result ∧ t.hold = s.hold ∧ t.sawEnd = s.sawEnd := by
  intro ms
  induction ms with
  | nil =>
    intro s t b need need' h e
    cases e
    exact ⟨⟨b, .rfl', h⟩, rfl, rfl, rfl, rfl⟩
  | cons m ms ih =>
    intro s t b need need' h e
    rw [St.giveBack] at e
    by_cases hl : s.lent = 0
    · rw [if_pos hl] at e; cases e
    rw [if_neg hl] at e
    simp only at e
    have h0 : Sim { s with lent := s.lent - 1 } b := h.congr rfl h.stop h.fin
    obtain ⟨⟨b1, g1, s1⟩, k1, k2, k3, k4⟩ := h0.refill (dw := dw) (skip := skip) need
    obtain ⟨b2, g2, s2⟩ := s1.recycle (dw := dw) (skip := skip) m
    obtain ⟨⟨b3, g3, s3⟩, j1, j2, j3, j4⟩ := ih s2 e
    exact ⟨⟨b3, (g1.trans g2).trans g3, s3⟩, j1.trans k1, j2.trans k2, j3.trans k3, j4.trans k4⟩

theorem Sim.collect {s t : St} {b : File.Body} {need : Bool} (h : Sim s b) (hq : s.b.rcv.queue = [])
    (e : s.collect = some (t, need)) : ∃ b', Goes dw skip b b' [] ∧ Sim t b' := by
  unfold St.collect at e
  rw [Option.map_eq_some_iff] at e
  obtain ⟨⟨u, n⟩, e1, e2⟩ := e
  simp only [Prod.mk.injEq] at e2
  obtain ⟨rfl, rfl⟩ := e2
  have h0 : Sim { s with b := { s.b with rcv := { s.b.rcv with queue := s.result } }, result := [], back := [] } b := by
    refine h.congr ?_ h.stop fun hs => ⟨(h.fin hs).1, rfl⟩
    simp [St.abs, hq]
  obtain ⟨⟨b', g, s1⟩, k1, k2, k3, k4⟩ := h0.giveBack (dw := dw) (skip := skip) _ e1
  refine ⟨b', g, s1.congr rfl s1.stop fun hs => ⟨?_, k2⟩⟩
  simpa using hs

theorem Sim.finish {s s' : St} {b : File.Body} {room : Nat} {o : List UInt8} {a : After} (h : Sim s b)
    (hor : s.b.rcv.at_ ≠ .idle ∨ s.b.rcv.queue ≠ [] ∨ s.result ++ held s.hold = [])
    (e : s.finish dw skip room = .ok (s', o, a)) :
    ∃ b', Goes dw skip b b' o ∧ Sim s' b' ∧ (a = .ret .success → ∀ p, Dec.verdict ⟨skip, .body b', p⟩ = .success) := by
  unfold St.finish at e
  cases hm : s.b.main dw room with
  | fail => rw [hm] at e; cases e
  | panic => rw [hm] at e; cases e
  | ok x =>
    obtain ⟨x, o'⟩ := x
    rw [hm] at e
    simp only [Codec.Res.bind] at e
    obtain ⟨b', g, hs⟩ := h.main (skip := skip) room hor hm
    by_cases hf : x.rcv.at_ ≠ .finished
    · rw [if_pos hf] at e
      cases e
      exact ⟨b', g, hs, fun h => by cases h⟩
    rw [if_neg hf] at e
    by_cases hl : x.sum.length ≠ 8
    · rw [if_pos hl] at e
      cases e
      exact ⟨b', g, hs, fun h => by cases h⟩
    rw [if_neg hl] at e
    by_cases ho : sumOk skip x.crc x.sum = true
    · rw [if_pos ho] at e
      cases e
      refine ⟨b', g, hs, fun _ p => ?_⟩
      obtain ⟨-, m2, m3, m4, -⟩ := hs.parts
      simp only at m2 m3 m4
      simp only [File.Dec.verdict, m2, m3, m4]
      rw [if_neg hf, if_neg hl, if_pos ho]
    · rw [if_neg ho] at e; cases e

theorem Sim.output {s s' : St} {b : File.Body} {room : Nat} {o : List UInt8} {a : After} (h : Sim s b)
    (e : s.output dw skip room = .ok (s', o, a)) :
    ∃ b', Goes dw skip b b' o ∧ Sim s' b' ∧ (a = .ret .success → ∀ p, Dec.verdict ⟨skip, .body b', p⟩ = .success) := by
  unfold St.output at e
  cases hat : s.b.rcv.at_ with
  | content c =>
    rw [hat] at e
    simp only at e
    cases hm : s.b.main dw room with
    | fail => rw [hm] at e; cases e
    | panic => rw [hm] at e; cases e
    | ok x =>
      obtain ⟨x, o'⟩ := x
      rw [hm] at e
      cases e
      obtain ⟨b', g, hs⟩ := h.main (skip := skip) room (Or.inl (by rw [hat]; simp)) hm
      refine ⟨b', g, hs, fun h => ?_⟩
      split at h <;> cases h
  | filling c =>
    rw [hat] at e
    simp only at e
    cases hm : s.b.main dw room with
    | fail => rw [hm] at e; cases e
    | panic => rw [hm] at e; cases e
    | ok x =>
      obtain ⟨x, o'⟩ := x
      rw [hm] at e
      cases e
      obtain ⟨b', g, hs⟩ := h.main (skip := skip) room (Or.inl (by rw [hat]; simp)) hm
      refine ⟨b', g, hs, fun h => ?_⟩
      split at h <;> cases h
  | finished =>
    rw [hat] at e
    exact h.finish (Or.inl (by rw [hat]; simp)) e
  | idle =>
    rw [hat] at e
    simp only at e
    cases hq : s.b.rcv.queue with
    | cons g gs =>
      rw [hq] at e
      simp only at e
      cases hm : s.b.main dw room with
      | fail => rw [hm] at e; cases e
      | panic => rw [hm] at e; cases e
      | ok x =>
        obtain ⟨x, o'⟩ := x
        rw [hm] at e
        obtain ⟨b', gg, hs⟩ := h.main (skip := skip) room (Or.inr (Or.inl (by rw [hq]; simp))) hm
        cases g with
        | pm p =>
          simp only [Codec.Res.bind] at e
          by_cases h2 : s.maps = 2
          · rw [if_pos h2] at e; cases e
          · rw [if_neg h2] at e
            cases e
            exact ⟨b', gg, hs.congr rfl hs.stop hs.fin, fun h => by cases h⟩
        | lit n t => cases e; exact ⟨b', gg, hs, fun h => by cases h⟩
        | copy d n => cases e; exact ⟨b', gg, hs, fun h => by cases h⟩
        | dict z i t => cases e; exact ⟨b', gg, hs, fun h => by cases h⟩
        | bswitch k t st => cases e; exact ⟨b', gg, hs, fun h => by cases h⟩
    | nil =>
      rw [hq] at e
      simp only at e
      by_cases hse : s.sawEnd = true
      · rw [if_pos hse] at e
        obtain ⟨f1, f2⟩ := h.fin hse
        exact h.finish (Or.inr (Or.inr (by rw [f2, h.stop f1]; rfl))) e
      · rw [if_neg hse] at e
        cases hc : s.collect with
        | none => rw [hc] at e; cases e
        | some y =>
          obtain ⟨t, need⟩ := y
          rw [hc] at e
          cases e
          obtain ⟨b', g, hs⟩ := h.collect (dw := dw) (skip := skip) hq hc
          refine ⟨b', g, hs, fun h => ?_⟩
          split at h
          · cases h
          · split at h <;> cases h

/-! ## A call -/

/-- A stretch of a call or of a sequence of calls, from a file-level decompressor `d` with at most one byte offered
and not taken: there is a run that gives out the same bytes and takes the same bytes `x`. -/
structure Tracks (dw : Nat → Nat → Nat → List UInt8) (d d' : File.Dec) (x out : List UInt8) : Prop where
  go : ∃ acts, run dw d acts = .ok (d', out) ∧ d.pending ++ fed acts = x ++ d'.pending

theorem Tracks.trans {d d1 d2 : File.Dec} {x y o o' : List UInt8} (h : Tracks dw d d1 x o) (g : Tracks dw d1 d2 y o') :
    Tracks dw d d2 (x ++ y) (o ++ o') := by
  obtain ⟨a, e, f⟩ := h.go
  obtain ⟨a', e', f'⟩ := g.go
  exact ⟨a ++ a', run_append _ _ _ _ _ _ _ e e', by rw [fed_append, ← List.append_assoc, f, List.append_assoc, f', List.append_assoc]⟩

theorem Goes.tracks {b b' : File.Body} {o : List UInt8} (h : Goes dw skip b b' o) (p : List UInt8) :
    Tracks dw ⟨skip, .body b, p⟩ ⟨skip, .body b', p⟩ [] o := by
  obtain ⟨a, e, f⟩ := h p
  exact ⟨a, e, by rw [f, List.append_nil]; rfl⟩

theorem tick_sim {c c' : Conf} {r : Option Ret} {b : File.Body} {p fut : List UInt8} (h : Sim c.s b) (hp : p.length ≤ 1)
    (hpp : p <+: c.pend ++ fut) (e : c.tick dw skip = .ok (c', r)) :
    ∃ b' p' x o, Tracks dw ⟨skip, .body b, p⟩ ⟨skip, .body b', p'⟩ x o ∧ Sim c'.s b' ∧ p'.length ≤ 1 ∧
      p' <+: c'.pend ++ fut ∧ c.pend = x ++ c'.pend ∧ c'.out = c.out ++ o ∧
      (r = some .success → Dec.verdict ⟨skip, .body b', p'⟩ = .success) := by
  unfold Conf.tick at e
  cases hph : c.ph with
  | input =>
    rw [hph] at e
    simp only at e
    cases hi : c.s.input skip c.pend with
    | none => rw [hi] at e; cases e
    | some y =>
      obtain ⟨s, rest, go⟩ := y
      rw [hi] at e
      simp only [Codec.Res.ok.injEq, Prod.mk.injEq] at e
      obtain ⟨e1, e2⟩ := e
      obtain ⟨acts, b', p', x, a1, a2, a3, a4, a5, a6⟩ := h.input (dw := dw) hp hpp hi
      subst e1
      refine ⟨b', p', x, [], ⟨acts, a1, a6⟩, a2, a3, a4, a5, by simp, fun hr => ?_⟩
      rw [← e2] at hr
      split at hr <;> cases hr
  | work =>
    rw [hph] at e
    simp only at e
    cases hi : c.s.work with
    | fail => rw [hi] at e; cases e
    | panic => rw [hi] at e; cases e
    | ok y =>
      obtain ⟨s, pz⟩ := y
      rw [hi] at e
      simp only [Codec.Res.bind] at e
      obtain ⟨b', g, hs⟩ := h.work (dw := dw) (skip := skip) hi
      refine ⟨b', p, [], [], g.tracks p, ?_⟩
      cases pz with
      | none => cases e; exact ⟨hs, hp, hpp, rfl, by simp, fun h => by cases h⟩
      | some pz =>
        cases pz with
        | needsInput =>
          cases e
          refine ⟨hs, hp, hpp, rfl, by simp, fun h => ?_⟩
          split at h <;> cases h
        | needsOutput => cases e; exact ⟨hs, hp, hpp, rfl, by simp, fun h => by cases h⟩
        | success => cases e; exact ⟨hs, hp, hpp, rfl, by simp, fun h => by cases h⟩
  | output =>
    rw [hph] at e
    simp only at e
    cases hi : c.s.output dw skip c.room with
    | fail => rw [hi] at e; cases e
    | panic => rw [hi] at e; cases e
    | ok y =>
      obtain ⟨s, o, a⟩ := y
      rw [hi] at e
      simp only [Codec.Res.bind] at e
      obtain ⟨b', g, hs, hv⟩ := h.output hi
      refine ⟨b', p, [], o, g.tracks p, ?_⟩
      cases a with
      | go => cases e; exact ⟨hs, hp, hpp, rfl, rfl, fun h => by cases h⟩
      | yield => cases e; exact ⟨hs, hp, hpp, rfl, rfl, fun h => by cases h⟩
      | ret r' =>
        cases e
        refine ⟨hs, hp, hpp, rfl, rfl, fun h => hv ?_ p⟩
        cases h
        rfl

theorem loop_sim : ∀ (fuel : Nat) {c c' : Conf} {r : Ret} {b : File.Body} {p fut : List UInt8}, Sim c.s b → p.length ≤ 1 →
    p <+: c.pend ++ fut → loop dw skip fuel c = some (.ok (c', r)) →
    ∃ b' p' x o, Tracks dw ⟨skip, .body b, p⟩ ⟨skip, .body b', p'⟩ x o ∧ Sim c'.s b' ∧ p'.length ≤ 1 ∧
      p' <+: c'.pend ++ fut ∧ c.pend = x ++ c'.pend ∧ c'.out = c.out ++ o ∧
      (r = .success → Dec.verdict ⟨skip, .body b', p'⟩ = .success) := by
  intro fuel
  induction fuel with
  | zero => intro c c' r b p fut _ _ _ e; cases e
  | succ k ih =>
    intro c c' r b p fut h hp hpp e
    rw [loop] at e
    cases ht : c.tick dw skip with
    | fail => rw [ht] at e; cases e
    | panic => rw [ht] at e; cases e
    | ok y =>
      obtain ⟨c1, r1⟩ := y
      rw [ht] at e
      obtain ⟨b1, p1, x1, o1, t1, s1, l1, q1, d1, u1, v1⟩ := tick_sim h hp hpp ht
      cases r1 with
      | some r1 =>
        simp only [Option.some.injEq, Codec.Res.ok.injEq, Prod.mk.injEq] at e
        obtain ⟨rfl, rfl⟩ := e
        exact ⟨b1, p1, x1, o1, t1, s1, l1, q1, d1, u1, fun h => v1 (by rw [h])⟩
      | none =>
        simp only at e
        obtain ⟨b2, p2, x2, o2, t2, s2, l2, q2, d2, u2, v2⟩ := ih s1 l1 q1 e
        exact ⟨b2, p2, x1 ++ x2, o1 ++ o2, t1.trans t2, s2, l2, q2, by rw [d1, d2, List.append_assoc],
          by rw [u2, u1, List.append_assoc], v2⟩

/-- A decompressor of the call-level model and one of `Verif.File` that has been offered at most the first byte of
what comes. -/
def Pair (d : Dec) (f : File.Dec) (fut : List UInt8) : Prop :=
  f.skip = d.skip ∧ f.pending.length ≤ 1 ∧ f.pending <+: fut ∧
    match d.stage, f.stage with
    | .header got, .header got' => got' = got ∧ got.length < 16 ∧ f.pending = []
    | .body s, .body b => Sim s b
    | _, _ => False

theorem process_sim {fuel before room : Nat} {s : St} {inp fut : List UInt8} {r : Reply} {b : File.Body} {p : List UInt8}
    (h : Sim s b) (hp : p.length ≤ 1) (hpp : p <+: inp ++ fut)
    (e : process dw fuel skip s inp before room = some (.ok r)) :
    ∃ f x, Tracks dw ⟨skip, .body b, p⟩ f x r.out ∧ Pair r.dec f (inp.drop x.length ++ fut) ∧ r.used = before + x.length ∧
      x <+: inp ∧ (r.ret = .success → f.verdict = .success) := by
  unfold process at e
  rw [Option.map_eq_some_iff] at e
  obtain ⟨y, e1, e2⟩ := e
  cases y with
  | fail => cases e2
  | panic => cases e2
  | ok y =>
    obtain ⟨c, rt⟩ := y
    cases e2
    obtain ⟨b', p', x, o, t, hs, hl, hq, hd, hu, hv⟩ := loop_sim fuel (c := ⟨s, .input, inp, room, []⟩) h hp hpp e1
    simp only [List.nil_append] at hd hu
    subst hu
    refine ⟨⟨skip, .body b', p'⟩, x, t, ⟨rfl, hl, ?_, hs⟩, ?_, ⟨_, hd.symm⟩, hv⟩
    · rw [hd, List.drop_left]; exact hq
    · rw [hd, List.length_append]
      simp

theorem sim_init (h : List UInt8) (w : Nat) : Sim (St.init skip h w)
    { mux := Mux.Mux.new
      crc := if skip then Crc.init else Crc.update Crc.init h
      sum := []
      rcv := Rcv.init (2 ^ w) } := by
  refine ⟨Or.inl ?_, ?_, ?_, fun _ => rfl, fun h => by cases h⟩
  · simp [St.abs, St.init, held, Rx.push]
  · exact Or.inr (Or.inl rfl)
  · exact Nat.zero_le 1

theorem decode_sim {fuel room : Nat} {d : Dec} {f : File.Dec} {inp fut : List UInt8} {r : Reply}
    (h : Pair d f (inp ++ fut)) (e : d.decode dw fuel inp room = some (.ok r)) :
    ∃ f' x, Tracks dw f f' x r.out ∧ Pair r.dec f' (inp.drop x.length ++ fut) ∧ r.used = x.length ∧ x <+: inp ∧
      (r.ret = .success → f'.verdict = .success) := by
  obtain ⟨skip, stage⟩ := d
  obtain ⟨skip', fstage, p⟩ := f
  obtain ⟨rfl, hl, hpp, hst⟩ := h
  simp only at hl hpp
  unfold Dec.decode at e
  cases stage with
  | body s =>
    cases fstage with
    | header got => exact hst.elim
    | body b =>
      obtain ⟨f, x, h1, h2, h3, h4, h5⟩ := process_sim hst hl hpp e
      exact ⟨f, x, h1, h2, by omega, h4, h5⟩
  | header got =>
    cases fstage with
    | body b => exact hst.elim
    | header got' =>
      obtain ⟨rfl, hlt, hp⟩ := hst
      simp only at hp e
      subst hp
      unfold Frame.headerDecode at e
      simp only at e
      by_cases hin : inp.length ≥ 16 - got'.length
      · rw [if_pos hin] at e
        cases hph : Frame.parseHeader (got' ++ inp.take (16 - got'.length)) with
        | none => rw [hph] at e; cases e
        | some w =>
          rw [hph] at e
          simp only at e
          have hlen : (inp.take (16 - got'.length)).length = 16 - got'.length := by rw [List.length_take]; omega
          have ht : Tracks dw ⟨skip', .header got', []⟩ ⟨skip', .body
              { mux := Mux.Mux.new
                crc := if skip' then Crc.init else Crc.update Crc.init (got' ++ inp.take (16 - got'.length))
                sum := []
                rcv := Rcv.init (2 ^ w) }, []⟩ (inp.take (16 - got'.length)) [] := by
            refine ⟨[.more (inp.take (16 - got'.length)), .input], ?_, by rw [fed_more]; simp⟩
            simp only [File.run, File.Dec.act, Codec.Res.bind, File.Dec.input, List.nil_append, Frame.headerDecode, hlen,
              ge_iff_le, Nat.le_refl, if_true, List.take_take, Nat.min_self, hph, List.append_nil]
            rw [List.drop_of_length_le (by omega)]
          by_cases hlt' : 16 - got'.length < inp.length
          · rw [if_pos hlt'] at e
            obtain ⟨f, x, h1, h2, h3, h4, h5⟩ := process_sim (fut := fut) (p := []) (sim_init _ _) (Nat.zero_le 1) (List.nil_prefix) e
            refine ⟨f, inp.take (16 - got'.length) ++ x, ht.trans h1, ?_, by rw [h3, List.length_append, hlen], ?_, h5⟩
            · rw [List.length_append, hlen, ← List.drop_drop]; exact h2
            · conv_rhs => rw [← List.take_append_drop (16 - got'.length) inp]
              exact List.prefix_append_right_inj _ |>.mpr h4
          · rw [if_neg hlt'] at e
            cases e
            refine ⟨_, inp.take (16 - got'.length), ht, ⟨rfl, Nat.zero_le 1, List.nil_prefix, sim_init _ _⟩, hlen.symm,
              List.take_prefix _ _, fun h => by cases h⟩
      · rw [if_neg hin] at e
        cases e
        refine ⟨⟨skip', .header (got' ++ inp), []⟩, inp, ⟨[.more inp, .input], ?_, by rw [fed_more]; simp⟩,
          ⟨rfl, Nat.zero_le 1, List.nil_prefix, rfl, ?_, rfl⟩, rfl, List.prefix_rfl, fun h => by cases h⟩
        · simp only [File.run, File.Dec.act, Codec.Res.bind, File.Dec.input, List.nil_append, Frame.headerDecode,
            if_neg hin, List.append_nil]
        · rw [List.length_append]; omega

theorem calls_sim {fuel : Nat} : ∀ (cs : List (Nat × Nat)) {d d' : Dec} {f : File.Dec} {rest rest' out : List UInt8}
    {rets : List Ret}, Pair d f rest → calls dw fuel d rest cs = some (.ok (d', rest', out, rets)) →
    ∃ f' x, Tracks dw f f' x out ∧ Pair d' f' rest' ∧ rest = x ++ rest' ∧
      (rets.getLast? = some .success → f'.verdict = .success) ∧ (cs = [] → f' = f) := by
  intro cs
  induction cs with
  | nil =>
    intro d d' f rest rest' out rets h e
    cases e
    exact ⟨f, [], ⟨[], rfl, by simp [fed]⟩, h, rfl, (fun h => by cases h), fun _ => rfl⟩
  | cons c cs ih =>
    obtain ⟨offer, room⟩ := c
    intro d d' f rest rest' out rets h e
    rw [calls] at e
    cases hd : d.decode dw fuel (rest.take offer) room with
    | none => rw [hd] at e; cases e
    | some y =>
      cases y with
      | fail => rw [hd] at e; cases e
      | panic => rw [hd] at e; cases e
      | ok r =>
        rw [hd] at e
        simp only [Option.map_eq_some_iff] at e
        obtain ⟨z, e1, e2⟩ := e
        cases z with
        | fail => cases e2
        | panic => cases e2
        | ok z =>
          obtain ⟨d2, rest2, out2, rets2⟩ := z
          cases e2
          rw [← List.take_append_drop offer rest] at h
          obtain ⟨f1, x1, t1, p1, u1, q1, v1⟩ := decode_sim h hd
          have hle := q1.length_le
          have hdr : (rest.take offer).drop x1.length ++ rest.drop offer = rest.drop r.used := by
            rw [← List.drop_append_of_le_length hle, List.take_append_drop, u1]
          rw [hdr] at p1
          obtain ⟨f2, x2, t2, p2, d2, v2, w2⟩ := ih p1 e1
          refine ⟨f2, x1 ++ x2, t1.trans t2, p2, ?_, ?_, fun h => by cases h⟩
          · rw [List.append_assoc, ← d2, u1]
            obtain ⟨y, hy⟩ := q1.trans (List.take_prefix _ _)
            rw [← hy, List.drop_left]
          · intro hl
            cases rets2 with
            | nil =>
              have hcs : cs = [] := by
                cases cs with
                | nil => rfl
                | cons c cs =>
                  exfalso
                  rw [calls] at e1
                  cases hd2 : r.dec.decode dw fuel ((rest.drop r.used).take c.1) c.2 with
                  | none => rw [hd2] at e1; cases e1
                  | some y =>
                    cases y with
                    | fail => rw [hd2] at e1; cases e1
                    | panic => rw [hd2] at e1; cases e1
                    | ok r2 =>
                      rw [hd2] at e1
                      simp only [Option.map_eq_some_iff] at e1
                      obtain ⟨z, -, e2⟩ := e1
                      cases z <;> cases e2
              subst hcs
              cases e1
              simp only [List.getLast?_singleton, Option.some.injEq] at hl
              rw [w2 rfl]
              exact v1 hl
            | cons r2 rs => exact v2 (by rw [← hl]; simp)

theorem pair_new (skip : Bool) (l : List UInt8) : Pair (.new skip) (.new skip) l :=
  ⟨rfl, Nat.zero_le 1, List.nil_prefix, rfl, by decide, rfl⟩

end Divans.Call
