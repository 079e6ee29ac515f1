import Verif.CallEndProps

/-!
# What a call of `decode` leaves of its input

The demultiplexer takes everything it is offered, except at the end: it stops where the end marker does not go on
as it should, and behind the trailer.
-/

namespace Divans.Mux

/-- What remains when the demultiplexer stops before the end of its input: it has seen the end of the streams, or
the beginning of the end marker, and the next byte does not continue that. -/
def Off (m : Mux) (l : List UInt8) : Prop :=
  m.eof = .done ∨ (m.btd = .none ∧ ((m.eof = .start ∧ l.head? ≠ some 0xfe) ∨ (m.eof = .mid ∧ l.head? ≠ some 0xff)))

theorem deserializeEof_off {m : Mux} {b : UInt8} {r : List UInt8} (hb : m.btd = .none) (hd : m.eof ≠ .done)
    (h : b = 0xff ∨ (b = 0xfe ∧ m.eof ≠ .running)) (hn : (deserializeEof m (b :: r)).2 < (b :: r).length) :
    Off (deserializeEof m (b :: r)).1 ((b :: r).drop (deserializeEof m (b :: r)).2) := by
  unfold Off
  unfold deserializeEof at hn ⊢
  cases he : m.eof with
  | done => exact absurd he hd
  | running =>
    have hb1 : b = 0xff := by
      rcases h with h | h
      · exact h
      · exact absurd he h.2
    subst hb1
    simp only [he, if_true] at hn ⊢
    cases r with
    | nil => simp at hn
    | cons b2 r2 =>
      simp only at hn ⊢
      by_cases h2 : b2 = 0xfe
      · subst h2
        simp only [if_true] at hn ⊢
        cases r2 with
        | nil => simp at hn
        | cons b3 r3 =>
          simp only at hn ⊢
          by_cases h3 : b3 = 0xff
          · simp only [if_pos h3]; exact Or.inl (by trivial)
          · simp only [if_neg h3]
            refine Or.inr ⟨hb, Or.inr ⟨by trivial, ?_⟩⟩
            rw [show ((0xff : UInt8) :: 0xfe :: b3 :: r3).length - (b3 :: r3).length = 2 by simp only [List.length_cons]; omega]
            simpa using h3
      · simp only [if_neg h2] at hn ⊢
        refine Or.inr ⟨hb, Or.inl ⟨by trivial, ?_⟩⟩
        rw [show ((0xff : UInt8) :: b2 :: r2).length - (b2 :: r2).length = 1 by simp only [List.length_cons]; omega]
        simpa using h2
  | start =>
    simp only [he] at hn ⊢
    by_cases h2 : b = 0xfe
    · subst h2
      simp only [if_true] at hn ⊢
      cases r with
      | nil => simp at hn
      | cons b3 r3 =>
        simp only at hn ⊢
        by_cases h3 : b3 = 0xff
        · simp only [if_pos h3]; exact Or.inl (by trivial)
        · simp only [if_neg h3]
          refine Or.inr ⟨hb, Or.inr ⟨by trivial, ?_⟩⟩
          rw [show ((0xfe : UInt8) :: b3 :: r3).length - (b3 :: r3).length = 1 by simp only [List.length_cons]; omega]
          simpa using h3
    · simp only [if_neg h2] at hn ⊢
      refine Or.inr ⟨hb, Or.inl ⟨by trivial, ?_⟩⟩
      rw [Nat.sub_self]
      simpa using h2
  | mid =>
    simp only [he] at hn ⊢
    by_cases h3 : b = 0xff
    · simp only [if_pos h3]; exact Or.inl (by trivial)
    · simp only [if_neg h3]
      refine Or.inr ⟨hb, Or.inr ⟨by trivial, ?_⟩⟩
      rw [Nat.sub_self]
      simpa using h3

theorem deserializeAux_off : ∀ (fuel : Nat) (m : Mux) (input : List UInt8) (m' : Mux) (n : Nat),
    deserializeAux fuel m input = some (m', n) → n < input.length → Off m' (input.drop n) := by
  intro fuel
  induction fuel with
  | zero =>
    intro m input m' n e hn
    cases input with
    | nil => cases hn
    | cons b r => cases e
  | succ fuel ih =>
    intro m input m' n e hn
    cases input with
    | nil => cases hn
    | cons b r =>
      rw [deserializeAux] at e
      by_cases hd : m.eof = .done
      · rw [if_pos hd] at e
        cases e
        exact Or.inl hd
      rw [if_neg hd] at e
      have rec1 : ∀ {m1 : Mux} {x : List UInt8} {k : Nat}, ((b :: r).drop k = x) →
          ((deserializeAux fuel m1 x).map fun (m', n) => (m', n + k)) = some (m', n) → Off m' ((b :: r).drop n) := by
        intro m1 x k hx e
        rw [Option.map_eq_some_iff] at e
        obtain ⟨⟨m2, n2⟩, e1, e2⟩ := e
        simp only [Prod.mk.injEq] at e2
        obtain ⟨rfl, rfl⟩ := e2
        have := ih m1 x m2 n2 e1 (by rw [← hx, List.length_drop]; omega)
        rw [← hx, List.drop_drop, Nat.add_comm] at this
        exact this
      cases hb : m.btd with
      | hdr0 id => rw [hb] at e; exact rec1 (k := 1) rfl e
      | hdr1 id lsb => rw [hb] at e; exact rec1 (k := 1) rfl e
      | some id count =>
        rw [hb] at e
        simp only at e
        by_cases hc : count > (b :: r).length
        · rw [if_pos hc, Option.map_eq_some_iff] at e
          obtain ⟨m2, -, e2⟩ := e
          simp only [Prod.mk.injEq] at e2
          omega
        · rw [if_neg hc] at e
          cases hp : m.push id ((b :: r).take count) with
          | none => rw [hp] at e; cases e
          | some m2 => rw [hp] at e; exact rec1 rfl e
      | none =>
        rw [hb] at e
        simp only at e
        by_cases hm : b = 0xff ∨ (b = 0xfe ∧ m.eof ≠ .running)
        · rw [if_pos hm] at e
          have h1 := deserializeEof_off (r := r) hb hd hm
          rw [Option.some.inj e] at h1
          exact h1 hn
        rw [if_neg hm] at e
        by_cases hlt : b.toNat < 16
        · rw [if_pos hlt] at e
          by_cases hl : (b :: r).length < 3
          · rw [if_pos hl] at e; exact rec1 (k := 1) rfl e
          · rw [if_neg hl] at e; exact rec1 (k := 3) rfl e
        · rw [if_neg hlt] at e; exact rec1 (k := 1) rfl e

/-- The demultiplexer takes everything, except at an end marker. -/
theorem deserialize_off {m m' : Mux} {input : List UInt8} {n : Nat} (e : deserialize m input = some (m', n))
    (hn : n < input.length) : Off m' (input.drop n) := deserializeAux_off _ _ _ _ _ e hn

end Divans.Mux

namespace Divans.Call
open Divans.Adaptive Divans.Pipe Divans.File
open Divans.Frame (GoodHeader)

variable {dw : Nat → Nat → Nat → List UInt8} {skip : Bool} {L : Nat}

/-- The same place in the container. -/
structure Spot (s t : St) : Prop where
  eof : t.b.mux.eof = s.b.mux.eof
  btd : t.b.mux.btd = s.b.mux.btd
  sum : t.b.sum = s.b.sum

theorem Spot.rfl {s : St} : Spot s s := ⟨Eq.refl _, Eq.refl _, Eq.refl _⟩

theorem Spot.trans {s t u : St} (h : Spot s t) (k : Spot t u) : Spot s u :=
  ⟨k.eof.trans h.eof, k.btd.trans h.btd, k.sum.trans h.sum⟩

theorem push_same {s t : St} (h : s.push = some t) : Spot s t := by
  unfold St.push at h
  by_cases hc : s.data.length < 2 ∧ s.b.mux.unread false ≠ []
  · rw [if_pos hc] at h
    cases h
    exact ⟨rfl, rfl, rfl⟩
  · rw [if_neg hc] at h; cases h

theorem refill_same (s : St) (need : Bool) : Spot s (s.refill need).1 := by
  unfold St.refill
  cases h : s.push with
  | none => exact .rfl
  | some t => exact push_same h

theorem giveBack_same : ∀ (ms : List (List UInt8)) {s t : St} {need need' : Bool},
    St.giveBack ms s need = some (t, need') → Spot s t := by
  intro ms
  induction ms with
  | nil => intro s t need need' h; cases h; exact .rfl
  | cons m ms ih =>
    intro s t need need' h
    rw [St.giveBack] at h
    by_cases hl : s.lent = 0
    · rw [if_pos hl] at h; cases h
    rw [if_neg hl] at h
    have h1 : Spot s ({ s with lent := s.lent - 1 } : St) := ⟨rfl, rfl, rfl⟩
    refine (h1.trans (refill_same _ need)).trans (Spot.trans ?_ (ih h))
    have : ∀ x : Mux.Mux, (x.recycle false m).eof = x.eof ∧ (x.recycle false m).btd = x.btd := by
      intro x
      unfold Mux.Mux.recycle
      by_cases hx : (x.buf false).mem = []
      · rw [if_pos hx]; exact ⟨rfl, rfl⟩
      · rw [if_neg hx]; exact ⟨rfl, rfl⟩
    exact ⟨(this _).1, (this _).2, rfl⟩

theorem collect_same {s t : St} {need : Bool} (h : s.collect = some (t, need)) : Spot s t := by
  unfold St.collect at h
  rw [Option.map_eq_some_iff] at h
  obtain ⟨⟨p, n⟩, h1, h2⟩ := h
  simp only [Prod.mk.injEq] at h2
  obtain ⟨rfl, -⟩ := h2
  obtain ⟨a, b, c⟩ := giveBack_same _ h1
  exact ⟨a, b, c⟩

theorem main_same {s : St} {b : File.Body} {room : Nat} {o : List UInt8} (h : s.b.main dw room = .ok (b, o)) (maps : Nat) :
    Spot s { s with b := b, maps := maps } := by
  unfold File.Body.main at h
  simp only at h
  cases hm : ({ s.b.rcv with litRx := { s.b.rcv.litRx with buf := s.b.mux.unread true } } : Rcv).main dw room with
  | fail => rw [hm] at h; cases h
  | panic => rw [hm] at h; cases h
  | ok x =>
    rw [hm] at h
    simp only [Codec.Res.bind, Codec.Res.ok.injEq, Prod.mk.injEq] at h
    obtain ⟨rfl, -⟩ := h
    exact ⟨rfl, rfl, rfl⟩

theorem finish_same {s t : St} {room : Nat} {o : List UInt8} {a : After} (h : s.finish dw skip room = .ok (t, o, a)) :
    Spot s t := by
  unfold St.finish at h
  cases hm : s.b.main dw room with
  | fail => rw [hm] at h; cases h
  | panic => rw [hm] at h; cases h
  | ok x =>
    have hs := main_same hm s.maps
    rw [hm] at h
    simp only [Codec.Res.bind] at h
    split at h
    · cases h; exact hs
    split at h
    · cases h; exact hs
    split at h
    · cases h; exact hs
    · cases h

theorem output_same {s t : St} {room : Nat} {o : List UInt8} {a : After} (h : s.output dw skip room = .ok (t, o, a)) :
    Spot s t := by
  unfold St.output at h
  have hmain : ∀ {F : File.Body × List UInt8 → Codec.Res (St × List UInt8 × After)},
      (∀ x t o a, F x = .ok (t, o, a) → ∃ m, t = { s with b := x.1, maps := m }) →
      (s.b.main dw room).bind F = .ok (t, o, a) → Spot s t := by
    intro F hF h
    cases hm : s.b.main dw room with
    | fail => rw [hm] at h; cases h
    | panic => rw [hm] at h; cases h
    | ok x =>
      rw [hm] at h
      obtain ⟨m, rfl⟩ := hF _ _ _ _ h
      exact main_same hm m
  cases hat : s.b.rcv.at_ with
  | content c =>
    simp only [hat] at h
    refine hmain ?_ h
    intro x t o a e
    cases e
    exact ⟨s.maps, rfl⟩
  | filling c =>
    simp only [hat] at h
    refine hmain ?_ h
    intro x t o a e
    cases e
    exact ⟨s.maps, rfl⟩
  | finished => simp only [hat] at h; exact finish_same h
  | idle =>
    simp only [hat] at h
    cases hq : s.b.rcv.queue with
    | cons g q =>
      simp only [hq] at h
      refine hmain ?_ h
      intro x t o a e
      cases g <;> simp only at e
      case pm p =>
        by_cases h2 : s.maps = 2
        · rw [if_pos h2] at e; cases e
        · rw [if_neg h2] at e; cases e; exact ⟨_, rfl⟩
      all_goals (cases e; exact ⟨s.maps, rfl⟩)
    | nil =>
      simp only [hq] at h
      by_cases hs : s.sawEnd = true
      · rw [if_pos hs] at h; exact finish_same h
      · rw [if_neg hs] at h
        cases hc : s.collect with
        | none => rw [hc] at h; cases h
        | some p =>
          obtain ⟨t', need⟩ := p
          rw [hc] at h
          cases h
          exact collect_same hc

/-- Behind the trailer, where nothing is taken any more. -/
def Shut (s : St) : Prop := s.b.mux.eof = .done ∧ s.b.sum.length = 8

/-- What a call leaves is behind the trailer, or where the end marker is broken off. -/
def Left (s : St) (l : List UInt8) : Prop :=
  l = [] ∨ Shut s ∨ (s.b.mux.btd = .none ∧
    ((s.b.mux.eof = .start ∧ l.head? ≠ some 0xfe) ∨ (s.b.mux.eof = .mid ∧ l.head? ≠ some 0xff)))

theorem Left.same {s t : St} {l : List UInt8} (h : Left s l) (k : Spot s t) : Left t l := by
  unfold Left Shut at *
  rw [k.eof, k.btd, k.sum]
  exact h

theorem Shut.same {s t : St} (h : Shut s) (k : Spot s t) : Shut t := by
  unfold Shut at *
  rw [k.eof, k.sum]
  exact h

theorem input_left {s t : St} {pend rest : List UInt8} {go : Bool} (h8 : s.b.sum.length ≤ 8)
    (h : s.input skip pend = some (t, rest, go)) : Left t rest := by
  unfold St.input at h
  cases hb : s.b.input skip pend with
  | none => rw [hb] at h; cases h
  | some x =>
    obtain ⟨b, rest1⟩ := x
    rw [hb] at h
    simp only at h
    have hl : Left { s with b := b } rest1 := by
      unfold File.Body.input at hb
      cases hd : Mux.deserialize s.b.mux pend with
      | none => rw [hd] at hb; cases hb
      | some y =>
        obtain ⟨m, n⟩ := y
        rw [hd] at hb
        simp only at hb
        have hoff := fun hn => Mux.deserialize_off hd hn
        by_cases hs : m.sawEof ∧ s.b.sum.length ≠ 8
        · rw [if_pos (by exact hs)] at hb
          simp only [Option.some.injEq, Prod.mk.injEq] at hb
          obtain ⟨rfl, rfl⟩ := hb
          rcases List.eq_nil_or_concat ((pend.drop n).drop (min (pend.drop n).length (8 - s.b.sum.length))) with h0 | ⟨_, _, h0⟩
          · exact Or.inl h0
          · refine Or.inr (Or.inl ⟨by simpa [Mux.Mux.sawEof] using hs.1, ?_⟩)
            have : 0 < ((pend.drop n).drop (min (pend.drop n).length (8 - s.b.sum.length))).length := by rw [h0]; simp
            rw [List.length_drop] at this
            simp only [List.length_append, List.length_take]
            omega
        · rw [if_neg (by exact hs)] at hb
          simp only [Option.some.injEq, Prod.mk.injEq] at hb
          obtain ⟨rfl, rfl⟩ := hb
          by_cases hn : n < pend.length
          · rcases hoff hn with h1 | h1
            · refine Or.inr (Or.inl ⟨h1, ?_⟩)
              by_contra h2
              exact hs ⟨by simpa [Mux.Mux.sawEof] using h1, h2⟩
            · exact Or.inr (Or.inr h1)
          · exact Or.inl (List.drop_of_length_le (by omega))
    by_cases hu : b.mux.unread false ≠ []
    · rw [if_pos hu] at h
      cases hp : ({ s with b := b } : St).push with
      | none => rw [hp] at h; cases h; exact hl
      | some s2 => rw [hp] at h; cases h; exact hl.same (push_same hp)
    · rw [if_neg hu] at h
      cases h
      exact hl

theorem work_same {s t : St} {p : Option Pause} (hl : Live L s) (h : s.work = .ok (t, p)) : Spot s t := by
  obtain ⟨-, h1, h2, -⟩ := work_live hl h 0
  exact ⟨by rw [h1], by rw [h1], h2⟩

theorem tick_left {inp : List UInt8} {R : Nat} {c c' : Conf} {r : Option Ret} (hd : During L inp R c)
    (h : c.ph = .input ∨ Left c.s c.pend) (e : c.tick dw skip = .ok (c', r)) :
    (c'.ph = .input ∧ r = none) ∨ Left c'.s c'.pend := by
  unfold Conf.tick at e
  cases hph : c.ph with
  | input =>
    obtain ⟨t, n, go, e1, -⟩ := input_live (skip := skip) hd.live c.pend
    simp only [hph, e1, Codec.Res.ok.injEq, Prod.mk.injEq] at e
    obtain ⟨rfl, -⟩ := e
    exact Or.inr (input_left hd.live.sum8 e1)
  | work =>
    rw [hph] at h
    simp only [hph] at e
    have hl : Left c.s c.pend := by
      rcases h with h | h
      · cases h
      · exact h
    cases hw : c.s.work with
    | fail => rw [hw] at e; cases e
    | panic => rw [hw] at e; cases e
    | ok x =>
      obtain ⟨t, p⟩ := x
      have h2 := hl.same (work_same hd.live hw)
      rw [hw] at e
      simp only [Codec.Res.bind] at e
      cases p with
      | none => cases e; exact Or.inr h2
      | some p => cases p <;> (cases e; exact Or.inr h2)
  | output =>
    rw [hph] at h
    simp only [hph] at e
    have hl : Left c.s c.pend := by
      rcases h with h | h
      · cases h
      · exact h
    cases ho : c.s.output dw skip c.room with
    | fail => rw [ho] at e; cases e
    | panic => rw [ho] at e; cases e
    | ok x =>
      obtain ⟨t, o, a⟩ := x
      have h2 := hl.same (output_same ho)
      rw [ho] at e
      simp only [Codec.Res.bind] at e
      cases a with
      | go => cases e; exact Or.inr h2
      | yield => cases e; exact Or.inl ⟨rfl, rfl⟩
      | ret r => cases e; exact Or.inr h2

theorem loop_left {inp : List UInt8} {R : Nat} : ∀ (fuel : Nat) {c c' : Conf} {r : Ret}, During L inp R c →
    (c.ph = .input ∨ Left c.s c.pend) → loop dw skip fuel c = some (.ok (c', r)) → Left c'.s c'.pend := by
  intro fuel
  induction fuel with
  | zero => intro c c' r hd h e; cases e
  | succ fuel ih =>
    intro c c' r hd h e
    rw [loop] at e
    cases ht : c.tick dw skip with
    | fail => rw [ht] at e; cases e
    | panic => rw [ht] at e; cases e
    | ok y =>
      obtain ⟨c1, q⟩ := y
      have h1 := tick_left hd h ht
      rw [ht] at e
      cases q with
      | some q =>
        cases e
        rcases h1 with ⟨-, h0⟩ | h1
        · cases h0
        · exact h1
      | none => exact ih (tick_during hd ht) (h1.imp And.left id) e

theorem tick_shut {inp : List UInt8} {R : Nat} {c c' : Conf} {r : Option Ret} (hd : During L inp R c)
    (h : Shut c.s ∧ c.pend = inp) (e : c.tick dw skip = .ok (c', r)) : Shut c'.s ∧ c'.pend = inp := by
  unfold Conf.tick at e
  cases hph : c.ph with
  | input =>
    obtain ⟨t, n, go, e1, -, -, -, -, -, e2⟩ := input_live (skip := skip) hd.live c.pend
    obtain ⟨rfl, -, q1, q2, -⟩ := e2 h.1.1 h.1.2
    simp only [hph, e1, Codec.Res.ok.injEq, Prod.mk.injEq] at e
    obtain ⟨rfl, -⟩ := e
    exact ⟨⟨q1, by rw [q2]; exact h.1.2⟩, h.2⟩
  | work =>
    simp only [hph] at e
    cases hw : c.s.work with
    | fail => rw [hw] at e; cases e
    | panic => rw [hw] at e; cases e
    | ok x =>
      obtain ⟨t, p⟩ := x
      have h2 := h.1.same (work_same hd.live hw)
      rw [hw] at e
      simp only [Codec.Res.bind] at e
      cases p with
      | none => cases e; exact ⟨h2, h.2⟩
      | some p => cases p <;> (cases e; exact ⟨h2, h.2⟩)
  | output =>
    simp only [hph] at e
    cases ho : c.s.output dw skip c.room with
    | fail => rw [ho] at e; cases e
    | panic => rw [ho] at e; cases e
    | ok x =>
      obtain ⟨t, o, a⟩ := x
      have h2 := h.1.same (output_same ho)
      rw [ho] at e
      simp only [Codec.Res.bind] at e
      cases a <;> (cases e; exact ⟨h2, h.2⟩)

theorem loop_shut {inp : List UInt8} {R : Nat} : ∀ (fuel : Nat) {c c' : Conf} {r : Ret}, During L inp R c →
    Shut c.s ∧ c.pend = inp → loop dw skip fuel c = some (.ok (c', r)) → Shut c'.s ∧ c'.pend = inp := by
  intro fuel
  induction fuel with
  | zero => intro c c' r hd h e; cases e
  | succ fuel ih =>
    intro c c' r hd h e
    rw [loop] at e
    cases ht : c.tick dw skip with
    | fail => rw [ht] at e; cases e
    | panic => rw [ht] at e; cases e
    | ok y =>
      obtain ⟨c1, q⟩ := y
      have h1 := tick_shut hd h ht
      rw [ht] at e
      cases q with
      | some q => cases e; exact h1
      | none => exact ih (tick_during hd ht) h1 e

theorem process_left {w before : Nat} {s : St} (hl : Live (2 ^ w) s) {fuel room : Nat} {inp : List UInt8} {r : Reply}
    (e : process dw fuel skip s inp before room = some (.ok r)) :
    ∃ t n, r.dec = ⟨skip, .body t⟩ ∧ r.used = before + n ∧ n ≤ inp.length ∧ Left t (inp.drop n) ∧ (Shut s → n = 0 ∧ Shut t) := by
  unfold process at e
  rw [Option.map_eq_some_iff] at e
  obtain ⟨y, e1, e2⟩ := e
  cases y with
  | fail => cases e2
  | panic => cases e2
  | ok y =>
    obtain ⟨c, ret⟩ := y
    have hd : During (2 ^ w) inp room ⟨s, .input, inp, room, []⟩ := ⟨hl, by simp, 0, Nat.zero_le _, rfl⟩
    have h1 := loop_left _ hd (Or.inl rfl) e1
    have h2 := fun hs => loop_shut _ hd ⟨hs, rfl⟩ e1
    obtain ⟨k, x, hk, hx⟩ := ends_loop (call_ends (dw := dw) (skip := skip) _ _ _ rfl hd (Or.inr ⟨rfl, Nat.lt_succ_self _⟩))
    have h3 := loop_mono e1 (max k fuel) (by omega)
    rw [hk _ (by omega)] at h3
    obtain ⟨⟨-, -, n, b3, b4⟩, -⟩ := hx c ret (Option.some.inj h3)
    simp only [Codec.Res.bind, Codec.Res.ok.injEq] at e2
    subst e2
    refine ⟨c.s, inp.length - c.pend.length, rfl, rfl, Nat.sub_le _ _, ?_, ?_⟩
    · rw [b4, List.length_drop, show inp.length - (inp.length - n) = n by omega, ← b4]
      exact h1
    · intro hs
      obtain ⟨a, b⟩ := h2 hs
      exact ⟨by rw [b, Nat.sub_self], a⟩

/-- The state behind the header, with what was left. -/
def DLeft (d : Dec) (l : List UInt8) : Prop :=
  l = [] ∨ ∃ s, d.stage = .body s ∧ Left s l

/-- A decompressor behind the trailer. -/
def DShut (d : Dec) : Prop := ∃ s, d.stage = .body s ∧ Shut s

/-- What a call leaves. -/
theorem decode_left {d : Dec} (hd : DLive d) {fuel : Nat} {inp : List UInt8} {room : Nat} {r : Reply}
    (e : d.decode dw fuel inp room = some (.ok r)) :
    DLeft r.dec (inp.drop r.used) ∧ (DShut d → r.used = 0 ∧ DShut r.dec) := by
  obtain ⟨skip, stage⟩ := d
  cases stage with
  | body s =>
    obtain ⟨w, -, -, hl⟩ := hd
    obtain ⟨t, n, h1, h2, h3, h4, h5⟩ := process_left hl (show process dw fuel skip s inp 0 room = _ from e)
    rw [Nat.zero_add] at h2
    refine ⟨Or.inr ⟨t, by rw [h1], by rw [h2]; exact h4⟩, ?_⟩
    rintro ⟨s', e0, h0⟩
    cases e0
    obtain ⟨rfl, h6⟩ := h5 h0
    exact ⟨h2, t, by rw [h1], h6⟩
  | header got =>
    have hgot : got.length < 16 := hd
    refine ⟨?_, by rintro ⟨s', e0, h0⟩; cases e0⟩
    unfold Dec.decode Frame.headerDecode at e
    simp only at e
    by_cases hp : inp.length ≥ 16 - got.length
    · rw [if_pos hp] at e
      cases hh : Frame.parseHeader (got ++ inp.take (16 - got.length)) with
      | none => rw [hh] at e; cases e
      | some w =>
        rw [hh] at e
        simp only at e
        by_cases hlt : 16 - got.length < inp.length
        · rw [if_pos hlt] at e
          obtain ⟨t, n, h1, h2, h3, h4, -⟩ := process_left (init_live skip (got ++ inp.take (16 - got.length)) w) e
          refine Or.inr ⟨t, by rw [h1], ?_⟩
          rw [h2, ← List.drop_drop]
          exact h4
        · rw [if_neg hlt] at e
          cases e
          exact Or.inl (List.drop_of_length_le (by simp only; omega))
    · rw [if_neg hp] at e
      cases e
      exact Or.inl (List.drop_of_length_le (by simp only; omega))

end Divans.Call
