import Verif.CallLemmas
import Verif.MuxTidy

/-!
# Input, hand-over and return of buffers

The parts of a call that move bytes from the caller to the worker, and buffers back.
-/

namespace Divans.Call
open Divans.Adaptive Divans.Pipe Divans.File

variable {cm : Bool} {dw : Nat → Nat → Nat → List UInt8} {w : Nat} {F h body tr tail : List UInt8} {skip : Bool}

/-- The demultiplexer does not deliver more than it reads. -/
theorem runAll_len : ∀ (l : List UInt8) (s t : Mux.Scan), Mux.runAll s l = some t →
    ∀ i, (t.out i).length ≤ (s.out i).length + l.length := by
  intro l
  induction l with
  | nil => intro s t e i; cases e; simp
  | cons b l ih =>
    intro s t e i
    rw [Mux.runAll] at e
    cases hs : Mux.step s b with
    | none => rw [hs] at e; cases e
    | some s1 =>
      rw [hs, Option.bind_some] at e
      have h1 := ih s1 t e i
      have h2 : (s1.out i).length ≤ (s.out i).length + 1 := by
        unfold Mux.step at hs
        by_cases hd : s.eof = .done
        · rw [if_pos hd] at hs; cases hs
        · rw [if_neg hd] at hs
          cases hb : s.btd with
          | hdr0 id => rw [hb] at hs; cases hs; simp
          | hdr1 id l => rw [hb] at hs; cases hs; simp
          | some id c =>
            rw [hb] at hs
            cases hs
            by_cases hi : i = id
            · subst hi; simp [Mux.upd]
            · simp [Mux.upd, hi]
          | none =>
            rw [hb] at hs
            simp only at hs
            by_cases hm : Mux.isMark s.eof b
            · rw [if_pos hm] at hs
              cases he : Mux.eofStep s.eof b with
              | none => rw [he] at hs; cases hs
              | some e' => rw [he] at hs; cases hs; simp
            · rw [if_neg hm] at hs
              split at hs <;> (cases hs; simp)
      simp only [List.length_cons]
      omega

theorem mem_done {b : File.Body} {pend fut E : List UInt8} {T : Nat} (ht : tr.length = 8)
    (hd : BOk cm dw (2 ^ w) F h body tr tail skip b pend fut E T) :
    (b.mux.eof ≠ .done ∨ b.sum.length ≠ 8) → tail.length < (pend ++ fut).length := by
  obtain ⟨bdone, brest, srest, rest, tc, gs, tl, h1, h2, h3, h4, h5, h6, h7, h8, h9⟩ := hd
  simp only at h4
  intro hor
  rw [h4]
  simp only [List.length_append]
  have hl := congrArg List.length h2
  rw [List.length_append, ht] at hl
  rcases hor with hor | hor
  · have : brest ≠ [] := by
      rintro rfl
      exact hor h6.nil.1
    have := List.length_pos_iff.mpr this
    omega
  · omega

theorem all_done {b : File.Body} {pend fut E : List UInt8} {T : Nat} (ht : tr.length = 8)
    (hd : BOk cm dw (2 ^ w) F h body tr tail skip b pend fut E T) (he : b.mux.eof = .done) (hs : b.sum.length = 8) :
    pend ++ fut = tail := by
  obtain ⟨bdone, brest, srest, rest, tc, gs, tl, h1, h2, h3, h4, h5, h6, h7, h8, h9⟩ := hd
  simp only at h4
  have hl := congrArg List.length h2
  rw [List.length_append, ht] at hl
  have h0 : srest = [] := List.eq_nil_of_length_eq_zero (by omega)
  cases brest with
  | nil => rw [h4, h0]; simp
  | cons z zs => exact absurd he h6.cons.1

theorem bok_split {b : File.Body} {pend fut pend' fut' E : List UInt8} {T : Nat}
    (hd : BOk cm dw (2 ^ w) F h body tr tail skip b pend fut E T) (he : pend' ++ fut' = pend ++ fut) :
    BOk cm dw (2 ^ w) F h body tr tail skip b pend' fut' E T := by
  obtain ⟨bdone, brest, srest, rest, tc, gs, tl, h1, h2, h3, h4, h5, h6, h7, h8, h9⟩ := hd
  exact ⟨bdone, brest, srest, rest, tc, gs, tl, h1, h2, h3, he.trans h4, h5, h6, h7, h8, h9⟩

/-- Input for the demultiplexer. -/
theorem binput_ok (ht : tr.length = 8) {b : File.Body} {pend fut E : List UInt8} {T : Nat}
    (hd : BOk cm dw (2 ^ w) F h body tr tail skip b pend fut E T) (hti : Mux.Tidy b.mux (pend ++ fut)) :
    ∃ b' n T', b.input skip pend = some (b', pend.drop n) ∧ n ≤ pend.length ∧
      BOk cm dw (2 ^ w) F h body tr tail skip b' (pend.drop n) fut E T' ∧
      Mux.Tidy b'.mux (pend.drop n ++ fut) ∧ b'.rcv = b.rcv ∧
      8 * T' + 5 * (b'.mux.unread false).length ≤ 8 * T + 5 * (b.mux.unread false).length ∧
      (pend.drop n ≠ [] → b'.mux.eof = .done ∧ b'.sum.length = 8) := by
  obtain ⟨bdone, brest, srest, rest, tc, gs, tl, h1, h2, h3, h4, h5, h6, h7, h8, h9⟩ := hd
  simp only at h4 h7
  obtain ⟨m, n, x, rest', e1, k1, k2, k3, k4, k5, k6, k7, k8, k9⟩ := rest_input h5 h6 h4
  obtain ⟨t1, t2⟩ := hti.deserialize h5 e1
  have hgrow : (m.unread false).length ≤ (b.mux.unread false).length + n := by
    obtain ⟨m1, n1, e2, -, hn, hrun, -⟩ := Mux.deserialize_spec h5 pend
    rw [e1] at e2
    cases e2
    have := runAll_len _ _ _ hrun false
    simp only [Mux.scanOf, List.length_take] at this
    omega
  unfold Body.input
  rw [e1]
  have hcrc : (if skip then b.crc else Crc.update b.crc (pend.take n)) =
      (if skip then Crc.init else Crc.crc32c (h ++ (bdone ++ brest.take n))) := by
    cases hs : skip with
    | true => rw [h7, hs]; rfl
    | false =>
      rw [h7, hs]
      simp only [Bool.false_eq_true, if_false]
      rw [Frame.crc_append, k4, List.append_assoc]
  have hbody : bdone ++ brest.take n ++ brest.drop n = body := by
    rw [List.append_assoc, List.take_append_drop, h1]
  have hrok : ROk cm dw (2 ^ w) F tc gs tl (m.unread false ++ rest' false) (rest' true)
      { b.rcv with litRx := { b.rcv.litRx with buf := m.unread true } } E := by
    obtain ⟨q1, q2, q3, q4⟩ := h8
    refine ⟨?_, q2, ?_, q4.congr rfl rfl rfl rfl⟩
    · rw [k7, List.append_assoc, ← k8]; exact q1
    · rw [k7]
      rw [k8] at q3
      exact q3.push
  have hlen := congrArg List.length h2
  rw [List.length_append, ht] at hlen
  simp only
  by_cases hbr : brest.drop n = []
  · rw [hbr] at k6
    obtain ⟨hdone, -⟩ := k6.nil
    have hsaw : m.sawEof = true := by simp [Mux.Mux.sawEof, hdone]
    rw [hbr, List.nil_append] at k5
    have hnb : n = brest.length := by
      have := congrArg List.length hbr
      rw [List.length_drop, List.length_nil] at this
      omega
    by_cases h8' : b.sum.length = 8
    · rw [if_neg (by simp [h8'])]
      refine ⟨_, n, _, rfl, k2, ⟨bdone ++ brest.take n, [], srest, rest', tc, gs, tl, ?_, h2, fun hx => absurd rfl hx, k5, k1, k6,
        hcrc, hrok, rfl⟩, t1, rfl, ?_, fun _ => ⟨hdone, h8'⟩⟩
      · rw [← hbody, hbr]
      · rw [h9]; simp only [Pipe.todo, List.length_nil]; omega
    · rw [if_pos ⟨hsaw, h8'⟩]
      have hk : min (pend.drop n).length (8 - b.sum.length) = min (pend.drop n).length srest.length := by
        have : 8 - b.sum.length = srest.length := by omega
        rw [this]
      obtain ⟨p1, p2⟩ := pre_split (pend.drop n) srest fut tail k5
      rw [hk]
      simp only [List.drop_drop]
      rw [List.drop_drop] at p2
      refine ⟨_, _, _, rfl, ?_, ⟨bdone ++ brest.take n, [], srest.drop (min (pend.drop n).length srest.length), rest', tc, gs, tl,
        ?_, ?_, fun hx => absurd rfl hx, p2, k1, k6, hcrc, hrok, rfl⟩, ?_, rfl, ?_, ?_⟩
      · simp only [List.length_drop]; omega
      · rw [← hbody, hbr]
      · simp only
        rw [p1, List.append_assoc, List.take_append_drop, h2]
      · refine ⟨[], Mux.scanOf m, pend.drop (n + min (pend.drop n).length srest.length) ++ fut, ?_, rfl, rfl, ?_, fun _ => rfl⟩
        · simp only [hdone, Mux.eofRest, List.nil_append]
        · obtain ⟨front, s, X', z1, z2, z3, z4, z5⟩ := t1
          have hf := z5 (by rw [hdone]; simp)
          subst hf
          simp only [Mux.runAll, Option.some.injEq] at z2
          rw [z2]; exact z4
      · rw [h9, List.length_drop]; simp only [Pipe.todo, List.length_nil]; omega
      · intro hne
        refine ⟨hdone, ?_⟩
        simp only [List.length_append, List.length_take]
        have hne' : 0 < (pend.drop (n + min (pend.drop n).length srest.length)).length := List.length_pos_iff.mpr hne
        simp only [List.length_drop] at hne' ⊢
        omega
  · obtain ⟨z, zs, hz⟩ : ∃ z zs, brest.drop n = z :: zs := by
      cases hq : brest.drop n with
      | nil => exact absurd hq hbr
      | cons z zs => exact ⟨z, zs, rfl⟩
    have hnd : m.eof ≠ .done := by
      rw [hz] at k6; exact k6.cons.1
    have hsaw : m.sawEof = false := by simp [Mux.Mux.sawEof, hnd]
    have hb0 : brest ≠ [] := by
      intro h0; rw [h0] at hbr; simp at hbr
    have hsum := h3 hb0
    rw [if_neg (by simp [hsaw])]
    refine ⟨_, n, _, rfl, k2, ⟨bdone ++ brest.take n, brest.drop n, srest, rest', tc, gs, tl, hbody, h2, fun _ => hsum, k5, k1, k6,
      hcrc, hrok, rfl⟩, t1, rfl, ?_, fun hne => absurd (t2 hne) hnd⟩
    rw [h9, List.length_drop]; simp only [Pipe.todo]; omega

/-- Steps left with a command held. -/
def Hold.weight : Hold → Nat
  | .none => 0
  | .decoded _ => 2
  | .ready _ => 1

/-- Everything there is to be done, for one step after another to decrease. -/
def weight (s : St) (T : Nat) : Nat :=
  8 * T + s.load + s.hold.weight + s.maps

theorem input_abs (s : St) (pend : List UInt8) :
    s.abs.input skip pend = (s.b.input skip pend).map fun x => (({ s with b := x.1 } : St).abs, x.2) := by
  have h1 : s.abs.mux = s.b.mux := rfl
  have h2 : s.abs.sum = s.b.sum := rfl
  unfold File.Body.input
  rw [h1, h2]
  cases Mux.deserialize s.b.mux pend with
  | none => rfl
  | some x =>
    obtain ⟨m, n⟩ := x
    simp only
    by_cases hc : m.sawEof = true ∧ s.b.sum.length ≠ 8
    · rw [if_pos hc, if_pos hc]; rfl
    · rw [if_neg hc, if_neg hc]; rfl

/-- Handing over a buffer. -/
theorem push_ok {s t : St} {pend fut E : List UInt8} {T : Nat}
    (hd : BOk cm dw (2 ^ w) F h body tr tail skip s.abs pend fut E T) (he : Ext s) (hp : s.push = some t) :
    BOk cm dw (2 ^ w) F h body tr tail skip t.abs pend fut E T ∧ Ext t ∧ t.b.rcv = s.b.rcv ∧ t.b.sum = s.b.sum ∧
      t.b.mux.eof = s.b.mux.eof ∧ t.b.mux.btd = s.b.mux.btd ∧ t.b.mux.unread false = [] ∧
      t.lent = s.lent + 1 ∧ t.load < s.load ∧ t.hold = s.hold ∧ t.maps = s.maps ∧ t.result = s.result ∧ t.back = s.back ∧
      t.sawEnd = s.sawEnd := by
  unfold St.push at hp
  by_cases hc : s.data.length < 2 ∧ s.b.mux.unread false ≠ []
  · rw [if_pos hc] at hp
    obtain ⟨hc1, hc2⟩ := hc
    obtain ⟨bdone, brest, srest, rest, tc, gs, tl, h1, h2, h3, h4, h5, h6, h7, h8, h9⟩ := hd
    obtain ⟨k1, k2, k3, k4, k5, k6⟩ := takeBuf_spec (m := s.b.mux) h5 false
    cases hp
    obtain ⟨g1, g2, g3, g4, g5, g6, g7, g8, g9⟩ := he
    have hpos : 0 < (s.b.mux.unread false).length := List.length_pos_iff.mpr hc2
    refine ⟨⟨bdone, brest, srest, rest, tc, gs, tl, h1, h2, h3, h4, k1, ?_, h7, ?_, h9⟩, ?_, rfl, rfl, k6, k5, k3, rfl, ?_, rfl, rfl,
      rfl, rfl, rfl⟩
    · refine h6.congr k5 k6 (fun i => if i then [] else s.b.mux.unread false) fun i => ?_
      cases i with
      | false => simp [St.abs, k3]
      | true => simp only [St.abs]; rw [k4 true (by simp)]; rfl
    · obtain ⟨q1, q2, q3, q4⟩ := h8
      refine ⟨?_, q2, ?_, q4.congr rfl rfl rfl rfl⟩
      · simp only [St.abs, List.flatMap_append, List.flatMap_cons, List.flatMap_nil, List.append_nil]
        rw [k3, List.nil_append, k2, ← push_push]
        exact q1.push
      · simp only [St.abs]
        rw [k4 true (by simp)]
        exact q3
    · refine ⟨by simp only [List.length_append, List.length_singleton]; omega, g2, ?_, g4, ?_, g6, g7, g8, g9⟩
      · intro d hd
        simp only [List.mem_append, List.mem_singleton] at hd
        rcases hd with hd | rfl
        · exact g3 d hd
        · rw [k2]; exact hc2
      · simp only [List.length_append, List.length_singleton]; omega
    · simp only [St.load, k3, List.length_nil, List.map_append, List.map_cons, List.map_nil, List.sum_append, List.sum_cons, List.sum_nil, k2]
      omega
  · rw [if_neg hc] at hp; cases hp

theorem push_none {s : St} (hp : s.push = none) : 2 ≤ s.data.length ∨ s.b.mux.unread false = [] := by
  unfold St.push at hp
  by_cases hc : s.data.length < 2 ∧ s.b.mux.unread false ≠ []
  · rw [if_pos hc] at hp; cases hp
  · rcases Nat.lt_or_ge s.data.length 2 with h2 | h2
    · right
      rcases Decidable.em (s.b.mux.unread false = []) with h | h
      · exact h
      · exact absurd ⟨h2, h⟩ hc
    · exact Or.inl h2

/-- Giving memory back to the demultiplexer. -/
theorem recycled_ok (m : List UInt8) {s : St} {pend fut E : List UInt8} {T : Nat}
    (hd : BOk cm dw (2 ^ w) F h body tr tail skip s.abs pend fut E T) :
    BOk cm dw (2 ^ w) F h body tr tail skip
      ({ s with b := { s.b with mux := s.b.mux.recycle false m } } : St).abs pend fut E T ∧
      (s.b.mux.recycle false m).eof = s.b.mux.eof ∧ (s.b.mux.recycle false m).btd = s.b.mux.btd ∧
      (s.b.mux.recycle false m).unread false = s.b.mux.unread false := by
  obtain ⟨bdone, brest, srest, rest, tc, gs, tl, h1, h2, h3, h4, h5, h6, h7, h8, h9⟩ := hd
  obtain ⟨k1, k2, k5, k6⟩ := recycle_spec (m := s.b.mux) h5 false m
  refine ⟨⟨bdone, brest, srest, rest, tc, gs, tl, h1, h2, h3, h4, k1, ?_, h7, ?_, h9⟩, k6, k5, by rw [k2]⟩
  · exact h6.congr k5 k6 (fun _ => []) fun i => by simp only [St.abs]; rw [k2, List.nil_append]
  · simp only [St.abs]
    rw [k2, k2]
    exact h8

/-- What the parts that move buffers leave alone. -/
structure Kept (s t : St) : Prop where
  rcv : t.b.rcv = s.b.rcv
  sum : t.b.sum = s.b.sum
  eof : t.b.mux.eof = s.b.mux.eof
  btd : t.b.mux.btd = s.b.mux.btd
  hold : t.hold = s.hold
  maps : t.maps = s.maps
  result : t.result = s.result
  sawEnd : t.sawEnd = s.sawEnd

theorem giveBack_ok {pend fut E : List UInt8} {T : Nat} : ∀ (ms : List (List UInt8)) {s : St} (need : Bool),
    BOk cm dw (2 ^ w) F h body tr tail skip s.abs pend fut E T → Ext { s with back := ms } → s.back = [] →
    ∃ t need', St.giveBack ms s need = some (t, need') ∧ BOk cm dw (2 ^ w) F h body tr tail skip t.abs pend fut E T ∧
      Ext t ∧ Kept s t ∧ t.load ≤ s.load ∧ (need' = true → need = true ∨ s.b.mux.eof ≠ .done) := by
  intro ms
  induction ms with
  | nil =>
    intro s need hd he hb
    have hs : ({ s with back := [] } : St) = s := by rw [← hb]
    rw [hs] at he
    exact ⟨s, need, rfl, hd, he, ⟨rfl, rfl, rfl, rfl, rfl, rfl, rfl, rfl⟩, Nat.le_refl _, Or.inl⟩
  | cons m ms ih =>
    intro s need hd he hb
    have hl := he.lent
    simp only [List.length_cons] at hl
    rw [St.giveBack, if_neg (by omega)]
    simp only
    have he1 : Ext { ({ s with lent := s.lent - 1 } : St) with back := ms } := by
      obtain ⟨g1, g2, g3, g4, g5, g6, g7, g8, g9⟩ := he
      simp only [List.length_cons] at g2
      exact ⟨g1, by simp only; omega, g3, g4, by simp only; omega, g6, g7, g8, g9⟩
    have hd1 : BOk cm dw (2 ^ w) F h body tr tail skip ({ s with lent := s.lent - 1 } : St).abs pend fut E T := hd
    obtain ⟨s1, hs1⟩ : ∃ s1 : St, s1 = { s with lent := s.lent - 1 } := ⟨_, rfl⟩
    rw [← hs1] at hd1 he1 ⊢
    have hb1 : s1.back = [] := by rw [hs1]; exact hb
    have hk1 : Kept s s1 := by rw [hs1]; exact ⟨rfl, rfl, rfl, rfl, rfl, rfl, rfl, rfl⟩
    have hld1 : s1.load = s.load := by rw [hs1]; rfl
    unfold St.refill
    cases hp : s1.push with
    | some s2 =>
      simp only
      have hp' : ({ s1 with back := ms } : St).push = some { s2 with back := ms } := by
        unfold St.push at hp ⊢
        by_cases hc : s1.data.length < 2 ∧ s1.b.mux.unread false ≠ []
        · rw [if_pos hc] at hp
          rw [if_pos hc]
          cases hp
          rfl
        · rw [if_neg hc] at hp; cases hp
      have hd1' : BOk cm dw (2 ^ w) F h body tr tail skip ({ s1 with back := ms } : St).abs pend fut E T := hd1
      obtain ⟨-, p2, -⟩ := push_ok hd1' he1 hp'
      unfold St.push at hp
      obtain ⟨a1, a2, a3, a4, a5, a6, a7, a8, a9, a10, a11, a12, a13⟩ : BOk cm dw (2 ^ w) F h body tr tail skip s2.abs pend fut E T ∧
          s2.b.rcv = s1.b.rcv ∧ s2.b.sum = s1.b.sum ∧
          s2.b.mux.eof = s1.b.mux.eof ∧ s2.b.mux.btd = s1.b.mux.btd ∧ s2.b.mux.unread false = [] ∧
          s2.lent = s1.lent + 1 ∧ s2.load < s1.load ∧ s2.hold = s1.hold ∧ s2.maps = s1.maps ∧ s2.result = s1.result ∧
          s2.back = [] ∧ s2.sawEnd = s1.sawEnd := by
        obtain ⟨q1, q2, q3, q4, q5, q6, q7, q8, q9, q10, q11, q12, q13, q14⟩ := push_ok hd1' he1 hp'
        have hback : s2.back = [] := by
          by_cases hc : s1.data.length < 2 ∧ s1.b.mux.unread false ≠ []
          · rw [if_pos hc] at hp; cases hp; exact hb1
          · rw [if_neg hc] at hp; cases hp
        refine ⟨q1, q3, q4, q5, q6, q7, q8, ?_, q10, q11, q12, hback, q14⟩
        simp only [St.load] at q9 ⊢
        rw [hback, hb1]
        simp only [List.length_nil]
        omega
      obtain ⟨r1, r2, r3, r4⟩ := recycled_ok m a1
      obtain ⟨t, need', e1, e2, e3, e4, e5, e6⟩ := ih (s := { s2 with b := { s2.b with mux := s2.b.mux.recycle false m } }) need r1
        (by obtain ⟨g1, g2, g3, g4, g5, g6, g7, g8, g9⟩ := p2; exact ⟨g1, g2, g3, g4, g5, g6, g7, g8, g9⟩) a12
      refine ⟨t, need', e1, e2, e3, ⟨e4.rcv.trans (a2.trans hk1.rcv), e4.sum.trans (a3.trans hk1.sum),
        e4.eof.trans (r2.trans (a4.trans hk1.eof)), e4.btd.trans (r3.trans (a5.trans hk1.btd)), e4.hold.trans (a9.trans hk1.hold),
        e4.maps.trans (a10.trans hk1.maps), e4.result.trans (a11.trans hk1.result), e4.sawEnd.trans (a13.trans hk1.sawEnd)⟩, ?_, ?_⟩
      · have : ({ s2 with b := { s2.b with mux := s2.b.mux.recycle false m } } : St).load = s2.load := by
          simp only [St.load, r4]
        omega
      · intro hn
        rcases e6 hn with h0 | h0
        · exact Or.inl h0
        · right
          simp only at h0
          rw [r2, a4, hk1.eof] at h0
          exact h0
    | none =>
      simp only
      obtain ⟨r1, r2, r3, r4⟩ := recycled_ok m hd1
      obtain ⟨nd, hnd⟩ : ∃ nd, nd = (need || (decide (s1.lent = 0) && (decide (s1.b.mux.unread false ≠ []) || !s1.b.mux.sawEof))) := ⟨_, rfl⟩
      rw [← hnd]
      have hndc : nd = true → need = true ∨ s.b.mux.eof ≠ .done := by
        intro h1
        rw [hnd] at h1
        simp only [Bool.or_eq_true, Bool.and_eq_true, decide_eq_true_eq, Bool.not_eq_true'] at h1
        rcases h1 with h1 | ⟨h1, h2⟩
        · exact Or.inl h1
        · right
          have hl1 := he1.lent
          simp only at hl1
          have hd2 : s1.data.length < 2 := by omega
          rcases push_none hp with h3 | h3
          · omega
          · rcases h2 with h2 | h2
            · exact absurd h3 h2
            · intro h4
              rw [← hk1.eof] at h4
              simp [Mux.Mux.sawEof, h4] at h2
      obtain ⟨t, need', e1, e2, e3, e4, e5, e6⟩ := ih (s := { s1 with b := { s1.b with mux := s1.b.mux.recycle false m } }) nd r1
        (by obtain ⟨g1, g2, g3, g4, g5, g6, g7, g8, g9⟩ := he1; exact ⟨g1, g2, g3, g4, g5, g6, g7, g8, g9⟩) hb1
      refine ⟨t, need', e1, e2, e3, ⟨e4.rcv.trans hk1.rcv, e4.sum.trans hk1.sum,
        e4.eof.trans (r2.trans hk1.eof), e4.btd.trans (r3.trans hk1.btd), e4.hold.trans hk1.hold,
        e4.maps.trans hk1.maps, e4.result.trans hk1.result, e4.sawEnd.trans hk1.sawEnd⟩, ?_, ?_⟩
      · have : ({ s1 with b := { s1.b with mux := s1.b.mux.recycle false m } } : St).load = s1.load := by
          simp only [St.load, r4]
        omega
      · intro hn
        rcases e6 hn with h0 | h0
        · exact hndc h0
        · right
          simp only at h0
          rw [r2, hk1.eof] at h0
          exact h0

/-- Fetching commands and buffers. -/
theorem collect_ok {s : St} {pend fut E : List UInt8} {T : Nat}
    (hd : BOk cm dw (2 ^ w) F h body tr tail skip s.abs pend fut E T) (he : Ext s) (hq : s.b.rcv.queue = []) :
    ∃ t need, s.collect = some (t, need) ∧ BOk cm dw (2 ^ w) F h body tr tail skip t.abs pend fut E T ∧ Ext t ∧
      t.b.rcv = { s.b.rcv with queue := s.result } ∧ t.b.sum = s.b.sum ∧ t.b.mux.eof = s.b.mux.eof ∧ t.b.mux.btd = s.b.mux.btd ∧
      t.hold = s.hold ∧ t.maps = s.maps ∧ t.result = [] ∧ t.sawEnd = decide (s.b.rcv.core.at_ = .stop) ∧
      weight t T + s.back.length ≤ weight s T ∧ (need = true → s.b.mux.eof ≠ .done) := by
  obtain ⟨s1, hs1⟩ : ∃ s1 : St, s1 = { s with b := { s.b with rcv := { s.b.rcv with queue := s.result } }, result := [], back := [] } :=
    ⟨_, rfl⟩
  have hd1 : BOk cm dw (2 ^ w) F h body tr tail skip s1.abs pend fut E T := by
    have : s1.abs = s.abs := by
      rw [hs1]
      simp [St.abs, hq]
    rw [this]; exact hd
  have he1 : Ext { s1 with back := s.back } := by
    obtain ⟨g1, g2, g3, g4, g5, g6, g7, g8, g9⟩ := he
    rw [hs1]
    refine ⟨g1, g2, g3, g4, g5, ?_, g7, g8, fun hx => ⟨(g9 hx).1, rfl⟩⟩
    rw [hq] at g6
    simp only [pms, List.filter_nil, List.length_nil] at g6 ⊢
    omega
  obtain ⟨t, need, e1, e2, e3, e4, e5, e6⟩ := giveBack_ok s.back false hd1 he1 (by rw [hs1])
  have hrcv : t.b.rcv = { s.b.rcv with queue := s.result } := by rw [e4.rcv, hs1]
  have hres : t.result = [] := by rw [e4.result, hs1]
  unfold St.collect
  rw [← hs1, e1]
  refine ⟨{ t with sawEnd := decide (t.b.rcv.core.at_ = .stop) }, need, rfl, e2, ?_, hrcv, by rw [e4.sum, hs1],
    by rw [e4.eof, hs1], by rw [e4.btd, hs1], by rw [e4.hold, hs1], by rw [e4.maps, hs1], hres, by rw [hrcv], ?_, ?_⟩
  · obtain ⟨g1, g2, g3, g4, g5, g6, g7, g8, g9⟩ := e3
    exact ⟨g1, g2, g3, g4, g5, g6, g7, g8, fun hx => ⟨by simpa using hx, hres⟩⟩
  · have hl1 : s1.load + s.back.length = s.load := by
      rw [hs1]; simp only [St.load, List.length_nil]; omega
    have hh : t.hold = s.hold := by rw [e4.hold, hs1]
    have hm : t.maps = s.maps := by rw [e4.maps, hs1]
    show weight t T + _ ≤ _
    simp only [weight, hh, hm]
    omega
  · intro hn
    rcases e6 hn with h0 | h0
    · cases h0
    · rw [hs1] at h0; exact h0

/-- The first part of the loop. -/
theorem sinput_ok (ht : tr.length = 8) {s : St} {pend fut E : List UInt8} {T : Nat}
    (hd : BOk cm dw (2 ^ w) F h body tr tail skip s.abs pend fut E T) (he : Ext s) (hti : Mux.Tidy s.b.mux (pend ++ fut)) :
    ∃ t n go T', s.input skip pend = some (t, pend.drop n, go) ∧ n ≤ pend.length ∧
      BOk cm dw (2 ^ w) F h body tr tail skip t.abs (pend.drop n) fut E T' ∧ Ext t ∧
      Mux.Tidy t.b.mux (pend.drop n ++ fut) ∧ weight t T' ≤ weight s T ∧
      (pend.drop n ≠ [] → t.b.mux.eof = .done ∧ t.b.sum.length = 8) ∧
      (go = true → t.lent = 0 → t.b.mux.unread false = [] ∧ t.b.mux.eof = .done) ∧
      (go = false → t.b.mux.eof ≠ .done) := by
  obtain ⟨b0, n, T', e1, e2, e3, e4, e5, e6, e7⟩ := binput_ok ht hd hti
  rw [input_abs] at e1
  cases hi : s.b.input skip pend with
  | none => rw [hi] at e1; cases e1
  | some x =>
    obtain ⟨b1, rest⟩ := x
    rw [hi] at e1
    simp only [Option.map_some, Option.some.injEq, Prod.mk.injEq] at e1
    obtain ⟨rfl, rfl⟩ := e1
    have hrcv : b1.rcv = s.b.rcv := by
      unfold File.Body.input at hi
      cases hm : Mux.deserialize s.b.mux pend with
      | none => rw [hm] at hi; cases hi
      | some y =>
        rw [hm] at hi
        simp only at hi
        split at hi <;> (simp only [Option.some.injEq, Prod.mk.injEq] at hi; rw [← hi.1])
    have he1 : Ext { s with b := b1 } := by
      obtain ⟨g1, g2, g3, g4, g5, g6, g7, g8, g9⟩ := he
      exact ⟨g1, g2, g3, by rw [hrcv]; exact g4, g5, by rw [hrcv]; exact g6, g7, by rw [hrcv]; exact g8, by rw [hrcv]; exact g9⟩
    have hwt : weight { s with b := b1 } T' ≤ weight s T := by
      simp only [weight, St.load, hrcv, St.abs] at e6 ⊢
      omega
    unfold St.input
    rw [hi]
    simp only
    by_cases hu : b1.mux.unread false ≠ []
    · rw [if_pos hu]
      cases hp : ({ s with b := b1 } : St).push with
      | some t =>
        obtain ⟨q1, q2, q3, q4, q5, q6, q7, q8, q9, q10, q11, q12, q13, q14⟩ := push_ok e3 he1 hp
        refine ⟨t, n, true, T', rfl, e2, q1, q2, e4.congr q6 q5, ?_, ?_, ?_, by simp⟩
        · simp only [weight] at hwt ⊢
          rw [q10, q11]
          simp only at *
          omega
        · intro hne
          rw [q5, q4]
          exact e7 hne
        · intro _ h0
          omega
      | none =>
        simp only
        have hlen : s.lent ≠ 0 := by
          have := he1.lent
          rcases push_none hp with h2 | h2
          · simp only at this h2; omega
          · exact absurd h2 hu
        refine ⟨_, n, _, T', rfl, e2, e3, he1, e4, hwt, e7, ?_, ?_⟩
        · intro _ h0; exact absurd h0 hlen
        · intro h0; simp [hlen] at h0
    · rw [if_neg hu]
      rw [Decidable.not_not] at hu
      refine ⟨_, n, _, T', rfl, e2, e3, he1, e4, hwt, e7, ?_, ?_⟩
      · intro hgo h0
        simp only at h0
        refine ⟨hu, ?_⟩
        simpa [h0, Mux.Mux.sawEof] using hgo
      · intro hgo
        simp only [Bool.or_eq_false_iff] at hgo
        simpa [Mux.Mux.sawEof] using hgo.1

end Divans.Call
