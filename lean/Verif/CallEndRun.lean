import Verif.CallEnd

/-!
# A call ends, whatever the bytes
-/

namespace Divans.Call
open Divans.Adaptive Divans.Pipe Divans.File

variable {dw : Nat → Nat → Nat → List UInt8} {skip : Bool} {L : Nat}

/-- Input for the demultiplexer, any bytes. -/
theorem binput_any {b : File.Body} (hm : b.mux.Ok) (h8 : b.sum.length ≤ 8) (hsum : b.sum ≠ [] → b.mux.eof = .done)
    (hcrc : ∃ x, b.crc = Crc.crc32c x) (pend : List UInt8) :
    ∃ b' n k, b.input skip pend = some (b', pend.drop (n + k)) ∧ n + k ≤ pend.length ∧ b'.mux.Ok ∧ b'.rcv = b.rcv ∧
      b'.sum.length ≤ 8 ∧ (b'.sum ≠ [] → b'.mux.eof = .done) ∧ (∃ x, b'.crc = Crc.crc32c x) ∧
      (b'.mux.unread false).length ≤ (b.mux.unread false).length + n ∧
      (b.mux.eof = .done → n = 0 ∧ b'.mux.eof = .done ∧ (b.sum.length = 8 → k = 0 ∧ b'.sum = b.sum ∧ b'.crc = b.crc)) := by
  obtain ⟨m, n, e1, k1, k2, k3, k4, -⟩ := Mux.deserialize_spec hm pend
  have hgrow : (m.unread false).length ≤ (b.mux.unread false).length + n := by
    have := runAll_len _ _ _ k3 false
    simp only [Mux.scanOf, List.length_take] at this
    omega
  have hdone : b.mux.eof = .done → n = 0 ∧ m.eof = .done := by
    intro hd
    have hstep : ∀ x, Mux.step (Mux.scanOf b.mux) x = none := by
      intro x
      unfold Mux.step
      exact if_pos hd
    have hn : n = 0 := by
      rcases Nat.eq_zero_or_pos n with h0 | h0
      · exact h0
      · exfalso
        cases pend with
        | nil => simp at k2; omega
        | cons x xs =>
          obtain ⟨j, rfl⟩ : ∃ j, n = j + 1 := ⟨n - 1, by omega⟩
          rw [List.take_succ_cons, Mux.runAll, hstep x] at k3
          cases k3
    subst hn
    rw [List.take_zero, Mux.runAll] at k3
    have := congrArg (fun o : Option Mux.Scan => o.map Mux.Scan.eof) k3
    simp only [Option.map_some, Option.some.injEq] at this
    exact ⟨rfl, this.symm.trans hd⟩
  obtain ⟨cx, hcx⟩ := hcrc
  have hcr : ∃ x, (if skip then b.crc else Crc.update b.crc (pend.take n)) = Crc.crc32c x := by
    cases skip with
    | true => exact ⟨cx, hcx⟩
    | false => exact ⟨cx ++ pend.take n, by rw [hcx, if_neg (by simp), Frame.crc_append]⟩
  unfold Body.input
  rw [e1]
  simp only
  by_cases hc : m.sawEof = true ∧ b.sum.length ≠ 8
  · rw [if_pos hc]
    have hme : m.eof = .done := by simpa [Mux.Mux.sawEof] using hc.1
    rw [List.drop_drop]
    refine ⟨_, n, min (pend.drop n).length (8 - b.sum.length), rfl, ?_, k1, rfl, ?_, fun _ => hme, hcr, hgrow, ?_⟩
    · rw [List.length_drop]; omega
    · simp only [List.length_append, List.length_take, List.length_drop]; omega
    · intro hd
      exact ⟨(hdone hd).1, hme, fun h => absurd h hc.2⟩
  · rw [if_neg hc]
    refine ⟨_, n, 0, rfl, k2, k1, rfl, h8, ?_, hcr, hgrow, ?_⟩
    · intro hx
      exact (hdone (hsum hx)).2
    · intro hd
      obtain ⟨h0, h1⟩ := hdone hd
      refine ⟨h0, h1, fun _ => ⟨rfl, rfl, ?_⟩⟩
      subst h0
      cases skip with
      | true => rfl
      | false =>
        simp only [List.take_zero]
        rw [hcx, if_neg (by simp), Frame.crc_append, List.append_nil]

/-- The first part of the loop. -/
theorem input_live {s : St} (hl : Live L s) (pend : List UInt8) :
    ∃ t n go, s.input skip pend = some (t, pend.drop n, go) ∧ n ≤ pend.length ∧ Live L t ∧ t.b.rcv = s.b.rcv ∧ t.hold = s.hold ∧
      NoMore t (pend.drop n).length s pend.length ∧
      (s.b.mux.eof = .done → s.b.sum.length = 8 → n = 0 ∧ go = true ∧ t.b.mux.eof = .done ∧ t.b.sum = s.b.sum ∧ t.b.crc = s.b.crc) := by
  obtain ⟨d1, d2, d3, d4, d5, d6, d7, d8, d9, d10, d11⟩ := hl
  obtain ⟨b1, n, k, e1, e2, e3, e4, e5, e6, e9, e7, e8⟩ := binput_any (skip := skip) d5 d9 d10 d11 pend
  have he1 : Ext { s with b := b1 } := by
    obtain ⟨g1, g2, g3, g4, g5, g6, g7, g8, g9⟩ := d1
    exact ⟨g1, g2, g3, by rw [e4]; exact g4, g5, by rw [e4]; exact g6, g7, by rw [e4]; exact g8, by rw [e4]; exact g9⟩
  have hlive : Live L { s with b := b1 } :=
    ⟨he1, by rw [e4]; exact d2, by rw [e4]; exact d3, by rw [e4]; exact d4, e3, by rw [e4]; exact d6, by rw [e4]; exact d7,
      by rw [e4]; exact d8, e5, e6, e9⟩
  have hno : NoMore { s with b := b1 } (pend.drop (n + k)).length s pend.length := by
    unfold NoMore
    simp only [nibbles, St.bytes, St.chores, St.load, e4, List.length_drop]
    omega
  unfold St.input
  rw [e1]
  simp only
  by_cases hu : b1.mux.unread false ≠ []
  · rw [if_pos hu]
    cases hp : ({ s with b := b1 } : St).push with
    | some t =>
      obtain ⟨p1, p2, p3, p4, -, -, ⟨q1, q2, q3, q4, q5, q6, q7, q8⟩, q9⟩ := push_any (s := { s with b := b1 }) e3 he1 hp
      simp only at q1 q2 q3 q4 q5 q6 q7 q8
      refine ⟨t, n + k, true, rfl, e2, ?_, q1.trans e4, q5, ?_, ?_⟩
      · exact ⟨p2, by rw [q1, e4]; exact d2, by rw [q1, e4]; exact d3, by rw [q1, e4]; exact d4, p1, by rw [q1, e4]; exact d6,
          by rw [q1, e4]; exact d7, by rw [q1, e4]; exact d8, by rw [q2]; exact e5, by rw [q2, q3]; exact e6, by rw [q9]; exact e9⟩
      · have h1 : nibbles t (pend.drop (n + k)).length = nibbles { s with b := b1 } (pend.drop (n + k)).length := by
          simp only [nibbles, p4, q1]
        have h2 : t.chores < ({ s with b := b1 } : St).chores := by
          simp only [St.chores, q1, q5, q6, q7]
          omega
        unfold NoMore at hno ⊢
        rw [h1]
        omega
      · intro a1 a2
        obtain ⟨u1, u2, u3⟩ := e8 a1
        obtain ⟨u4, u5, u6⟩ := u3 a2
        exact ⟨by omega, rfl, q3.trans u2, q2.trans u5, Eq.trans q9 u6⟩
    | none =>
      simp only
      have hlen : s.lent ≠ 0 := by
        have := he1.lent
        rcases push_none hp with h2 | h2
        · simp only at this h2; omega
        · exact absurd h2 hu
      refine ⟨_, n + k, _, rfl, e2, hlive, e4, rfl, hno, fun a1 a2 => ?_⟩
      obtain ⟨u1, u2, u3⟩ := e8 a1
      obtain ⟨u4, u5, u6⟩ := u3 a2
      exact ⟨by omega, by simp [hlen], u2, u5, u6⟩
  · rw [if_neg hu]
    refine ⟨_, n + k, _, rfl, e2, hlive, e4, rfl, hno, fun a1 a2 => ?_⟩
    obtain ⟨u1, u2, u3⟩ := e8 a1
    obtain ⟨u4, u5, u6⟩ := u3 a2
    exact ⟨by omega, by simp [Mux.Mux.sawEof, u2], u2, u5, u6⟩

/-! ## The loop -/

/-- The steps of a call come to an end, and `P` holds if it returns. -/
inductive Ends (dw : Nat → Nat → Nat → List UInt8) (skip : Bool) (P : Conf → Ret → Prop) : Conf → Prop where
  | fail {c : Conf} : c.tick dw skip = .fail → Ends dw skip P c
  | panic {c : Conf} : c.tick dw skip = .panic → Ends dw skip P c
  | last {c c' : Conf} {r : Ret} : c.tick dw skip = .ok (c', some r) → P c' r → Ends dw skip P c
  | step {c c1 : Conf} : c.tick dw skip = .ok (c1, none) → Ends dw skip P c1 → Ends dw skip P c

theorem ends_loop {P : Conf → Ret → Prop} {c : Conf} (h : Ends dw skip P c) :
    ∃ k x, (∀ fuel, k ≤ fuel → loop dw skip fuel c = some x) ∧ ∀ c' r, x = .ok (c', r) → P c' r := by
  induction h with
  | fail e =>
    refine ⟨1, .fail, fun fuel hf => ?_, by simp⟩
    obtain ⟨f, rfl⟩ : ∃ f, fuel = f + 1 := ⟨fuel - 1, by omega⟩
    simp only [loop, e]
  | panic e =>
    refine ⟨1, .panic, fun fuel hf => ?_, by simp⟩
    obtain ⟨f, rfl⟩ : ∃ f, fuel = f + 1 := ⟨fuel - 1, by omega⟩
    simp only [loop, e]
  | @last c c' r e hp =>
    refine ⟨1, .ok (c', r), fun fuel hf => ?_, ?_⟩
    · obtain ⟨f, rfl⟩ : ∃ f, fuel = f + 1 := ⟨fuel - 1, by omega⟩
      simp only [loop, e]
    · intro c'' r' h
      cases h
      exact hp
  | step e _ ih =>
    obtain ⟨k, x, hk, hx⟩ := ih
    refine ⟨k + 1, x, fun fuel hf => ?_, hx⟩
    obtain ⟨f, rfl⟩ : ∃ f, fuel = f + 1 := ⟨fuel - 1, by omega⟩
    simp only [loop, e]
    exact hk f (by omega)

/-- What holds during a call with input `inp` and room for `R` bytes. -/
structure During (L : Nat) (inp : List UInt8) (R : Nat) (c : Conf) : Prop where
  live : Live L c.s
  room : c.out.length + c.room = R
  pend : ∃ n, n ≤ inp.length ∧ c.pend = inp.drop n

/-- What holds when it returns. -/
def Returned (L : Nat) (skip : Bool) (inp : List UInt8) (R : Nat) (c : Conf) (r : Ret) : Prop :=
  During L inp R c ∧ (r = .needsOutput → c.room = 0) ∧
    (r = .success → c.s.b.rcv.at_ = .finished ∧ c.s.b.sum.length = 8 ∧ sumOk skip c.s.b.crc c.s.b.sum = true)

variable {inp : List UInt8} {R : Nat}

/-- As much to be done as `(N, M)` allows. -/
def Under (c : Conf) (N M : Nat) : Prop :=
  nibbles c.s c.pend.length < N ∨ (nibbles c.s c.pend.length = N ∧ 8 * c.pend.length + c.s.chores < M)

/-- The third part of the loop. -/
theorem out_ends {N0 M0 : Nat}
    (ih : ∀ c, c.ph = .input → During L inp R c → Under c N0 M0 → Ends dw skip (Returned L skip inp R) c) :
    ∀ (M : Nat) (c : Conf), c.ph = .output → During L inp R c →
      (Under c N0 M0 ∨ (Under c N0 (M0 + 1) ∧
        (Fetching c.s → c.s.result ≠ [] ∨ c.s.b.rcv.core.at_ = .stop ∨ c.s.back ≠ []))) →
      (2 * c.s.chores + 1 ≤ M ∨ (2 * c.s.chores ≤ M ∧ ¬ Fetching c.s)) →
      Ends dw skip (Returned L skip inp R) c := by
  intro M
  induction M using Nat.strongRecOn with
  | _ M ihM =>
    intro c hph hb hJ hM
    obtain ⟨b1, b2, b3⟩ := hb
    cases ho : c.s.output dw skip c.room with
    | fail =>
      apply Ends.fail
      unfold Conf.tick
      simp only [hph]
      rw [ho]; rfl
    | panic =>
      apply Ends.panic
      unfold Conf.tick
      simp only [hph]
      rw [ho]; rfl
    | ok x =>
      obtain ⟨t, o, a⟩ := x
      obtain ⟨e1, e2, e3, e4, e5, e6⟩ := output_live b1 ho
      have hroom : (c.out ++ o).length + (c.room - o.length) = R := by
        rw [List.length_append]; omega
      have hbase : ∀ ph, During L inp R ⟨t, ph, c.pend, c.room - o.length, c.out ++ o⟩ := fun ph => ⟨e2, hroom, b3⟩
      cases a with
      | go =>
        have htick : c.tick dw skip = .ok (⟨t, .output, c.pend, c.room - o.length, c.out ++ o⟩, none) := by
          unfold Conf.tick
          simp only [hph]
          rw [ho]
          simp [Codec.Res.bind]
        obtain ⟨hn, hgo⟩ := e3 rfl
        have hn := hn c.pend.length
        obtain ⟨M', hM', hlt⟩ : ∃ M', (2 * t.chores + 1 ≤ M' ∨ (2 * t.chores ≤ M' ∧ ¬ Fetching t)) ∧ M' < M := by
          rcases hgo with hg | ⟨hg1, hg2, hg3⟩
          · exact ⟨2 * t.chores + 1, Or.inl (Nat.le_refl _), by rcases hM with h0 | h0 <;> omega⟩
          · refine ⟨2 * t.chores, Or.inr ⟨Nat.le_refl _, ?_⟩, ?_⟩
            · rintro ⟨f1, f2, f3⟩
              rcases hg3 with hg3 | hg3
              · exact hg3 f2
              · rw [hg3] at f3; cases f3
            · rcases hM with h0 | h0
              · omega
              · exact absurd hg2 h0.2
        refine .step htick (ihM M' hlt _ rfl (hbase .output) ?_ hM')
        unfold Under at hJ ⊢
        simp only
        rw [hn]
        rcases hgo with hg | ⟨hg1, hg2, hg3⟩
        · left
          rcases hJ with h0 | h0
          · omega
          · omega
        · right
          refine ⟨by rcases hJ with h0 | h0 <;> omega, ?_⟩
          rintro ⟨f1, f2, f3⟩
          rcases hg3 with hg3 | hg3
          · exact absurd f2 hg3
          · rw [hg3] at f3; cases f3
      | yield =>
        have htick : c.tick dw skip = .ok (⟨t, .input, c.pend, c.room - o.length, c.out ++ o⟩, none) := by
          unfold Conf.tick
          simp only [hph]
          rw [ho]
          simp [Codec.Res.bind]
        obtain ⟨hn, hgo⟩ := e4 rfl
        have hn := hn c.pend.length
        refine .step htick (ih _ rfl (hbase .input) ?_)
        unfold Under at hJ ⊢
        simp only
        rw [hn]
        rcases hgo with hg | ⟨hg1, hg2, hg3, hg4, hg5⟩
        · rcases hJ with h0 | h0 <;> omega
        · rcases hJ with h0 | h0
          · omega
          · rcases h0.2 hg2 with hx | hx | hx
            · exact absurd hg3 hx
            · exact absurd hx hg4
            · exact absurd hg5 hx
      | ret r =>
        have htick : c.tick dw skip = .ok (⟨t, .output, c.pend, c.room - o.length, c.out ++ o⟩, some r) := by
          unfold Conf.tick
          simp only [hph]
          rw [ho]
          simp [Codec.Res.bind]
        refine .last htick ⟨hbase .output, ?_, ?_⟩
        · rintro rfl
          have := e5 rfl
          simp only
          omega
        · rintro rfl
          exact e6 rfl

/-- The second and third part of the loop. -/
theorem work_ends {N0 M0 : Nat}
    (ih : ∀ c, c.ph = .input → During L inp R c → Under c N0 M0 → Ends dw skip (Returned L skip inp R) c) :
    ∀ (N M : Nat) (c : Conf), c.ph = .work → During L inp R c → Under c N0 (M0 + 1) → Under c N M →
      Ends dw skip (Returned L skip inp R) c := by
  intro N
  induction N using Nat.strongRecOn with
  | _ N ihN =>
    intro M
    induction M with
    | zero =>
      intro c hph hb hJ hU
      rcases hU with hU | hU
      · exact ihN _ hU (8 * c.pend.length + c.s.chores + 1) c hph hb hJ (Or.inr ⟨rfl, by omega⟩)
      · omega
    | succ M ihM =>
      intro c hph hb hJ hU
      obtain ⟨b1, b2, b3⟩ := hb
      cases hw : c.s.work with
      | fail =>
        apply Ends.fail
        unfold Conf.tick
        simp only [hph]
        rw [hw]; rfl
      | panic =>
        apply Ends.panic
        unfold Conf.tick
        simp only [hph]
        rw [hw]; rfl
      | ok x =>
        obtain ⟨t, p⟩ := x
        obtain ⟨e1, e2, e3, e4, e5, e6, e7, e8, e9, e10⟩ := work_live b1 hw c.pend.length
        have hbase : ∀ ph, During L inp R ⟨t, ph, c.pend, c.room, c.out⟩ := fun ph => ⟨e1, b2, b3⟩
        cases p with
        | none =>
          have htick : c.tick dw skip = .ok (⟨t, .work, c.pend, c.room, c.out⟩, none) := by
            unfold Conf.tick
            simp only [hph]
            rw [hw]
            simp [Codec.Res.bind, hph]
          have hless := e6 rfl
          unfold Less at hless
          have hJ' : Under ⟨t, .work, c.pend, c.room, c.out⟩ N0 (M0 + 1) := by
            unfold Under at hJ ⊢
            simp only
            omega
          refine .step htick ?_
          rcases hless with h | h
          · rcases hU with hU | hU
            · exact ihN (nibbles t c.pend.length) (by omega) (8 * c.pend.length + t.chores + 1) _ rfl (hbase .work) hJ' (Or.inr ⟨rfl, by simp only; omega⟩)
            · exact ihN (nibbles t c.pend.length) (by omega) (8 * c.pend.length + t.chores + 1) _ rfl (hbase .work) hJ' (Or.inr ⟨rfl, by simp only; omega⟩)
          · refine ihM _ rfl (hbase .work) hJ' ?_
            unfold Under at hU ⊢
            simp only
            omega
        | some p =>
          have hout : (Under ⟨t, .output, c.pend, c.room, c.out⟩ N0 M0 ∨ (Under ⟨t, .output, c.pend, c.room, c.out⟩ N0 (M0 + 1) ∧
              (Fetching t → t.result ≠ [] ∨ t.b.rcv.core.at_ = .stop ∨ t.back ≠ []))) →
              Ends dw skip (Returned L skip inp R) ⟨t, .output, c.pend, c.room, c.out⟩ := fun hx =>
            out_ends ih (2 * t.chores + 1) ⟨t, .output, c.pend, c.room, c.out⟩ rfl (hbase .output) hx (Or.inl (Nat.le_refl _))
          unfold NoMore at e5
          cases p with
          | needsInput =>
            by_cases h0 : t.lent = 0
            · refine .last (c' := ⟨t, .output, c.pend, c.room, c.out⟩) (r := .needsInput) ?_ ⟨hbase .output, by simp, by simp⟩
              unfold Conf.tick
              simp only [hph]
              rw [hw]
              simp [Codec.Res.bind, h0]
            · refine .step (c1 := ⟨t, .output, c.pend, c.room, c.out⟩) ?_ (hout ?_)
              · unfold Conf.tick
                simp only [hph]
                rw [hw]
                simp [Codec.Res.bind, h0]
              · unfold Under at hJ ⊢
                simp only
                rcases e7 rfl with u | u | u
                · left
                  unfold Less at u
                  omega
                · exact Or.inr ⟨by omega, fun _ => Or.inr (Or.inr u)⟩
                · rw [e4] at h0
                  exact absurd u h0
          | needsOutput =>
            obtain rfl := e10 (Or.inl rfl)
            refine .step (c1 := ⟨c.s, .output, c.pend, c.room, c.out⟩) ?_ (hout (Or.inr ⟨hJ, fun hf => ?_⟩))
            · unfold Conf.tick
              simp only [hph]
              rw [hw]
              simp [Codec.Res.bind]
            · rcases e8 rfl with u | u
              · exact Or.inl u
              · exact absurd hf.2.1 u
          | success =>
            obtain rfl := e10 (Or.inr rfl)
            refine .step (c1 := ⟨c.s, .output, c.pend, c.room, c.out⟩) ?_ (hout (Or.inr ⟨hJ, fun _ => Or.inr (Or.inl (e9 rfl))⟩))
            unfold Conf.tick
            simp only [hph]
            rw [hw]
            simp [Codec.Res.bind]

/-- The whole loop. -/
theorem call_ends : ∀ (N M : Nat) (c : Conf), c.ph = .input → During L inp R c → Under c N M →
    Ends dw skip (Returned L skip inp R) c := by
  intro N
  induction N using Nat.strongRecOn with
  | _ N ihN =>
    intro M
    induction M with
    | zero =>
      intro c hph hb hU
      rcases hU with hU | hU
      · exact ihN _ hU (8 * c.pend.length + c.s.chores + 1) c hph hb (Or.inr ⟨rfl, by omega⟩)
      · omega
    | succ M ihM =>
      intro c hph hb hU
      obtain ⟨b1, b2, n0, hn0, b3⟩ := hb
      obtain ⟨t, n, go, e1, e2, e3, -, -, e4, -⟩ := input_live (skip := skip) b1 c.pend
      have hbase : ∀ ph, During L inp R ⟨t, ph, c.pend.drop n, c.room, c.out⟩ := by
        intro ph
        refine ⟨e3, b2, ⟨n0 + n, ?_, ?_⟩⟩
        · rw [b3, List.length_drop] at e2; omega
        · simp only; rw [b3, List.drop_drop]
      have htick : c.tick dw skip = .ok (⟨t, .work, c.pend.drop n, c.room, c.out⟩, if go then none else some .needsInput) := by
        unfold Conf.tick
        simp only [hph]
        rw [e1]
      cases go with
      | true =>
        simp only [if_true] at htick
        have hU' : Under ⟨t, .work, c.pend.drop n, c.room, c.out⟩ N (M + 1) := by
          unfold Under at hU ⊢
          unfold NoMore at e4
          simp only
          omega
        exact .step htick (work_ends ihM N (M + 1) _ rfl (hbase .work) hU' hU')
      | false =>
        simp only [Bool.false_eq_true, if_false] at htick
        exact .last htick ⟨hbase .work, by simp, by simp⟩

end Divans.Call
