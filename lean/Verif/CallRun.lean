import Verif.CallStep

/-!
# A call returns, and what holds when it does
-/

namespace Divans.Call
open Divans.Adaptive Divans.Pipe Divans.File

variable {cm : Bool} {dw : Nat → Nat → Nat → List UInt8} {w : Nat} {F h body tr tail : List UInt8} {skip : Bool}

/-- The steps of a call, to its end. -/
inductive Runs (dw : Nat → Nat → Nat → List UInt8) (skip : Bool) : Conf → Conf → Ret → Prop where
  | last {c c' : Conf} {r : Ret} : c.tick dw skip = .ok (c', some r) → Runs dw skip c c' r
  | step {c c1 c' : Conf} {r : Ret} : c.tick dw skip = .ok (c1, none) → Runs dw skip c1 c' r → Runs dw skip c c' r

theorem runs_loop {c c' : Conf} {r : Ret} (hr : Runs dw skip c c' r) :
    ∃ k, ∀ fuel, k ≤ fuel → loop dw skip fuel c = some (.ok (c', r)) := by
  induction hr with
  | last e =>
    refine ⟨1, fun fuel hf => ?_⟩
    obtain ⟨f, rfl⟩ : ∃ f, fuel = f + 1 := ⟨fuel - 1, by omega⟩
    simp only [loop, e]
  | step e _ ih =>
    obtain ⟨k, hk⟩ := ih
    refine ⟨k + 1, fun fuel hf => ?_⟩
    obtain ⟨f, rfl⟩ : ∃ f, fuel = f + 1 := ⟨fuel - 1, by omega⟩
    simp only [loop, e]
    exact hk f (by omega)

/-- What holds during a call with input `inp`, room for `R` bytes, after `E0` was given out before. -/
structure Base (cm : Bool) (dw : Nat → Nat → Nat → List UInt8) (w : Nat) (F h body tr tail : List UInt8) (skip : Bool)
    (fut E0 inp : List UInt8) (R : Nat) (c : Conf) (T : Nat) : Prop where
  ok : BOk cm dw (2 ^ w) F h body tr tail skip c.s.abs c.pend fut (E0 ++ c.out) T
  ext : Ext c.s
  tidy : Mux.Tidy c.s.b.mux (c.pend ++ fut)
  room : c.out.length + c.room = R
  pend : ∃ n, n ≤ inp.length ∧ c.pend = inp.drop n
  drained : c.ph ≠ .input → c.pend ≠ [] → c.s.b.mux.eof = .done ∧ c.s.b.sum.length = 8

/-- What holds when it returns. -/
def Post (cm : Bool) (dw : Nat → Nat → Nat → List UInt8) (w : Nat) (F h body tr tail : List UInt8) (skip : Bool)
    (fut E0 inp : List UInt8) (R : Nat) (c : Conf) (r : Ret) : Prop :=
  ∃ T, Base cm dw w F h body tr tail skip fut E0 inp R c T ∧
    (r = .needsInput → c.pend = [] ∧ (c.s.b.mux.eof ≠ .done ∨ c.s.b.sum.length ≠ 8)) ∧
    (r = .needsOutput → c.room = 0) ∧
    (r = .success → E0 ++ c.out = F.drop (2 ^ w) ∧ c.pend ++ fut = tail) ∧
    (c.pend ≠ [] → c.s.b.mux.eof = .done ∧ c.s.b.sum.length = 8)

variable {fut E0 inp : List UInt8} {R : Nat}

theorem drained_nil {c : Conf} {T : Nat} (hb : Base cm dw w F h body tr tail skip fut E0 inp R c T) (hp : c.ph ≠ .input)
    (hn : c.s.b.mux.eof ≠ .done ∨ c.s.b.sum.length ≠ 8) : c.pend = [] := by
  rcases Decidable.em (c.pend = []) with h0 | h0
  · exact h0
  · obtain ⟨d1, d2⟩ := hb.drained hp h0
    rcases hn with hn | hn
    · exact absurd d1 hn
    · exact absurd d2 hn

/-- The third part of the loop. -/
theorem out_run (hw : 8 ≤ 2 ^ w) (htl : tr.length = 8)
    (hsum : sumOk skip (if skip then Crc.init else Crc.crc32c (h ++ body)) tr = true) {N0 : Nat}
    (ih : ∀ c T, c.ph = .input → Base cm dw w F h body tr tail skip fut E0 inp R c T → weight c.s T < N0 →
      ∃ c' r, Runs dw skip c c' r ∧ Post cm dw w F h body tr tail skip fut E0 inp R c' r) :
    ∀ (M : Nat) (c : Conf) (T : Nat), c.ph = .output → Base cm dw w F h body tr tail skip fut E0 inp R c T →
      (weight c.s T < N0 ∨ (weight c.s T ≤ N0 ∧
        (Fetching c.s → c.s.result ≠ [] ∨ c.s.b.rcv.core.at_ = .stop ∨ c.s.back ≠ []))) →
      (2 * weight c.s T + 1 ≤ M ∨ (2 * weight c.s T ≤ M ∧ ¬ Fetching c.s)) →
      ∃ c' r, Runs dw skip c c' r ∧ Post cm dw w F h body tr tail skip fut E0 inp R c' r := by
  intro M
  induction M using Nat.strongRecOn with
  | _ M ihM =>
    intro c T hph hb hJ hM
    obtain ⟨b1, b2, b3, b4, b5, b6⟩ := hb
    obtain ⟨t, o, a, T', e1, e2, e3, e4, e5, e6, e7, e8, e9, e10, e11, e12⟩ := output_ok hw htl hsum c.room b1 b2
    rw [List.append_assoc] at e3 e12
    have hroom : (c.out ++ o).length + (c.room - o.length) = R := by
      rw [List.length_append]; omega
    have hdr : c.pend ≠ [] → t.b.mux.eof = .done ∧ t.b.sum.length = 8 := by
      intro hne
      rw [e5, e7]
      exact b6 (by rw [hph]; simp) hne
    have hbase : ∀ ph, Base cm dw w F h body tr tail skip fut E0 inp R
        ⟨t, ph, c.pend, c.room - o.length, c.out ++ o⟩ T' :=
      fun ph => ⟨e3, e4, b3.congr e6 e5, hroom, b5, fun _ => hdr⟩
    cases a with
    | go =>
      have htick : c.tick dw skip = .ok (⟨t, .output, c.pend, c.room - o.length, c.out ++ o⟩, none) := by
        unfold Conf.tick
        simp only [hph]
        rw [e1]
        simp [Codec.Res.bind]
      have hgo := e8 rfl
      obtain ⟨M', hM', hlt⟩ : ∃ M', (2 * weight t T' + 1 ≤ M' ∨ (2 * weight t T' ≤ M' ∧ ¬ Fetching t)) ∧ M' < M := by
        rcases hgo with hg | ⟨hg1, hg2, hg3⟩
        · exact ⟨2 * weight t T' + 1, Or.inl (Nat.le_refl _), by rcases hM with h0 | h0 <;> omega⟩
        · refine ⟨2 * weight t T', Or.inr ⟨Nat.le_refl _, ?_⟩, ?_⟩
          · rintro ⟨f1, f2, f3⟩
            rcases hg3 with hg3 | hg3
            · exact hg3 f2
            · rw [hg3] at f3; cases f3
          · rcases hM with h0 | h0
            · omega
            · exact absurd hg2 h0.2
      have hJ' : weight t T' < N0 ∨ (weight t T' ≤ N0 ∧
          (Fetching t → t.result ≠ [] ∨ t.b.rcv.core.at_ = .stop ∨ t.back ≠ [])) := by
        rcases hgo with hg | ⟨hg1, hg2, hg3⟩
        · left
          rcases hJ with h0 | h0 <;> omega
        · right
          refine ⟨by rcases hJ with h0 | h0 <;> omega, ?_⟩
          rintro ⟨f1, f2, f3⟩
          rcases hg3 with hg3 | hg3
          · exact absurd f2 hg3
          · rw [hg3] at f3; cases f3
      obtain ⟨c', r, h1, h2⟩ := ihM M' hlt _ T' rfl (hbase .output) hJ' hM'
      exact ⟨c', r, .step htick h1, h2⟩
    | yield =>
      have htick : c.tick dw skip = .ok (⟨t, .input, c.pend, c.room - o.length, c.out ++ o⟩, none) := by
        unfold Conf.tick
        simp only [hph]
        rw [e1]
        simp [Codec.Res.bind]
      have hlt : weight t T' < N0 := by
        rcases e9 rfl with hg | ⟨hg1, hg2, hg3, hg4, hg5⟩
        · rcases hJ with h0 | h0 <;> omega
        · rcases hJ with h0 | h0
          · omega
          · rcases h0.2 hg2 with hx | hx | hx
            · exact absurd hg3 hx
            · exact absurd hx hg4
            · exact absurd hg5 hx
      obtain ⟨c', r, h1, h2⟩ := ih _ T' rfl (hbase .input) hlt
      exact ⟨c', r, .step htick h1, h2⟩
    | ret r =>
      have htick : c.tick dw skip = .ok (⟨t, .output, c.pend, c.room - o.length, c.out ++ o⟩, some r) := by
        unfold Conf.tick
        simp only [hph]
        rw [e1]
        simp [Codec.Res.bind]
      refine ⟨_, r, .last htick, T', hbase .output, ?_, ?_, ?_, hdr⟩
      · rintro rfl
        have hn := e10 rfl
        rw [← e5, ← e7] at hn
        exact ⟨drained_nil (hbase .output) (by simp) hn, hn⟩
      · rintro rfl
        have := e11 rfl
        simp only
        omega
      · rintro rfl
        exact e12 rfl

/-- The second and third part of the loop. -/
theorem work_run (hw : 8 ≤ 2 ^ w) (htl : tr.length = 8)
    (hsum : sumOk skip (if skip then Crc.init else Crc.crc32c (h ++ body)) tr = true) {N0 : Nat}
    (ih : ∀ c T, c.ph = .input → Base cm dw w F h body tr tail skip fut E0 inp R c T → weight c.s T < N0 →
      ∃ c' r, Runs dw skip c c' r ∧ Post cm dw w F h body tr tail skip fut E0 inp R c' r) :
    ∀ (M : Nat) (c : Conf) (T : Nat), c.ph = .work → Base cm dw w F h body tr tail skip fut E0 inp R c T →
      (c.s.lent = 0 → c.s.b.mux.unread false = [] ∧ c.s.b.mux.eof = .done) → weight c.s T ≤ N0 → weight c.s T ≤ M →
      ∃ c' r, Runs dw skip c c' r ∧ Post cm dw w F h body tr tail skip fut E0 inp R c' r := by
  intro M
  induction M using Nat.strongRecOn with
  | _ M ihM =>
    intro c T hph hb hwk hN hM
    obtain ⟨b1, b2, b3, b4, b5, b6⟩ := hb
    obtain ⟨t, p, T', e1, e2, e3, e4, e5, e6, e7, e8, e9, e10, e11, e12⟩ := work_ok b1 b2
    have hbase : ∀ ph, Base cm dw w F h body tr tail skip fut E0 inp R ⟨t, ph, c.pend, c.room, c.out⟩ T' := by
      intro ph
      refine ⟨e2, e3, by rw [e4]; exact b3, b4, b5, fun _ hne => ?_⟩
      simp only
      rw [e4, e5]
      exact b6 (by rw [hph]; simp) hne
    cases p with
    | none =>
      have htick : c.tick dw skip = .ok (⟨t, .work, c.pend, c.room, c.out⟩, none) := by
        unfold Conf.tick
        simp only [hph]
        rw [e1]
        simp [Codec.Res.bind, hph]
      have hlt := e8 rfl
      obtain ⟨c', r, h1, h2⟩ := ihM (weight t T') (by omega) _ T' rfl (hbase .work)
        (by simp only; rw [e6, e4]; exact hwk) (by simp only; omega) (Nat.le_refl _)
      exact ⟨c', r, .step htick h1, h2⟩
    | some p =>
      have hJ : weight t T' < N0 ∨ (weight t T' ≤ N0 ∧
          (Fetching t → t.result ≠ [] ∨ t.b.rcv.core.at_ = .stop ∨ t.back ≠ [])) := by
        cases p with
        | needsInput =>
          obtain ⟨u1, u2⟩ := e9 rfl
          rcases u1 with u1 | u1 | u1
          · left; omega
          · exact Or.inr ⟨by omega, fun _ => Or.inr (Or.inr u1)⟩
          · obtain ⟨v1, v2⟩ := hwk u1
            exact (u2 u1 v1 v2).elim
        | needsOutput =>
          obtain rfl := e12 (Or.inl rfl)
          refine Or.inr ⟨by omega, fun hf => ?_⟩
          rcases e10 rfl with u | u
          · exact Or.inl u
          · exact absurd hf.2.1 u
        | success =>
          obtain rfl := e12 (Or.inr rfl)
          exact Or.inr ⟨by omega, fun _ => Or.inr (Or.inl (e11 rfl))⟩
      have htick : c.tick dw skip = .ok (⟨t, .output, c.pend, c.room, c.out⟩, none) := by
        unfold Conf.tick
        simp only [hph]
        rw [e1]
        cases p with
        | needsInput =>
          have hne : t.lent ≠ 0 := by
            rw [e6]
            intro h0
            obtain ⟨v1, v2⟩ := hwk h0
            exact (e9 rfl).2 h0 v1 v2
          simp [Codec.Res.bind, hne]
        | needsOutput => simp [Codec.Res.bind]
        | success => simp [Codec.Res.bind]
      obtain ⟨c', r, h1, h2⟩ := out_run hw htl hsum ih (2 * weight t T' + 1) _ T' rfl (hbase .output) hJ (Or.inl (Nat.le_refl _))
      exact ⟨c', r, .step htick h1, h2⟩

/-- The whole loop. -/
theorem call_runs (hw : 8 ≤ 2 ^ w) (htl : tr.length = 8)
    (hsum : sumOk skip (if skip then Crc.init else Crc.crc32c (h ++ body)) tr = true) :
    ∀ (N0 : Nat) (c : Conf) (T : Nat), c.ph = .input → Base cm dw w F h body tr tail skip fut E0 inp R c T → weight c.s T < N0 →
      ∃ c' r, Runs dw skip c c' r ∧ Post cm dw w F h body tr tail skip fut E0 inp R c' r := by
  intro N0
  induction N0 with
  | zero => intro c T _ _ h0; omega
  | succ N0 ih =>
    intro c T hph hb hlt
    obtain ⟨b1, b2, b3, b4, ⟨n0, hn0, b5⟩, b6⟩ := hb
    obtain ⟨t, n, go, T', e1, e2, e3, e4, e5, e6, e7, e8, e9⟩ := sinput_ok htl b1 b2 b3
    have hbase : ∀ ph, Base cm dw w F h body tr tail skip fut E0 inp R ⟨t, ph, c.pend.drop n, c.room, c.out⟩ T' := by
      intro ph
      refine ⟨e3, e4, e5, b4, ⟨n0 + n, ?_, ?_⟩, fun _ => e7⟩
      · rw [b5, List.length_drop] at e2; omega
      · simp only; rw [b5, List.drop_drop]
    have htick : c.tick dw skip = .ok (⟨t, .work, c.pend.drop n, c.room, c.out⟩, if go then none else some .needsInput) := by
      unfold Conf.tick
      simp only [hph]
      rw [e1]
    cases go with
    | true =>
      simp only [if_true] at htick
      obtain ⟨c', r, h1, h2⟩ := work_run hw htl hsum ih (weight t T') _ T' rfl (hbase .work) (e8 rfl) (by simp only; omega) (Nat.le_refl _)
      exact ⟨c', r, .step htick h1, h2⟩
    | false =>
      simp only [Bool.false_eq_true, if_false] at htick
      have hn : t.b.mux.eof ≠ .done ∨ t.b.sum.length ≠ 8 := Or.inl (e9 rfl)
      exact ⟨_, _, .last htick, T', hbase .work, fun _ => ⟨drained_nil (hbase .work) (by simp) hn, hn⟩, by simp, by simp, e7⟩

end Divans.Call
