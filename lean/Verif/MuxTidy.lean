import Verif.MuxSer

/-!
# Where the demultiplexer stops

`deserialize` takes all it is given unless the end marker is complete or is followed by something that
does not continue it.  `Tidy`: the bytes to come have the marker in one piece, at their end.
-/

namespace Divans.Mux

/-- A reason not to read on. -/
def Stuck (e : Eof) (rest : List UInt8) : Prop :=
  e = .done ∨ (e = .start ∧ rest.head? ≠ some 0xfe) ∨ (e = .mid ∧ rest.head? ≠ some 0xff)

theorem eof_stop {m : Mux} (b : UInt8) (r : List UInt8) (hd : m.eof ≠ .done)
    (hb : b = 0xff ∨ (b = 0xfe ∧ m.eof ≠ .running)) :
    (b :: r).drop (deserializeEof m (b :: r)).2 = [] ∨
      Stuck (deserializeEof m (b :: r)).1.eof ((b :: r).drop (deserializeEof m (b :: r)).2) := by
  obtain ⟨buf, avail, cur, lf, fl, btd, eof⟩ := m
  simp only at hd hb
  have hx : (0xfe : UInt8) ≠ 0xff := by decide
  rcases eof with _ | _ | _ | _
  · obtain rfl : b = 0xff := by simpa using hb
    rcases r with _ | ⟨b1, _ | ⟨b2, r⟩⟩
    · simp [deserializeEof]
    · by_cases h1 : b1 = 0xfe
      · subst h1; simp [deserializeEof]
      · simp [deserializeEof, h1, Stuck]
    · by_cases h1 : b1 = 0xfe
      · subst h1
        by_cases h2 : b2 = 0xff
        · subst h2
          simp [deserializeEof, Stuck]
        · have : r.length + 1 + 1 + 1 - (r.length + 1) = 2 := by omega
          simp [deserializeEof, h2, this, Stuck]
      · have : r.length + 1 + 1 + 1 - (r.length + 1 + 1) = 1 := by omega
        simp [deserializeEof, h1, this, Stuck]
  · by_cases h0 : b = 0xfe
    · subst h0
      rcases r with _ | ⟨b1, r⟩
      · simp [deserializeEof]
      · by_cases h1 : b1 = 0xff
        · subst h1; simp [deserializeEof, Stuck]
        · have : r.length + 1 + 1 - (r.length + 1) = 1 := by omega
          simp [deserializeEof, h1, this, Stuck]
    · simp [deserializeEof, h0, Stuck]
  · by_cases h0 : b = 0xff
    · subst h0; simp [deserializeEof, Stuck]
    · simp [deserializeEof, h0, Stuck]
  · exact absurd rfl hd

/-- `deserialize` takes everything, or is stuck. -/
theorem deserializeAux_stop : ∀ (fuel : Nat) (m : Mux) (input : List UInt8) (m' : Mux) (n : Nat),
    deserializeAux fuel m input = some (m', n) → input.drop n = [] ∨ Stuck m'.eof (input.drop n) := by
  intro fuel
  induction fuel with
  | zero =>
    intro m input m' n e
    cases input with
    | nil => left; simp
    | cons b r => cases e
  | succ fuel ih =>
    intro m input m' n e
    cases input with
    | nil => left; simp
    | cons b r =>
      have one : ∀ (m1 : Mux) (l : List UInt8) (k : Nat), (b :: r).drop k = l →
          (deserializeAux fuel m1 l).map (fun p => (p.1, p.2 + k)) = some (m', n) →
          (b :: r).drop n = [] ∨ Stuck m'.eof ((b :: r).drop n) := by
        intro m1 l k hl e
        cases hd : deserializeAux fuel m1 l with
        | none => rw [hd] at e; cases e
        | some p =>
          obtain ⟨m2, j⟩ := p
          rw [hd] at e
          simp only [Option.map_some, Option.some.injEq, Prod.mk.injEq] at e
          obtain ⟨rfl, rfl⟩ := e
          have := ih m1 l m2 j hd
          rw [← hl, List.drop_drop, Nat.add_comm k j] at this
          exact this
      rw [deserializeAux] at e
      by_cases hd : m.eof = .done
      · rw [if_pos hd] at e
        cases e
        right; left; exact hd
      rw [if_neg hd] at e
      cases hbtd : m.btd with
      | hdr0 id => rw [hbtd] at e; exact one _ r 1 rfl e
      | hdr1 id lsb => rw [hbtd] at e; exact one _ r 1 rfl e
      | some id count =>
        rw [hbtd] at e
        simp only at e
        by_cases hc : count > (b :: r).length
        · rw [if_pos hc] at e
          cases hp : m.push id (b :: r) with
          | none => rw [hp] at e; cases e
          | some m1 =>
            rw [hp] at e
            cases e
            left
            rw [List.drop_length]
        · rw [if_neg hc] at e
          cases hp : m.push id ((b :: r).take count) with
          | none => rw [hp] at e; cases e
          | some m1 =>
            rw [hp] at e
            exact one _ _ count rfl e
      | none =>
        rw [hbtd] at e
        simp only at e
        by_cases hmk : b = 0xff ∨ (b = 0xfe ∧ m.eof ≠ .running)
        · rw [if_pos hmk] at e
          simp only [Option.some.injEq] at e
          have := eof_stop b r hd hmk
          rw [e] at this
          exact this
        · rw [if_neg hmk] at e
          by_cases hb : b.toNat < 16
          · rw [if_pos hb] at e
            by_cases hl : (b :: r).length < 3
            · rw [if_pos hl] at e; exact one _ r 1 rfl e
            · rw [if_neg hl] at e; exact one _ (r.drop 2) 3 rfl e
          · rw [if_neg hb] at e; exact one _ r 1 rfl e

/-- The bytes `X` begin with records and then the end marker in one piece. -/
def Tidy (m : Mux) (X : List UInt8) : Prop :=
  ∃ front s X', X = front ++ (eofRest m.eof ++ X') ∧ runAll (scanOf m) front = some s ∧ s.eof = m.eof ∧
    s.btd = .none ∧ (m.eof ≠ .running → front = [])

theorem runAll_out : ∀ (l : List UInt8) (t : Scan) (o : Bool → List UInt8) (s : Scan), runAll t l = some s →
    ∃ s', runAll ⟨t.btd, t.eof, o⟩ l = some s' ∧ s'.eof = s.eof ∧ s'.btd = s.btd := by
  intro l
  induction l with
  | nil =>
    intro t o s e
    cases e
    exact ⟨_, rfl, rfl, rfl⟩
  | cons b l ih =>
    intro t o s e
    rw [runAll] at e
    cases hs : step t b with
    | none => rw [hs] at e; cases e
    | some t1 =>
      rw [hs, Option.bind_some] at e
      have : ∃ o1, step ⟨t.btd, t.eof, o⟩ b = some ⟨t1.btd, t1.eof, o1⟩ := by
        unfold step at hs ⊢
        by_cases hd : t.eof = .done
        · rw [if_pos hd] at hs; cases hs
        · rw [if_neg hd] at hs
          simp only [if_neg hd]
          cases hb : t.btd with
          | hdr0 id => rw [hb] at hs; cases hs; exact ⟨_, rfl⟩
          | hdr1 id l => rw [hb] at hs; cases hs; exact ⟨_, rfl⟩
          | some id c => rw [hb] at hs; cases hs; exact ⟨_, rfl⟩
          | none =>
            rw [hb] at hs
            simp only at hs ⊢
            by_cases hm : isMark t.eof b
            · rw [if_pos hm] at hs
              rw [if_pos hm]
              cases he : eofStep t.eof b with
              | none => rw [he] at hs; cases hs
              | some e' =>
                rw [he] at hs
                cases hs
                exact ⟨o, by simp [hb]⟩
            · rw [if_neg hm] at hs
              rw [if_neg hm]
              by_cases h16 : b.toNat < 16
              · rw [if_pos h16] at hs
                rw [if_pos h16]
                cases hs; exact ⟨_, rfl⟩
              · rw [if_neg h16] at hs
                rw [if_neg h16]
                cases hs; exact ⟨_, rfl⟩
      obtain ⟨o1, ho1⟩ := this
      obtain ⟨s', k1, k2, k3⟩ := ih t1 o1 s e
      exact ⟨s', by rw [runAll, ho1, Option.bind_some]; exact k1, k2, k3⟩

theorem Tidy.congr {m m' : Mux} {X : List UInt8} (h : Tidy m X) (hb : m'.btd = m.btd) (he : m'.eof = m.eof) :
    Tidy m' X := by
  obtain ⟨front, s, X', h1, h2, h3, h4, h5⟩ := h
  obtain ⟨s', k1, k2, k3⟩ := runAll_out front (scanOf m) m'.unread s h2
  refine ⟨front, s', X', by rw [he]; exact h1, ?_, by rw [he, k2]; exact h3, by rw [k3]; exact h4, by rw [he]; exact h5⟩
  rw [scanOf, hb, he]
  exact k1

theorem step_running {s t : Scan} {b : UInt8} (h : step s b = some t) (ht : t.eof = .running) : s.eof = .running := by
  unfold step at h
  by_cases hd : s.eof = .done
  · rw [if_pos hd] at h; cases h
  · rw [if_neg hd] at h
    cases hb : s.btd with
    | hdr0 id => rw [hb] at h; cases h; exact ht
    | hdr1 id l => rw [hb] at h; cases h; exact ht
    | some id c => rw [hb] at h; cases h; exact ht
    | none =>
      rw [hb] at h
      simp only at h
      by_cases hm : isMark s.eof b
      · rw [if_pos hm] at h
        cases he : s.eof with
        | running => rfl
        | done => exact absurd he hd
        | start =>
          rw [he] at h
          simp only [eofStep] at h
          split at h <;> cases h
          cases ht
        | mid =>
          rw [he] at h
          simp only [eofStep] at h
          split at h <;> cases h
          cases ht
      · rw [if_neg hm] at h
        split at h <;> (cases h; exact ht)

theorem runAll_running : ∀ (l : List UInt8) (s t : Scan), runAll s l = some t → t.eof = .running → s.eof = .running := by
  intro l
  induction l with
  | nil => intro s t h ht; cases h; exact ht
  | cons b l ih =>
    intro s t h ht
    rw [runAll] at h
    cases hs : step s b with
    | none => rw [hs] at h; cases h
    | some s1 =>
      rw [hs, Option.bind_some] at h
      exact step_running hs (ih s1 t h ht)

theorem eofRest_drop (e : Eof) (n : Nat) : eofRest (eofAdvance e n) = (eofRest e).drop n := by
  rcases n with _ | _ | _ | n <;> cases e <;> simp [eofRest, eofAdvance]
  cases n <;> rfl

theorem eofAdvance_all (e : Eof) : eofAdvance e (eofRest e).length = .done := by cases e <;> rfl

/-- Reading on keeps the rest tidy. -/
theorem Tidy.take {m m' : Mux} {X : List UInt8} (h : Tidy m X) (n : Nat)
    (hrun : runAll (scanOf m) (X.take n) = some (scanOf m')) : Tidy m' (X.drop n) := by
  obtain ⟨front, s, X', rfl, h2, h3, h4, h5⟩ := h
  rcases Nat.le_total n front.length with hle | hge
  · rw [List.take_append_of_le_length hle] at hrun
    rw [List.drop_append_of_le_length hle]
    have h2' : runAll (scanOf m') (front.drop n) = some s := by
      rw [← List.take_append_drop n front, runAll_append, hrun, Option.bind_some] at h2
      exact h2
    have he : m'.eof = m.eof := by
      by_cases hr : m.eof = .running
      · rw [hr]
        exact runAll_running _ _ _ h2' (h3.trans hr)
      · have hf := h5 hr
        subst hf
        simp only [List.take_nil, runAll, Option.some.injEq] at hrun
        exact (congrArg Scan.eof hrun).symm
    refine ⟨front.drop n, s, X', by rw [he], h2', by rw [he]; exact h3, h4, ?_⟩
    intro hr
    rw [he] at hr
    rw [h5 hr, List.drop_nil]
  · obtain ⟨k, rfl⟩ : ∃ k, n = front.length + k := ⟨n - front.length, by omega⟩
    rw [List.take_length_add_append] at hrun
    rw [List.drop_length_add_append]
    rw [runAll_append, h2, Option.bind_some] at hrun
    obtain ⟨sb, se, so⟩ := s
    simp only at h3 h4
    subst h3 h4
    rcases Nat.le_total k (eofRest m.eof).length with hk | hk
    · rw [List.take_append_of_le_length hk, runAll_eofRest] at hrun
      rw [List.drop_append_of_le_length hk]
      simp only [Option.some.injEq] at hrun
      have e1 : m'.eof = eofAdvance m.eof k := (congrArg Scan.eof hrun).symm
      have e2 : norm m'.btd = .none := (congrArg Scan.btd hrun).symm
      exact ⟨[], scanOf m', X', by rw [e1, eofRest_drop]; rfl, rfl, rfl, e2, fun _ => rfl⟩
    · obtain ⟨j, rfl⟩ : ∃ j, k = (eofRest m.eof).length + j := ⟨k - (eofRest m.eof).length, by omega⟩
      rw [List.take_length_add_append, runAll_append] at hrun
      rw [List.drop_length_add_append]
      have := runAll_eofRest m.eof (eofRest m.eof).length so
      rw [List.take_length, eofAdvance_all] at this
      rw [this, Option.bind_some] at hrun
      cases hx : X'.take j with
      | nil =>
        rw [hx] at hrun
        simp only [runAll, Option.some.injEq] at hrun
        have e1 : m'.eof = .done := (congrArg Scan.eof hrun).symm
        have e2 : norm m'.btd = .none := (congrArg Scan.btd hrun).symm
        exact ⟨[], scanOf m', X'.drop j, by rw [e1]; rfl, rfl, rfl, e2, fun _ => rfl⟩
      | cons z zs =>
        rw [hx, runAll, step, if_pos rfl] at hrun
        cases hrun

/-- With tidy bytes `deserialize` takes everything it is given, up to the end of the marker. -/
theorem Tidy.deserialize {m m' : Mux} (hok : m.Ok) {pend fut : List UInt8} (h : Tidy m (pend ++ fut)) {n : Nat}
    (e : deserialize m pend = some (m', n)) :
    Tidy m' (pend.drop n ++ fut) ∧ (pend.drop n ≠ [] → m'.eof = .done) := by
  obtain ⟨m1, n1, e1, -, hn, hrun, -⟩ := deserialize_spec hok pend
  rw [e] at e1
  simp only [Option.some.injEq, Prod.mk.injEq] at e1
  obtain ⟨rfl, rfl⟩ := e1
  have ht := h.take n (by rw [List.take_append_of_le_length hn]; exact hrun)
  rw [List.drop_append_of_le_length hn] at ht
  refine ⟨ht, fun hne => ?_⟩
  rcases deserializeAux_stop _ _ _ _ _ e with h0 | h0 | ⟨h1, h2⟩ | ⟨h1, h2⟩
  · exact absurd h0 hne
  · exact h0
  · exfalso
    obtain ⟨front, s, X', k1, -, -, -, k5⟩ := ht
    rw [k5 (by rw [h1]; simp), h1, List.nil_append] at k1
    cases hq : pend.drop n with
    | nil => exact hne hq
    | cons z zs =>
      rw [hq] at k1 h2
      simp only [List.cons_append, eofRest, List.cons.injEq] at k1
      exact h2 (by rw [k1.1]; rfl)
  · exfalso
    obtain ⟨front, s, X', k1, -, -, -, k5⟩ := ht
    rw [k5 (by rw [h1]; simp), h1, List.nil_append] at k1
    cases hq : pend.drop n with
    | nil => exact hne hq
    | cons z zs =>
      rw [hq] at k1 h2
      simp only [List.cons_append, eofRest, List.cons.injEq] at k1
      exact h2 (by rw [k1.1]; rfl)

end Divans.Mux
