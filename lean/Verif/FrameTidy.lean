import Verif.FrameProps
import Verif.MuxTidy

/-!
# The compressor writes the end marker in one piece

Once the coders have been shut down nothing more is handed to the multiplexer, so the end marker is
not interrupted by a record.
-/

namespace Divans.Frame

/-- Records, and then the end marker in one piece. -/
def TidyBody (body : List UInt8) : Prop :=
  ∃ front s, body = front ++ [0xff, 0xfe, 0xff] ∧ Mux.runAll .init front = some s ∧ s.eof = .running ∧
    s.btd = .none

theorem TidyBody.tidy {body : List UInt8} (h : TidyBody body) (X : List UInt8) :
    Mux.Tidy Mux.Mux.new (body ++ X) := by
  obtain ⟨front, s, rfl, h2, h3, h4⟩ := h
  obtain ⟨s', k1, k2, k3⟩ := Mux.runAll_out front .init Mux.Mux.new.unread s h2
  exact ⟨front, s', X, by rw [List.append_assoc]; rfl, k1, k2.trans h3, k3.trans h4, fun h => absurd rfl h⟩

/-- Nothing of the marker is written, or nothing else is left to be written. -/
def MT (m : Mux.Mux) (B : List UInt8) : Prop :=
  m.eof = .running ∨ (Mux.cost m = 0 ∧ TidyBody (B ++ Mux.eofRest m.eof))

theorem close_tidy {m m' : Mux.Mux} {P : Bool → List UInt8} {B out : List UInt8} {room : Nat} (hi : Mux.Inv m)
    (hr : Mux.Rel m P B) (ht : MT m B) (e : Mux.serializeClose m room = some (m', out)) : MT m' (B ++ out) := by
  unfold Mux.serializeClose at e
  by_cases hd : m.eof = .done
  · rw [if_pos hd] at e
    simp only [Option.some.injEq, Prod.mk.injEq] at e
    obtain ⟨rfl, rfl⟩ := e
    rw [List.append_nil]; exact ht
  rw [if_neg hd] at e
  obtain ⟨m1, o, e1, htr, hflush⟩ := Mux.flushInternal_spec hi room
  rw [e1] at e
  simp only [Option.some.injEq, Prod.mk.injEq] at e
  obtain ⟨rfl, rfl⟩ := e
  have hcost := htr.cost
  have hlen := htr.len
  have heof := htr.eof
  rcases ht with hrun | ⟨h0, htb⟩
  · rcases Nat.lt_or_ge o.length room with hlt | hge
    · right
      have hav : m1.avail = 0 := by
        rcases Nat.eq_zero_or_pos m1.avail with h | h
        · exact h
        · have := htr.full (by omega); omega
      obtain ⟨⟨s, hs, hb, hse, -⟩, -⟩ := htr.rel P B (by rwa [List.append_nil])
      rw [hav, List.take_zero, List.append_nil] at hs
      refine ⟨?_, B ++ o, s, ?_, hs, hse.trans (heof.trans hrun), hb⟩
      · show Mux.cost m1 = 0
        have h1 := hflush hlt
        have l0 := Mux.lo_of_zero hav
        simp [Mux.cost, Mux.costOf, l0, h1]
      · simp only
        rw [Mux.eofRest_drop, heof, hrun, ← List.append_assoc, List.append_assoc (B ++ o), List.take_append_drop]
        rfl
    · left
      have : min (Mux.eofRest m1.eof).length (room - o.length) = 0 := by omega
      simp only [this, Mux.eofAdvance]
      rw [heof, hrun]
  · right
    rw [List.length_nil] at hcost
    have ho : o = [] := List.eq_nil_of_length_eq_zero (by omega)
    subst ho
    refine ⟨(by show Mux.cost m1 = 0; omega), ?_⟩
    simp only
    rw [Mux.eofRest_drop, List.nil_append, List.append_assoc, List.take_append_drop, heof]
    exact htb

theorem drain_tidy : ∀ (fuel : Nat) {m m' : Mux.Mux} {P : Bool → List UInt8} {B out : List UInt8} {room : Nat}
    {ok : Bool}, Mux.Inv m → Mux.Rel m P B → MT m B → drain fuel m room = some (m', out, ok) → MT m' (B ++ out) := by
  intro fuel
  induction fuel with
  | zero => intro m m' P B out room ok _ _ _ e; cases e
  | succ fuel ih =>
    intro m m' P B out room ok hi hr ht e
    rw [drain] at e
    by_cases h0 : room = 0
    · rw [if_pos h0] at e
      simp only [Option.some.injEq, Prod.mk.injEq] at e
      obtain ⟨rfl, rfl, -⟩ := e
      rw [List.append_nil]; exact ht
    rw [if_neg h0] at e
    obtain ⟨m1, o, e1, hi1, -, hrel, -⟩ := Mux.close_spec hi room
    rw [e1] at e
    simp only at e
    have ht1 := close_tidy hi hr ht e1
    by_cases hd : m1.isEof = true
    · rw [if_pos hd] at e
      simp only [Option.some.injEq, Prod.mk.injEq] at e
      obtain ⟨rfl, rfl, -⟩ := e
      exact ht1
    · rw [if_neg hd] at e
      cases hq : drain fuel m1 (room - o.length) with
      | none => rw [hq] at e; cases e
      | some x =>
        obtain ⟨m2, o2, ok2⟩ := x
        rw [hq] at e
        simp only [Option.map_some, Option.some.injEq, Prod.mk.injEq] at e
        obtain ⟨rfl, rfl, -⟩ := e
        rw [← List.append_assoc]
        exact ih hi1 (hrel P B hr) ht1 hq

/-- The operations of the coders leave the end marker alone. -/
theorem op_eof {m m' : Mux.Mux} {out : List UInt8} (hi : Mux.Inv m) (op : Mux.MOp)
    (hop : ∀ r, op ≠ .close r) (e : op.run m = some (m', out)) : m'.eof = m.eof := by
  cases op with
  | close r => exact absurd rfl (hop r)
  | serialize room =>
    obtain ⟨m1, o1, e1, htr⟩ := Mux.serialize_spec hi room
    simp only [Mux.MOp.run] at e
    rw [e] at e1
    simp only [Option.some.injEq, Prod.mk.injEq] at e1
    rw [e1.1]; exact htr.eof
  | push i data =>
    simp only [Mux.MOp.run, Mux.Mux.push, Option.bind_eq_bind] at e
    cases hb : (m.buf i).push data with
    | none => rw [hb] at e; cases e
    | some b => rw [hb] at e; cases e; rfl
  | fill i data =>
    simp only [Mux.MOp.run, Mux.Mux.fill, Option.bind_eq_bind] at e
    cases h0 : Mux.prepPush (m.buf false) 16 with
    | none => rw [h0] at e; cases e
    | some b0 =>
      cases h1 : Mux.prepPush (m.buf true) 16 with
      | none => rw [h0, h1] at e; cases e
      | some b1 =>
        rw [h0, h1] at e
        simp only [Option.bind_some] at e
        cases hw : Mux.writeAt (if i = true then b1 else b0).mem (if i = true then b1 else b0).stop data with
        | none => rw [hw] at e; cases e
        | some x => rw [hw] at e; cases e; rfl

/-- The invariant of the container, and that the marker is in one piece. -/
structure TInv (c : Cmp) (P : Bool → List UInt8) (B E : List UInt8) : Prop where
  inv : CInv c P B E
  code : c.stage = .code → c.mux.eof = .running
  mt : MT c.mux B

theorem tinv_new (w : UInt8) : TInv (Cmp.new w) (fun _ => []) [] [] := ⟨cinv_new w, fun _ => rfl, Or.inl rfl⟩

theorem append_mid {a b c d : List UInt8} (h : a ++ b ++ c = a ++ d ++ c) : b = d := by
  rw [List.append_assoc, List.append_assoc] at h
  exact List.append_cancel_right (List.append_cancel_left h)

theorem finish_tidy {c c' : Cmp} {P P' : Bool → List UInt8} {B B' E out : List UInt8} {room : Nat} {ok : Bool}
    (h : TInv c P B E) (h16 : c.progress = 16) (e : c.finish room = some (c', out, ok)) (h' : CInv c' P' B' (E ++ out)) :
    TInv c' P' B' (E ++ out) := by
  have hE := h.inv.out
  have hE' := h'.out
  have early : c.stage.early = true → (match drain (room + 2) c.mux room with
        | none => none
        | some (m, out, false) =>
          some (({ c with mux := m, crc := Crc.update c.crc out, stage := .drain } : Cmp), out, false)
        | some (m, out, true) =>
          let r := ({ c with mux := m, crc := Crc.update c.crc out, stage := .check 0 } : Cmp).check 0
            (room - out.length)
          some (r.1, out ++ r.2.1, r.2.2)) = some (c', out, ok) → TInv c' P' B' (E ++ out) := by
    intro he e
    have hw : c.stage.written = 0 := by
      cases hs : c.stage <;> rw [hs] at he <;> simp [Stage.early, Stage.written] at he ⊢
    rw [hw, List.take_zero, List.append_nil] at hE
    cases hd : drain (room + 2) c.mux room with
    | none => rw [hd] at e; cases e
    | some x =>
      obtain ⟨m, o, k⟩ := x
      have hmt := drain_tidy _ h.inv.minv h.inv.rel h.mt hd
      rw [hd] at e
      cases k with
      | false =>
        simp only [Option.some.injEq, Prod.mk.injEq] at e
        obtain ⟨rfl, rfl, -⟩ := e
        refine ⟨h', fun hx => by simp at hx, ?_⟩
        simp only [Stage.written, List.take_zero, List.append_nil] at hE'
        rw [hE, List.append_assoc] at hE'
        rw [← List.append_cancel_left hE']
        exact hmt
      | true =>
        simp only [Option.some.injEq, Prod.mk.injEq] at e
        obtain ⟨e1, e2, -⟩ := e
        have key : ∃ n, c' = { c with mux := m, crc := Crc.update c.crc o, stage := n } ∧ n ≠ .code ∧
            out = o ++ (trailer (Crc.update c.crc o)).take n.written := by
          unfold Cmp.check at e1 e2
          simp only [Nat.sub_zero, List.drop_zero, Nat.zero_add] at e1 e2
          by_cases hr : 8 ≤ room - o.length
          · rw [if_pos hr] at e1 e2
            simp only at e1 e2
            exact ⟨.done, e1.symm, by simp, by rw [← e2, Nat.min_eq_right hr]; rfl⟩
          · rw [if_neg hr] at e1 e2
            simp only at e1 e2
            exact ⟨_, e1.symm, by simp, e2.symm⟩
        obtain ⟨n, rfl, hn, rfl⟩ := key
        refine ⟨h', fun hx => absurd hx hn, ?_⟩
        simp only at hE'
        rw [hE, ← List.append_assoc, List.append_assoc _ B o] at hE'
        rw [← append_mid hE']
        exact hmt
  unfold Cmp.finish at e
  cases hs : c.stage with
  | code => rw [hs] at e; exact early (by rw [hs]; rfl) e
  | drain => rw [hs] at e; exact early (by rw [hs]; rfl) e
  | done =>
    rw [hs] at e
    simp only [Option.some.injEq, Prod.mk.injEq] at e
    obtain ⟨rfl, rfl, -⟩ := e
    rw [hE, List.append_nil] at hE'
    exact ⟨h', h.code, by rw [← append_mid hE']; exact h.mt⟩
  | check n =>
    rw [hs] at e hE
    simp only [Option.some.injEq] at e
    have key : ∃ n', c' = { c with stage := n' } ∧ n' ≠ .code ∧
        (trailer c.crc).take n ++ out = (trailer c.crc).take n'.written := by
      unfold Cmp.check at e
      have hsum := h.inv.sum
      rw [hs] at hsum
      simp only [Stage.written] at hsum
      by_cases hr : 8 - n ≤ room
      · rw [if_pos hr] at e
        simp only [Prod.mk.injEq] at e
        obtain ⟨rfl, rfl, -⟩ := e
        refine ⟨.done, rfl, by simp, ?_⟩
        rw [← List.take_add, Nat.min_eq_right hr, Stage.written]
        congr 1; omega
      · rw [if_neg hr] at e
        simp only [Prod.mk.injEq] at e
        obtain ⟨rfl, rfl, -⟩ := e
        exact ⟨_, rfl, by simp, by rw [← List.take_add]; rfl⟩
    obtain ⟨n', rfl, hn, ho⟩ := key
    refine ⟨h', fun hx => absurd hx hn, ?_⟩
    simp only at hE'
    rw [hE, List.append_assoc, show (Stage.check n).written = n from rfl, ho] at hE'
    rw [← append_mid hE']
    exact h.mt

theorem flush_tidy {c c' : Cmp} {P : Bool → List UInt8} {B E out : List UInt8} {room : Nat} {ok : Bool}
    (h : TInv c P B E) (e : c.flush room = some (c', out, ok)) : ∃ B', TInv c' P B' (E ++ out) := by
  obtain ⟨c1, w, ok1, e1, hinv1, -, -, hm, hst, h16, hno, -⟩ := header_spec h.inv room
  have h1 : TInv c1 P B (E ++ w) := ⟨hinv1, by rw [hst, hm]; exact h.code, by rw [hm]; exact h.mt⟩
  unfold Cmp.flush at e
  rw [e1] at e
  cases ok1 with
  | false =>
    simp only [Option.some.injEq, Prod.mk.injEq] at e
    obtain ⟨rfl, rfl, -⟩ := e
    exact ⟨B, h1⟩
  | true =>
    obtain ⟨c2, o2, ok2, B', e2, hinv2, -⟩ := finish_spec hinv1 (h16 rfl) (room - w.length)
    have h2 := finish_tidy h1 (h16 rfl) e2 hinv2
    simp only [e2, Option.map_some, Option.some.injEq, Prod.mk.injEq] at e
    obtain ⟨rfl, rfl, -⟩ := e
    exact ⟨B', by rw [← List.append_assoc]; exact h2⟩

theorem op_tidy {c : Cmp} {P : Bool → List UInt8} {B E : List UInt8} (h : TInv c P B E) (op : COp)
    (hal : op.allowed c = true) :
    ∃ c' out B', op.run c = some (c', out) ∧ TInv c' (fun i => P i ++ coded i [op]) B' (E ++ out) ∧
      c'.window = c.window := by
  cases op with
  | begin room =>
    obtain ⟨c', out, ok, e, hinv, -, hw, hm, hst, -⟩ := header_spec h.inv room
    exact ⟨c', out, B, by simp only [COp.run, e], ⟨by simpa [coded] using hinv, by rw [hst, hm]; exact h.code,
      by rw [hm]; exact h.mt⟩, hw⟩
  | code op =>
    obtain ⟨c', out, e, hinv, hw⟩ := code_spec h.inv op hal
    have hrun : c'.mux.eof = .running := by
      simp only [COp.allowed, Bool.and_eq_true, decide_eq_true_eq] at hal
      obtain ⟨⟨⟨-, hst⟩, -⟩, hcl⟩ := hal
      rw [Cmp.code] at e
      cases ho : op.run c.mux with
      | none => rw [ho] at e; cases e
      | some x =>
        obtain ⟨m', o⟩ := x
        rw [ho] at e
        simp only [Option.map_some, Option.some.injEq, Prod.mk.injEq] at e
        obtain ⟨rfl, -⟩ := e
        have := op_eof h.inv.minv op (by rintro r rfl; cases hcl) ho
        simp only
        rw [this]
        exact h.code hst
    exact ⟨c', out, B ++ out, e, ⟨by simpa [coded] using hinv, fun _ => hrun, Or.inl hrun⟩, hw⟩
  | flush room =>
    obtain ⟨c', out, ok, B', e, hinv, -, hw, -⟩ := flush_spec h.inv room
    obtain ⟨B'', ht⟩ := flush_tidy h e
    exact ⟨c', out, B'', by simp only [COp.run, e, Option.map_some], by simpa [coded] using ht, hw⟩

theorem crun_tidy : ∀ (ops : List COp) {c : Cmp} {P : Bool → List UInt8} {B E : List UInt8}, TInv c P B E →
    clegal c ops = true →
    ∃ c' out B', crun c ops = some (c', out) ∧ TInv c' (fun i => P i ++ coded i ops) B' (E ++ out) ∧
      c'.window = c.window := by
  intro ops
  induction ops with
  | nil =>
    intro c P B E h _
    exact ⟨c, [], B, rfl, by simpa [coded] using h, rfl⟩
  | cons op ops ih =>
    intro c P B E h hl
    rw [clegal, Bool.and_eq_true] at hl
    obtain ⟨hal, hl⟩ := hl
    obtain ⟨c1, o1, B1, e1, h1, w1⟩ := op_tidy h op hal
    rw [e1] at hl
    obtain ⟨c2, o2, B2, e2, h2, w2⟩ := ih h1 hl
    refine ⟨c2, o1 ++ o2, B2, by simp only [crun, e1, Option.bind_some, e2, Option.map_some], ?_, w2.trans w1⟩
    have hP : (fun i => P i ++ coded i (op :: ops)) = fun i => (P i ++ coded i [op]) ++ coded i ops := by
      funext i; rw [coded_cons, List.append_assoc]
    rw [hP, ← List.append_assoc]
    exact h2

/-- As `container_layout`, with the end marker in one piece at the end of the streams. -/
theorem container_tidy (w : UInt8) (ops : List COp) (hl : clegal (.new w) ops = true) :
    ∃ c out, crun (.new w) ops = some (c, out) ∧
      (c.stage = .done → ∃ body, Body (coded false ops) (coded true ops) body ∧ TidyBody body ∧
        out = fileOf w.toNat body) := by
  obtain ⟨c, out, B, e, ht, hw⟩ := crun_tidy ops (tinv_new w) hl
  have h := ht.inv
  refine ⟨c, out, e, fun hd => ⟨B, ?_, ?_, ?_⟩⟩
  · have := body_of_rel h.rel (h.eof (by rw [hd]; rfl))
    simpa using this
  · have hdone := h.eof (by rw [hd]; rfl)
    rcases ht.mt with hr | ⟨-, htb⟩
    · rw [hr] at hdone; cases hdone
    · rw [hdone] at htb
      simpa [Mux.eofRest] using htb
  · have h16 : c.progress = 16 := by
      rcases Nat.lt_or_ge c.progress 16 with hlt | hge
      · have := (h.first hlt).2; rw [hd] at this; cases this
      · have := h.le; omega
    have hE := h.out
    have hcrc := h.crc
    rw [hd, h16, List.take_of_length_le (by rw [makeHeader_length]), hw, List.nil_append] at hE
    rw [h16, List.take_of_length_le (by rw [makeHeader_length]), hw] at hcrc
    rw [hE, hcrc, fileOf_eq]
    rfl

end Divans.Frame
