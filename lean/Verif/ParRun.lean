import Verif.ParMain
import Verif.CallDec

/-!
# A call of the decompressor with a thread, under every schedule
-/

namespace Divans.Par
open Divans.Adaptive Divans.Pipe Divans.File
open Divans.Call
open Divans.Frame (GoodHeader TidyBody)

/-- Whatever the scheduler does, the call in progress ends, and then `P` holds: neither thread fails or panics, one
of them can go on, `P` holds if the call ends now, and after a step of either thread this is again so.  The
definition is inductive, so there is no infinite sequence of steps. -/
inductive Always (dw : Nat → Nat → Nat → List UInt8) (skip : Bool) (P : Conf → Ret → Prop) : Conf → Prop where
  | mk {c : Conf} (main : ∃ x, c.tick dw skip = .ok x) (worker : ∃ x, c.p.work = .ok x)
      (moves : c.tick dw skip ≠ .ok none ∨ c.p.work ≠ .ok none)
      (last : ∀ c' r, c.tick dw skip = .ok (some (c', some r)) → P c' r)
      (next : ∀ c', Step dw skip c c' → Always dw skip P c') : Always dw skip P c

section
variable {cm : Bool} {dw : Nat → Nat → Nat → List UInt8} {w : Nat} {F h body tr tail : List UInt8} {skip : Bool}
variable {fut E0 inp : List UInt8} {R : Nat}

theorem base_worker {c : Conf} {T : Nat} (hb : Base cm dw w F h body tr tail skip fut E0 inp R c T) {q : St} {T' : Nat}
    (h1 : BOk cm dw (2 ^ w) F h body tr tail skip (q.view c.ph.count).abs c.pend fut (E0 ++ c.out) T')
    (h2 : Ext (q.view c.ph.count)) (h3 : Side q) (h4 : Apart c.p q) (h5 : q.pot T' < c.p.pot T) :
    Base cm dw w F h body tr tail skip fut E0 inp R { c with p := q } T' ∧ Conf.mu { c with p := q } T' < c.mu T := by
  obtain ⟨b1, b2, b3, b4, b5, b6, b7, b8, b9, b10⟩ := hb
  obtain ⟨a1, a2, a3, a4, a5, a6⟩ := h4
  refine ⟨⟨h1, h2, h3, by simp only [a3]; exact b4, by simp only [a1]; exact b5, b6, b7, by simp only [a1, a2]; exact b8,
    by simp only [a1]; exact b9, by simp only [a1, a3]; exact b10⟩, ?_⟩
  have hfe : fetches q.s = fetches c.p.s := by unfold fetches; rw [a4, a5, a6]
  simp only [Conf.mu, hfe]
  omega

/-- Every schedule of a call ends well. -/
theorem always_ok (hw : 8 ≤ 2 ^ w) (htl : tr.length = 8)
    (hsum : sumOk skip (if skip then Crc.init else Crc.crc32c (h ++ body)) tr = true) :
    ∀ (M : Nat) (c : Conf) (T : Nat), Base cm dw w F h body tr tail skip fut E0 inp R c T → c.mu T < M →
      Always dw skip (Post cm dw w F h body tr tail skip fut E0 inp R) c := by
  intro M
  induction M with
  | zero => intro c T _ h0; omega
  | succ M ih =>
    intro c T hb hM
    have ht := tick_ok hw htl hsum hb
    have hk := pwork_ok hb.ok hb.ext hb.side
    refine .mk ?_ ?_ ?_ ?_ ?_
    · rcases ht with h1 | ⟨c', T', h1, -⟩ | ⟨c', r, h1, -⟩
      · exact ⟨_, h1.1⟩
      · exact ⟨_, h1⟩
      · exact ⟨_, h1⟩
    · rcases hk with h1 | ⟨q, T', h1, -⟩
      · exact ⟨_, h1.1⟩
      · exact ⟨_, h1⟩
    · rcases ht with ⟨h1, h2, h3, h4, h5, h6⟩ | ⟨c', T', h1, -⟩ | ⟨c', r, h1, -⟩
      · right
        rcases hk with ⟨k1, k2⟩ | ⟨q, T', k1, -⟩
        · exfalso
          have hq : c.p.s.b.rcv.queue = [] := by
            unfold fetches at h3
            simp only [Bool.and_eq_true, List.isEmpty_iff] at h3
            exact h3.1.2
          rcases k2 with k2 | k2 | k2 | k2 | ⟨k2, k3⟩
          · rw [h6] at k2; cases k2
          · exact k2 h4
          · exact k2 h5
          · exact k2 hq
          · rw [h2] at k2
            simp only [Phase.count] at k2
            rcases hb.fed (by rw [h2]; simp) (by omega) with ⟨u1, u2⟩ | ⟨ms, u⟩
            · exact k3 u1 u2
            · rw [h2] at u; cases u
        · rw [k1]; simp
      · left; rw [h1]; simp
      · left; rw [h1]; simp
    · intro c' r e
      rcases ht with ⟨h1, -⟩ | ⟨c1, T', h1, -⟩ | ⟨c1, r1, h1, h2⟩
      · rw [e] at h1; cases h1
      · rw [e] at h1; cases h1
      · rw [e] at h1
        simp only [Codec.Res.ok.injEq, Option.some.injEq, Prod.mk.injEq] at h1
        obtain ⟨rfl, rfl⟩ := h1
        exact h2
    · intro c' hs
      cases hs with
      | main e =>
        rcases ht with ⟨h1, -⟩ | ⟨c1, T', h1, h2, h3⟩ | ⟨c1, r1, h1, -⟩
        · rw [e] at h1; cases h1
        · rw [e] at h1
          simp only [Codec.Res.ok.injEq, Option.some.injEq, Prod.mk.injEq, and_true] at h1
          subst h1
          exact ih _ T' h2 (by omega)
        · rw [e] at h1; cases h1
      | worker e =>
        rcases hk with ⟨h1, -⟩ | ⟨q, T', h1, h2, h3, h4, h5, h6⟩
        · rw [e] at h1; cases h1
        · rw [e] at h1
          simp only [Codec.Res.ok.injEq, Option.some.injEq] at h1
          subst h1
          obtain ⟨k1, k2⟩ := base_worker hb h2 h3 h4 h5 h6
          exact ih _ T' k1 (by omega)

end

/-! ## A call, header included -/

/-- Whatever the scheduler does, the call returns, and then `P` holds. -/
def Dec.Always (dw : Nat → Nat → Nat → List UInt8) (d : Dec) (input : List UInt8) (room : Nat) (P : Reply → Prop) : Prop :=
  match d.begin input room with
  | .ok (.inl r) => P r
  | .ok (.inr (c, before)) => Par.Always dw d.skip (fun c' v => P (c'.reply d.skip c.pend before v)) c
  | _ => False

theorem Always.mono {dw : Nat → Nat → Nat → List UInt8} {skip : Bool} {P Q : Conf → Ret → Prop} (hpq : ∀ c r, P c r → Q c r)
    {c : Conf} (ha : Always dw skip P c) : Always dw skip Q c := by
  induction ha with
  | mk h1 h2 h3 h4 _ ih => exact .mk h1 h2 h3 (fun c' r e => hpq _ _ (h4 c' r e)) ih

theorem Always.ends {dw : Nat → Nat → Nat → List UInt8} {skip : Bool} {P : Conf → Ret → Prop} {c c' : Conf} {r : Ret}
    (ha : Always dw skip P c) (he : Ends dw skip c c' r) : P c' r := by
  induction he with
  | last e =>
    cases ha with
    | mk h1 h2 h3 h4 h5 => exact h4 _ _ e
  | step e _ ih =>
    cases ha with
    | mk h1 h2 h3 h4 h5 => exact ih (h5 _ e)

theorem Always.exists {dw : Nat → Nat → Nat → List UInt8} {skip : Bool} {P : Conf → Ret → Prop} {c : Conf}
    (ha : Always dw skip P c) : ∃ c' r, Ends dw skip c c' r := by
  induction ha with
  | @mk c h1 h2 h3 h4 _ ih =>
    obtain ⟨x, hx⟩ := h1
    obtain ⟨y, hy⟩ := h2
    cases x with
    | some x =>
      obtain ⟨c1, r⟩ := x
      cases r with
      | some r => exact ⟨c1, r, .last hx⟩
      | none =>
        obtain ⟨c', r, e⟩ := ih c1 (.main hx)
        exact ⟨c', r, .step (.main hx) e⟩
    | none =>
      cases y with
      | some p =>
        obtain ⟨c', r, e⟩ := ih _ (.worker hy)
        exact ⟨c', r, .step (.worker hy) e⟩
      | none =>
        rcases h3 with h3 | h3
        · exact absurd hx h3
        · exact absurd hy h3

theorem Dec.Always.mono {dw : Nat → Nat → Nat → List UInt8} {d : Dec} {input : List UInt8} {room : Nat} {P Q : Reply → Prop}
    (hpq : ∀ r, P r → Q r) (ha : d.Always dw input room P) : d.Always dw input room Q := by
  unfold Dec.Always at ha ⊢
  cases hb : d.begin input room with
  | fail => rw [hb] at ha; exact ha
  | panic => rw [hb] at ha; exact ha
  | ok x =>
    rw [hb] at ha
    cases x with
    | inl r => exact hpq _ ha
    | inr y => exact Par.Always.mono (fun c r => hpq _) ha

theorem Dec.Always.returns {dw : Nat → Nat → Nat → List UInt8} {d : Dec} {input : List UInt8} {room : Nat} {P : Reply → Prop}
    {r : Reply} (ha : d.Always dw input room P) (hr : d.Returns dw input room r) : P r := by
  unfold Dec.Always at ha
  unfold Dec.Returns at hr
  cases hb : d.begin input room with
  | fail => rw [hb] at ha; exact ha.elim
  | panic => rw [hb] at ha; exact ha.elim
  | ok x =>
    rw [hb] at ha hr
    cases x with
    | inl r' =>
      simp only at ha hr
      rw [hr]; exact ha
    | inr y =>
      obtain ⟨c', v, h1, rfl⟩ := hr
      exact Par.Always.ends ha h1

theorem Dec.Always.exists {dw : Nat → Nat → Nat → List UInt8} {d : Dec} {input : List UInt8} {room : Nat} {P : Reply → Prop}
    (ha : d.Always dw input room P) : ∃ r, d.Returns dw input room r := by
  unfold Dec.Always at ha
  unfold Dec.Returns
  cases hb : d.begin input room with
  | fail => rw [hb] at ha; exact ha.elim
  | panic => rw [hb] at ha; exact ha.elim
  | ok x =>
    rw [hb] at ha
    cases x with
    | inl r' => exact ⟨r', rfl⟩
    | inr y =>
      obtain ⟨c', v, e⟩ := Par.Always.exists ha
      exact ⟨_, c', v, e, rfl⟩

section
variable {cm : Bool} {dw : Nat → Nat → Nat → List UInt8} {w : Nat} {F h body tr tail : List UInt8}

/-- What holds between calls, with `fut` still to come and `E` already given out. -/
def DInv (cm : Bool) (dw : Nat → Nat → Nat → List UInt8) (w : Nat) (F h body tr tail : List UInt8) (d : Dec)
    (fut E : List UInt8) : Prop :=
  match d.stage with
  | .header got => ∃ T, FOk cm dw (2 ^ w) F h body tr tail ⟨d.skip, .header got, []⟩ fut E T
  | .body p => ∃ T, BOk cm dw (2 ^ w) F h body tr tail d.skip (p.view 0).abs [] fut E T ∧ Ext (p.view 0) ∧ Side p ∧
      Mux.Tidy p.s.b.mux fut

/-- What a call guarantees. -/
structure Did (cm : Bool) (dw : Nat → Nat → Nat → List UInt8) (w : Nat) (F h body tr tail : List UInt8) (skip : Bool)
    (inp fut E : List UInt8) (room : Nat) (r : Reply) : Prop where
  used : r.used ≤ inp.length
  len : r.out.length ≤ room
  skip : r.dec.skip = skip
  inv : DInv cm dw w F h body tr tail r.dec (inp.drop r.used ++ fut) (E ++ r.out)
  more : r.ret = .needsInput → r.used = inp.length ∧ tail.length < fut.length
  full : r.ret = .needsOutput → r.out.length = room
  done : r.ret = .success → E ++ r.out = F.drop (2 ^ w) ∧ inp.drop r.used ++ fut = tail
  takes : inp.drop r.used ≠ [] → inp.drop r.used ++ fut = tail

/-- The loop behind the header. -/
theorem process_ok (hw : 8 ≤ 2 ^ w) (htl : tr.length = 8) (skip : Bool)
    (hsum : sumOk skip (if skip then Crc.init else Crc.crc32c (h ++ body)) tr = true) {p : St} {inp fut E : List UInt8} {T : Nat}
    (room : Nat) (hb : BOk cm dw (2 ^ w) F h body tr tail skip (p.view 0).abs inp fut E T) (hx : Ext (p.view 0)) (hs : Side p)
    (ht : Mux.Tidy p.s.b.mux (inp ++ fut)) (pre : List UInt8) :
    Par.Always dw skip (fun c' v => Did cm dw w F h body tr tail skip (pre ++ inp) fut E room (c'.reply skip inp pre.length v))
      ⟨p, .input, inp, room, []⟩ := by
  have hbase : Base cm dw w F h body tr tail skip fut E inp room ⟨p, .input, inp, room, []⟩ T :=
    ⟨by rw [List.append_nil]; exact hb, hx, hs, Nat.zero_le _, ht, by simp, ⟨0, by simp, rfl⟩, by simp, by simp, by simp⟩
  refine (always_ok hw htl hsum _ _ T hbase (Nat.lt_succ_self _)).mono ?_
  rintro c r ⟨T', p1, p2, p3, p4, p5, ⟨n, hn, p6⟩, q1, q2, q3, q4⟩
  have hlen : inp.length - c.pend.length = n := by rw [p6, List.length_drop]; omega
  have hdrop : (pre ++ inp).drop (pre.length + n) = c.pend := by
    rw [p6, List.drop_length_add_append]
  unfold Conf.reply
  rw [hlen]
  refine ⟨?_, ?_, rfl, ?_, ?_, ?_, ?_, ?_⟩
  · simp only [List.length_append]; omega
  · simp only; omega
  · refine ⟨T', ?_, p2, p3, ?_⟩
    · exact bok_split p1 (by simp only; rw [hdrop]; rfl)
    · simp only; rw [hdrop]; exact p4
  · intro hret
    obtain ⟨u1, u2⟩ := q1 hret
    have hmd := mem_done htl p1 u2
    rw [u1, List.nil_append] at hmd
    refine ⟨?_, hmd⟩
    rw [u1] at hlen
    simp only [List.length_append, List.length_nil] at hlen ⊢
    omega
  · intro hret
    have := q2 hret
    simp only
    omega
  · intro hret
    obtain ⟨u1, u2⟩ := q3 hret
    exact ⟨u1, by simp only; rw [hdrop]; exact u2⟩
  · simp only
    rw [hdrop]
    intro hne
    obtain ⟨u1, u2⟩ := q4 hne
    exact all_done htl p1 u1 u2

theorem side_init (skip : Bool) (hd : List UInt8) (w : Nat) : Side (St.init skip hd w) := by
  refine ⟨by simp [St.init], fun _ => by simp [St.init, pms], by simp [St.init], by simp [St.init, Call.St.init], by simp [St.init]⟩

theorem view_init (skip : Bool) (hd : List UInt8) (w : Nat) : (St.init skip hd w).view 0 = Call.St.init skip hd w := rfl

/-- A call returns under every schedule. -/
theorem decode_ok (hg : GoodHeader h w) (hw : 8 ≤ 2 ^ w) (htl : tr.length = 8) (hbody : TidyBody body) {d : Dec}
    (hsum : sumOk d.skip (if d.skip then Crc.init else Crc.crc32c (h ++ body)) tr = true)
    {inp fut E : List UInt8} (room : Nat) (hd : DInv cm dw w F h body tr tail d (inp ++ fut) E) :
    d.Always dw inp room (Did cm dw w F h body tr tail d.skip inp fut E room) := by
  obtain ⟨skip, stage⟩ := d
  cases stage with
  | body p =>
    obtain ⟨T, h1, h2, h3, h4⟩ := hd
    exact process_ok (inp := inp) (fut := fut) hw htl skip hsum room (bok_split h1 rfl) h2 h3 h4 []
  | header got =>
    obtain ⟨T, hrest, s, tc, gs, tl, h1, h2, h3, h4, h5, h6, h7, h8⟩ := hd
    simp only [List.nil_append] at h3
    subst h4
    have hlen : got.length + hrest.length = 16 := by rw [← List.length_append, h1, hg.1]
    have hpos : 0 < hrest.length := List.length_pos_iff.mpr h2
    obtain ⟨p1, p2⟩ := pre_split inp hrest fut _ h3
    have h16 : 16 - got.length = hrest.length := by omega
    unfold Dec.Always Dec.begin Frame.headerDecode
    simp only
    rw [h16]
    by_cases hp : inp.length ≥ hrest.length
    · rw [if_pos hp]
      rw [Nat.min_eq_right hp] at p1 p2
      rw [List.take_length] at p1
      rw [List.drop_length, List.nil_append] at p2
      rw [p1, h1, (Frame.parseHeader_iff h hg.1 w).mpr hg]
      simp only
      have hb0 : BOk cm dw (2 ^ w) F h body tr tail skip ((St.init skip h w).view 0).abs (inp.drop hrest.length) fut [] _ :=
        ⟨[], body, tr, s.out, tc, gs, tl, rfl, rfl, fun _ => rfl, p2, Mux.ok_new,
          ⟨s, h5, h6, fun i => rfl⟩, by
            simp only [List.append_nil]
            rw [← Crc.crc_correct]
            rfl, h7, rfl⟩
      have hti : Mux.Tidy (St.init skip h w).s.b.mux (inp.drop hrest.length ++ fut) := by
        rw [p2]; exact hbody.tidy _
      have hex : Ext ((St.init skip h w).view 0) := by rw [view_init]; exact ext_init skip h w
      have hsplit : hrest ++ inp.drop hrest.length = inp := by
        conv_rhs => rw [← List.take_append_drop hrest.length inp]
        rw [p1]
      by_cases hlt : hrest.length < inp.length
      · simp only [if_pos hlt]
        have := process_ok hw htl skip hsum room hb0 hex (side_init skip h w) hti hrest
        rw [hsplit] at this
        exact this
      · simp only [if_neg hlt]
        have hnil : inp.drop hrest.length = [] := List.drop_of_length_le (by omega)
        refine ⟨hp, by simp, rfl, ?_, ?_, by simp, by simp, fun hne => absurd hnil hne⟩
        · exact ⟨_, bok_split hb0 rfl, hex, side_init skip h w, hti⟩
        · intro _
          refine ⟨by simp only; omega, ?_⟩
          rw [hnil, List.nil_append] at p2
          rw [p2]
          simp only [List.length_append]
          omega
    · rw [if_neg hp]
      have hmin : min inp.length hrest.length = inp.length := by omega
      rw [hmin] at p1 p2
      rw [List.take_length] at p1
      rw [List.drop_length, List.nil_append] at p2
      refine ⟨by simp, by simp, rfl, ?_, ?_, by simp, by simp, fun hne => absurd (by simp) hne⟩
      · refine ⟨_, hrest.drop inp.length, s, tc, gs, tl, ?_, ?_, ?_, rfl, h5, h6, h7, rfl⟩
        · rw [← h1, List.append_assoc]
          congr 1
          conv_rhs => rw [← List.take_append_drop inp.length hrest]
          rw [← p1]
        · intro h0
          have := congrArg List.length h0
          rw [List.length_drop, List.length_nil] at this
          omega
        · simp only [List.drop_length, List.nil_append]
          exact p2
      · intro _
        refine ⟨rfl, ?_⟩
        rw [p2]
        simp only [List.length_append, List.length_drop]
        omega

theorem dinv_pre {d : Dec} {fut E : List UInt8} (hd : DInv cm dw w F h body tr tail d fut E) : E <+: F.drop (2 ^ w) := by
  obtain ⟨skip, stage⟩ := d
  cases stage with
  | header got =>
    obtain ⟨T, hrest, s, tc, gs, tl, -, -, -, h4, -⟩ := hd
    rw [h4]; exact List.nil_prefix
  | body s =>
    obtain ⟨T, ⟨bdone, brest, srest, rest, tc, gs, tl, h1, h2, h3, h4, h5, h6, h7, h8, h9⟩, -, -⟩ := hd
    exact h8.main.prefix

theorem dinv_tail {d : Dec} {fut E : List UInt8} (hd : DInv cm dw w F h body tr tail d fut E) : tail <:+ fut := by
  obtain ⟨skip, stage⟩ := d
  cases stage with
  | header got =>
    obtain ⟨T, hrest, s, tc, gs, tl, -, -, h3, -⟩ := hd
    simp only [List.nil_append] at h3
    exact ⟨hrest ++ (body ++ tr), by rw [h3]; simp⟩
  | body s =>
    obtain ⟨T, ⟨bdone, brest, srest, rest, tc, gs, tl, h1, h2, h3, h4, h5, h6, h7, h8, h9⟩, -, -⟩ := hd
    simp only [List.nil_append] at h4
    exact ⟨brest ++ srest, by rw [h4]; simp⟩

end
end Divans.Par
