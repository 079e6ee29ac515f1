import Verif.CallRun
import Verif.FrameTidy

/-!
# One call of `decode`, header included
-/

namespace Divans.Call
open Divans.Adaptive Divans.Pipe Divans.File
open Divans.Frame (GoodHeader TidyBody)

variable {cm : Bool} {dw : Nat → Nat → Nat → List UInt8} {w : Nat} {F h body tr tail : List UInt8}

/-- What holds between calls, with `fut` still to come and `E` already given out. -/
def DInv (cm : Bool) (dw : Nat → Nat → Nat → List UInt8) (w : Nat) (F h body tr tail : List UInt8) (d : Dec)
    (fut E : List UInt8) : Prop :=
  match d.stage with
  | .header got => ∃ T, FOk cm dw (2 ^ w) F h body tr tail ⟨d.skip, .header got, []⟩ fut E T
  | .body s => ∃ T, BOk cm dw (2 ^ w) F h body tr tail d.skip s.abs [] fut E T ∧ Ext s ∧ Mux.Tidy s.b.mux fut

/-- What a call guarantees. -/
structure Did (cm : Bool) (dw : Nat → Nat → Nat → List UInt8) (w : Nat) (F h body tr tail : List UInt8) (skip : Bool)
    (inp fut E : List UInt8) (room : Nat) (r : Reply) : Prop where
  used : r.used ≤ inp.length
  len : r.out.length ≤ room
  skip : r.dec.skip = skip
  inv : DInv cm dw w F h body tr tail r.dec (inp.drop r.used ++ fut) (E ++ r.out)
  more : r.ret = .needsInput → r.used = inp.length ∧ tail.length < fut.length
  full : r.ret = .needsOutput → r.out.length = room
  done : r.ret = .success → E ++ r.out = F.drop (2 ^ w) ∧ inp.drop r.used ++ fut = tail
  takes : inp.drop r.used ≠ [] → inp.drop r.used ++ fut = tail

/-- The loop behind the header. -/
theorem process_ok (hw : 8 ≤ 2 ^ w) (htl : tr.length = 8) (skip : Bool)
    (hsum : sumOk skip (if skip then Crc.init else Crc.crc32c (h ++ body)) tr = true) {s : St} {inp fut E : List UInt8} {T : Nat}
    (room : Nat) (hb : BOk cm dw (2 ^ w) F h body tr tail skip s.abs inp fut E T) (hx : Ext s)
    (ht : Mux.Tidy s.b.mux (inp ++ fut)) (pre : List UInt8) :
    ∃ k r, (∀ fuel, k ≤ fuel → process dw fuel skip s inp pre.length room = some (.ok r)) ∧
      Did cm dw w F h body tr tail skip (pre ++ inp) fut E room r := by
  have hbase : Base cm dw w F h body tr tail skip fut E inp room ⟨s, .input, inp, room, []⟩ T :=
    ⟨by rw [List.append_nil]; exact hb, hx, ht, by simp, ⟨0, by simp, rfl⟩, by simp⟩
  obtain ⟨c, r, hr, T', ⟨p1, p2, p3, p4, ⟨n, hn, p5⟩, p6⟩, q1, q2, q3, q4⟩ :=
    call_runs hw htl hsum _ _ T rfl hbase (Nat.lt_succ_self _)
  obtain ⟨k, hk⟩ := runs_loop hr
  have hlen : inp.length - c.pend.length = n := by rw [p5, List.length_drop]; omega
  have hdrop : (pre ++ inp).drop (pre.length + n) = c.pend := by
    rw [p5, List.drop_length_add_append]
  refine ⟨k, ⟨⟨skip, .body c.s⟩, pre.length + n, c.out, r⟩, fun fuel hf => ?_, ?_⟩
  · rw [process, hk fuel hf]
    simp only [Option.map_some, Codec.Res.bind, hlen]
  · refine ⟨?_, ?_, rfl, ?_, ?_, ?_, ?_, ?_⟩
    · simp only [List.length_append]; omega
    · simp only; omega
    · refine ⟨T', ?_, p2, ?_⟩
      · exact bok_split p1 (by simp only; rw [hdrop]; rfl)
      · simp only; rw [hdrop]; exact p3
    · intro hret
      obtain ⟨u1, u2⟩ := q1 hret
      have hmd := mem_done htl p1 u2
      rw [u1, List.nil_append] at hmd
      refine ⟨?_, hmd⟩
      rw [u1] at hlen
      simp only [List.length_append, List.length_nil] at hlen ⊢
      omega
    · intro hret
      have := q2 hret
      simp only
      omega
    · intro hret
      obtain ⟨u1, u2⟩ := q3 hret
      exact ⟨u1, by simp only; rw [hdrop]; exact u2⟩
    · simp only
      rw [hdrop]
      intro hne
      obtain ⟨u1, u2⟩ := q4 hne
      exact all_done htl p1 u1 u2

theorem ext_init (skip : Bool) (hd : List UInt8) (w : Nat) : Ext (St.init skip hd w) := by
  refine ⟨by simp [St.init], by simp [St.init], by simp [St.init], ?_, rfl, rfl, by simp [St.init], ?_, by simp [St.init]⟩
  · intro h0; exact absurd rfl h0
  · intro h0; rfl

/-- A call of `decode` returns. -/
theorem decode_ok (hg : GoodHeader h w) (hw : 8 ≤ 2 ^ w) (htl : tr.length = 8) (hbody : TidyBody body) {d : Dec}
    (hsum : sumOk d.skip (if d.skip then Crc.init else Crc.crc32c (h ++ body)) tr = true)
    {inp fut E : List UInt8} (room : Nat) (hd : DInv cm dw w F h body tr tail d (inp ++ fut) E) :
    ∃ k r, (∀ fuel, k ≤ fuel → d.decode dw fuel inp room = some (.ok r)) ∧
      Did cm dw w F h body tr tail d.skip inp fut E room r := by
  obtain ⟨skip, stage⟩ := d
  cases stage with
  | body s =>
    obtain ⟨T, h1, h2, h3⟩ := hd
    exact process_ok (inp := inp) (fut := fut) hw htl skip hsum room (bok_split h1 rfl) h2 h3 []
  | header got =>
    obtain ⟨T, hrest, s, tc, gs, tl, h1, h2, h3, h4, h5, h6, h7, h8⟩ := hd
    simp only [List.nil_append] at h3
    subst h4
    have hlen : got.length + hrest.length = 16 := by rw [← List.length_append, h1, hg.1]
    have hpos : 0 < hrest.length := List.length_pos_iff.mpr h2
    obtain ⟨p1, p2⟩ := pre_split inp hrest fut _ h3
    have h16 : 16 - got.length = hrest.length := by omega
    unfold Dec.decode Frame.headerDecode
    simp only
    rw [h16]
    by_cases hp : inp.length ≥ hrest.length
    · rw [if_pos hp]
      rw [Nat.min_eq_right hp] at p1 p2
      rw [List.take_length] at p1
      rw [List.drop_length, List.nil_append] at p2
      rw [p1, h1, (Frame.parseHeader_iff h hg.1 w).mpr hg]
      simp only
      have hb0 : BOk cm dw (2 ^ w) F h body tr tail skip (St.init skip h w).abs (inp.drop hrest.length) fut [] _ :=
        ⟨[], body, tr, s.out, tc, gs, tl, rfl, rfl, fun _ => rfl, p2, Mux.ok_new,
          ⟨s, h5, h6, fun i => rfl⟩, by
            simp only [List.append_nil]
            rw [← Crc.crc_correct]
            rfl, h7, rfl⟩
      have hti : Mux.Tidy (St.init skip h w).b.mux (inp.drop hrest.length ++ fut) := by
        rw [p2]; exact hbody.tidy _
      have hsplit : hrest ++ inp.drop hrest.length = inp := by
        conv_rhs => rw [← List.take_append_drop hrest.length inp]
        rw [p1]
      by_cases hlt : hrest.length < inp.length
      · simp only [if_pos hlt]
        have := process_ok hw htl skip hsum room hb0 (ext_init skip h w) hti hrest
        rw [hsplit] at this
        exact this
      · simp only [if_neg hlt]
        have hnil : inp.drop hrest.length = [] := List.drop_of_length_le (by omega)
        refine ⟨0, _, fun _ _ => rfl, ⟨hp, by simp, rfl, ?_, ?_, by simp, by simp, fun hne => absurd hnil hne⟩⟩
        · exact ⟨_, bok_split hb0 rfl, ext_init skip h w, hti⟩
        · intro _
          refine ⟨by simp only; omega, ?_⟩
          rw [hnil, List.nil_append] at p2
          rw [p2]
          simp only [List.length_append]
          omega
    · rw [if_neg hp]
      have hmin : min inp.length hrest.length = inp.length := by omega
      rw [hmin] at p1 p2
      rw [List.take_length] at p1
      rw [List.drop_length, List.nil_append] at p2
      refine ⟨0, _, fun _ _ => rfl, ⟨by simp, by simp, rfl, ?_, ?_, by simp, by simp, fun hne => absurd (by simp) hne⟩⟩
      · refine ⟨_, hrest.drop inp.length, s, tc, gs, tl, ?_, ?_, ?_, rfl, h5, h6, h7, rfl⟩
        · rw [← h1, List.append_assoc]
          congr 1
          conv_rhs => rw [← List.take_append_drop inp.length hrest]
          rw [← p1]
        · intro h0
          have := congrArg List.length h0
          rw [List.length_drop, List.length_nil] at this
          omega
        · simp only [List.drop_length, List.nil_append]
          exact p2
      · intro _
        refine ⟨rfl, ?_⟩
        rw [p2]
        simp only [List.length_append, List.length_drop]
        omega

theorem dinv_pre {d : Dec} {fut E : List UInt8} (hd : DInv cm dw w F h body tr tail d fut E) : E <+: F.drop (2 ^ w) := by
  obtain ⟨skip, stage⟩ := d
  cases stage with
  | header got =>
    obtain ⟨T, hrest, s, tc, gs, tl, -, -, -, h4, -⟩ := hd
    rw [h4]; exact List.nil_prefix
  | body s =>
    obtain ⟨T, ⟨bdone, brest, srest, rest, tc, gs, tl, h1, h2, h3, h4, h5, h6, h7, h8, h9⟩, -, -⟩ := hd
    exact h8.main.prefix

theorem dinv_tail {d : Dec} {fut E : List UInt8} (hd : DInv cm dw w F h body tr tail d fut E) : tail <:+ fut := by
  obtain ⟨skip, stage⟩ := d
  cases stage with
  | header got =>
    obtain ⟨T, hrest, s, tc, gs, tl, -, -, h3, -⟩ := hd
    simp only [List.nil_append] at h3
    exact ⟨hrest ++ (body ++ tr), by rw [h3]; simp⟩
  | body s =>
    obtain ⟨T, ⟨bdone, brest, srest, rest, tc, gs, tl, h1, h2, h3, h4, h5, h6, h7, h8, h9⟩, -, -⟩ := hd
    simp only [List.nil_append] at h4
    exact ⟨brest ++ srest, by rw [h4]; simp⟩

end Divans.Call
