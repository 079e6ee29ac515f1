import Verif.CallEndRun
import Verif.CallAnyProps

/-!
# Every call of `decode` ends, whatever the bytes: C62

A decompressor that was given any bytes in any calls is given any more: the next call ends.  It returns, reports
failure or panics; there is no endless loop in the decompressor (with one known exception, inside the recoder).
And when a call has reported success, every further call does so too, takes nothing and writes nothing.
-/

namespace Divans.Call
open Divans.Adaptive Divans.Pipe Divans.File
open Divans.Frame (GoodHeader)

section
variable {dw : Nat → Nat → Nat → List UInt8} {skip : Bool} {L : Nat}

/-! ## The state between calls -/

/-- Behind a header. -/
theorem init_live (skip : Bool) (h : List UInt8) (w : Nat) : Live (2 ^ w) (St.init skip h w) := by
  have hp : 0 < 2 ^ w := Nat.two_pow_pos w
  refine ⟨ext_init skip h w, ?_, ?_, ?_, Mux.ok_new, ?_, ?_, ?_, by simp [St.init], by simp [St.init], ?_⟩
  · simp [St.init, Rcv.init, Rx.init, Ans.Dec.Good, Ans.Dec.init]
  · exact Nat.zero_le 1
  · exact Nat.zero_lt_succ _
  · constructor <;> simpa [St.init, Rcv.init, Recode.St.new, Recode.St.len] using hp
  · simp [St.init, Rcv.init, Recode.St.new, Recode.St.len]
  · intro h0; cases h0
  · cases skip with
    | true => exact ⟨[], Frame.crc_nil.symm⟩
    | false => exact ⟨h, Crc.crc_correct h⟩

/-- What holds of a decompressor between calls. -/
def DLive (d : Dec) : Prop :=
  match d.stage with
  | .header got => got.length < 16
  | .body s => ∃ w, 10 ≤ w ∧ w < 25 ∧ Live (2 ^ w) s

/-- A decompressor that has reported success. -/
def Over (d : Dec) : Prop :=
  ∃ s L, d.stage = .body s ∧ Live L s ∧ s.b.rcv.at_ = .finished ∧ s.b.sum.length = 8 ∧ sumOk d.skip s.b.crc s.b.sum = true

/-- What a call of a decompressor guarantees. -/
structure Kind (skip : Bool) (inp : List UInt8) (room : Nat) (r : Reply) : Prop where
  used : r.used ≤ inp.length
  len : r.out.length ≤ room
  skip : r.dec.skip = skip
  inv : DLive r.dec
  full : r.ret = .needsOutput → r.out.length = room
  over : r.ret = .success → Over r.dec

theorem process_any {w : Nat} (h1 : 10 ≤ w) (h2 : w < 25) {s : St} (hl : Live (2 ^ w) s) (pre inp : List UInt8) (room : Nat) :
    ∃ k x, (∀ fuel, k ≤ fuel → process dw fuel skip s inp pre.length room = some x) ∧
      ∀ r, x = .ok r → Kind skip (pre ++ inp) room r := by
  have hd : During (2 ^ w) inp room ⟨s, .input, inp, room, []⟩ := ⟨hl, by simp, 0, Nat.zero_le _, rfl⟩
  obtain ⟨k, x, hk, hx⟩ := ends_loop (call_ends (dw := dw) (skip := skip) _ _ _ rfl hd (Or.inr ⟨rfl, Nat.lt_succ_self _⟩))
  refine ⟨k, x.bind fun x => .ok ⟨⟨skip, .body x.1.s⟩, pre.length + (inp.length - x.1.pend.length), x.1.out, x.2⟩,
    fun fuel hf => ?_, ?_⟩
  · rw [process, hk fuel hf, Option.map_some]
  · intro r hr
    cases x with
    | fail => cases hr
    | panic => cases hr
    | ok y =>
      obtain ⟨c, ret⟩ := y
      obtain ⟨⟨b1, b2, n, b3, b4⟩, p1, p2⟩ := hx c ret rfl
      simp only [Codec.Res.bind, Codec.Res.ok.injEq] at hr
      subst hr
      refine ⟨?_, ?_, rfl, ⟨w, h1, h2, b1⟩, ?_, ?_⟩
      · simp only [List.length_append]; omega
      · simp only; omega
      · intro hret
        have := p1 hret
        simp only
        omega
      · intro hret
        obtain ⟨q1, q2, q3⟩ := p2 hret
        exact ⟨c.s, _, rfl, b1, q1, q2, q3⟩

theorem decode_any (dw : Nat → Nat → Nat → List UInt8) {d : Dec} (hd : DLive d) (inp : List UInt8) (room : Nat) :
    ∃ k x, (∀ fuel, k ≤ fuel → d.decode dw fuel inp room = some x) ∧ ∀ r, x = .ok r → Kind d.skip inp room r := by
  obtain ⟨skip, stage⟩ := d
  cases stage with
  | body s =>
    obtain ⟨w, h1, h2, hl⟩ := hd
    exact process_any h1 h2 hl [] inp room
  | header got =>
    have hgot : got.length < 16 := hd
    unfold Dec.decode Frame.headerDecode
    simp only
    by_cases hp : inp.length ≥ 16 - got.length
    · rw [if_pos hp]
      cases hh : Frame.parseHeader (got ++ inp.take (16 - got.length)) with
      | none => exact ⟨0, .fail, fun _ _ => rfl, by simp⟩
      | some w =>
        simp only
        have hlen : (got ++ inp.take (16 - got.length)).length = 16 := by
          rw [List.length_append, List.length_take]; omega
        have hg := (Frame.parseHeader_iff _ hlen w).mp hh
        have h1 : 10 ≤ w := hg.2.2.2.1
        have h2 : w < 25 := Nat.lt_succ_of_le hg.2.2.2.2
        by_cases hlt : 16 - got.length < inp.length
        · simp only [if_pos hlt]
          have := process_any (dw := dw) (skip := skip) h1 h2 (init_live skip (got ++ inp.take (16 - got.length)) w)
            (inp.take (16 - got.length)) (inp.drop (16 - got.length)) room
          rw [List.take_append_drop, List.length_take, Nat.min_eq_left hp] at this
          exact this
        · simp only [if_neg hlt]
          refine ⟨0, _, fun _ _ => rfl, ?_⟩
          intro r hr
          cases hr
          exact ⟨hp, Nat.zero_le _, rfl, ⟨w, h1, h2, init_live skip _ w⟩, by simp, by simp⟩
    · rw [if_neg hp]
      refine ⟨0, _, fun _ _ => rfl, ?_⟩
      intro r hr
      cases hr
      refine ⟨Nat.le_refl _, Nat.zero_le _, rfl, ?_, by simp, by simp⟩
      show (got ++ inp).length < 16
      rw [List.length_append]; omega

/-! ## The bound on the steps does not matter -/

theorem loop_mono {c : Conf} {fuel : Nat} {x : Codec.Res (Conf × Ret)} (h : loop dw skip fuel c = some x) :
    ∀ fuel', fuel ≤ fuel' → loop dw skip fuel' c = some x := by
  induction fuel generalizing c with
  | zero => cases h
  | succ f ih =>
    intro fuel' hf
    obtain ⟨f', rfl⟩ : ∃ f', fuel' = f' + 1 := ⟨fuel' - 1, by omega⟩
    rw [loop] at h ⊢
    cases ht : c.tick dw skip with
    | fail => rw [ht] at h; exact h
    | panic => rw [ht] at h; exact h
    | ok y =>
      obtain ⟨c', r⟩ := y
      rw [ht] at h
      cases r with
      | some r => exact h
      | none => exact ih h f' (by omega)

theorem decode_mono {d : Dec} {fuel : Nat} {inp : List UInt8} {room : Nat} {x : Codec.Res Reply}
    (h : d.decode dw fuel inp room = some x) : ∀ fuel', fuel ≤ fuel' → d.decode dw fuel' inp room = some x := by
  intro fuel' hf
  have hproc : ∀ (skip : Bool) (s : St) (i : List UInt8) (n : Nat), process dw fuel skip s i n room = some x →
      process dw fuel' skip s i n room = some x := by
    intro skip s i n hx
    unfold process at hx ⊢
    rw [Option.map_eq_some_iff] at hx
    obtain ⟨y, h1, h2⟩ := hx
    rw [loop_mono h1 fuel' hf, Option.map_some, h2]
  unfold Dec.decode at h ⊢
  cases hst : d.stage with
  | body s => simp only [hst] at h ⊢; exact hproc _ _ _ _ h
  | header got =>
    simp only [hst] at h ⊢
    cases hh : Frame.headerDecode got inp with
    | more g => simp only [hh] at h ⊢; exact h
    | fail n => simp only [hh] at h ⊢; exact h
    | ready hd w used =>
      simp only [hh] at h ⊢
      by_cases hu : used < inp.length
      · rw [if_pos hu] at h ⊢; exact hproc _ _ _ _ h
      · rw [if_neg hu] at h ⊢; exact h

/-- A call that returned was kind. -/
theorem decode_kind {d : Dec} (hd : DLive d) {fuel : Nat} {inp : List UInt8} {room : Nat} {r : Reply}
    (h : d.decode dw fuel inp room = some (.ok r)) : Kind d.skip inp room r := by
  obtain ⟨k, x, hk, hx⟩ := decode_any dw hd inp room
  have h1 := decode_mono h (max k fuel) (by omega)
  rw [hk (max k fuel) (by omega)] at h1
  cases h1
  exact hx r rfl

/-! ## After a success -/

theorem finished_main {b : File.Body} (h : b.rcv.at_ = .finished) (room : Nat) :
    ∃ m, b.main dw room = .ok ({ b with mux := m, rcv := { b.rcv with litRx := { b.rcv.litRx with buf := b.mux.unread true } } }, []) := by
  unfold File.Body.main Rcv.main
  simp only [h]
  exact ⟨_, rfl⟩

theorem over_ends {d : Dec} (h : Over d) (inp : List UInt8) (room : Nat) :
    ∃ d', Over d' ∧ d'.skip = d.skip ∧ ∀ fuel, 3 ≤ fuel → d.decode dw fuel inp room = some (.ok ⟨d', 0, [], .success⟩) := by
  obtain ⟨skip, stage⟩ := d
  obtain ⟨s, L, hs, hl, h1, h2, h3⟩ := h
  simp only at hs h3
  subst hs
  have hstop := hl.fin h1
  have hne : s.b.sum ≠ [] := by
    intro h0; rw [h0] at h2; cases h2
  obtain ⟨t, n, go, e1, e2, e3, e4, e5, -, e6⟩ := input_live (skip := skip) hl inp
  obtain ⟨rfl, rfl, -, q1, q2⟩ := e6 (hl.sum hne) h2
  rw [List.drop_zero] at e1
  have hhold : t.hold = .none := by rw [e5]; exact hl.ext.stop hstop
  have hat : t.b.rcv.at_ = .finished := by rw [e4]; exact h1
  have htstop : t.b.rcv.core.at_ = .stop := by rw [e4]; exact hstop
  have hwork : t.work = .ok (t, some .success) := by
    unfold St.work
    simp only [hhold]
    rw [if_pos htstop]
  obtain ⟨m, hm⟩ := finished_main (dw := dw) hat room
  obtain ⟨b', hb'⟩ : ∃ b' : File.Body, b' = { t.b with mux := m, rcv := { t.b.rcv with litRx := { t.b.rcv.litRx with buf := t.b.mux.unread true } } } := ⟨_, rfl⟩
  rw [← hb'] at hm
  have r1 : b'.rcv.at_ = .finished := by rw [hb']; exact hat
  have r2 : b'.sum = s.b.sum := by rw [hb']; exact q1
  have r3 : b'.crc = s.b.crc := by rw [hb']; exact q2
  have hout : t.output dw skip room = .ok ({ t with b := b' }, [], .ret .success) := by
    unfold St.output
    simp only [hat]
    unfold St.finish
    rw [hm]
    simp only [Codec.Res.bind]
    rw [if_neg (by rw [r1]; simp), if_neg (by rw [r2]; simpa using h2), if_pos (by rw [r2, r3]; exact h3)]
  obtain ⟨-, hlive, -, -, -, -⟩ := output_live e3 hout
  refine ⟨⟨skip, .body { t with b := b' }⟩, ⟨_, L, rfl, hlive, r1, by simp only; rw [r2]; exact h2, by simp only; rw [r2, r3]; exact h3⟩, rfl, ?_⟩
  intro fuel hf
  obtain ⟨f, rfl⟩ : ∃ f, fuel = f + 3 := ⟨fuel - 3, by omega⟩
  have t1 : (⟨s, .input, inp, room, []⟩ : Conf).tick dw skip = .ok (⟨t, .work, inp, room, []⟩, none) := by
    unfold Conf.tick
    simp only [e1]
    rfl
  have t2 : (⟨t, .work, inp, room, []⟩ : Conf).tick dw skip = .ok (⟨t, .output, inp, room, []⟩, none) := by
    unfold Conf.tick
    simp only
    rw [hwork]
    rfl
  have t3 : (⟨t, .output, inp, room, []⟩ : Conf).tick dw skip = .ok (⟨{ t with b := b' }, .output, inp, room, []⟩, some .success) := by
    unfold Conf.tick
    simp only
    rw [hout]
    rfl
  have hloop : loop dw skip (f + 3) ⟨s, .input, inp, room, []⟩ = some (.ok (⟨{ t with b := b' }, .output, inp, room, []⟩, .success)) := by
    simp only [loop, t1, t2, t3]
  show process dw (f + 3) skip s inp 0 room = _
  rw [process, hloop]
  simp [Codec.Res.bind]

theorem calls_live : ∀ (cs : List (Nat × Nat)) {d d' : Dec} {fuel : Nat} {bytes rest out : List UInt8} {rets : List Ret}, DLive d →
    calls dw fuel d bytes cs = some (.ok (d', rest, out, rets)) →
    DLive d' ∧ d'.skip = d.skip ∧ (Over d → (∀ r ∈ rets, r = .success) ∧ rest = bytes ∧ out = [] ∧ Over d') ∧
      (.success ∈ rets → rets.getLast? = some .success ∧ Over d') := by
  intro cs
  induction cs with
  | nil => intro d d' fuel bytes rest out rets hd e; cases e; exact ⟨hd, rfl, fun ho => ⟨by simp, rfl, rfl, ho⟩, by simp⟩
  | cons c cs ih =>
    intro d d' fuel bytes rest out rets hd e
    obtain ⟨offer, room⟩ := c
    rw [calls.eq_def] at e
    simp only at e
    cases he : d.decode dw fuel (bytes.take offer) room with
    | none => rw [he] at e; cases e
    | some x =>
      rw [he] at e
      cases x with
      | fail => cases e
      | panic => cases e
      | ok r =>
        simp only at e
        rw [Option.map_eq_some_iff] at e
        obtain ⟨y, e1, e2⟩ := e
        cases y with
        | fail => cases e2
        | panic => cases e2
        | ok y =>
          obtain ⟨d2, rest2, out2, rets2⟩ := y
          simp only [Codec.Res.bind, Codec.Res.ok.injEq, Prod.mk.injEq] at e2
          obtain ⟨rfl, rfl, rfl, rfl⟩ := e2
          have hk := decode_kind hd he
          obtain ⟨g1, g2, g3, g4⟩ := ih hk.inv e1
          refine ⟨g1, g2.trans hk.skip, ?_, ?_⟩
          · intro ho
            obtain ⟨d3, o1, o2, o3⟩ := over_ends (dw := dw) ho (bytes.take offer) room
            have := decode_mono he (max 3 fuel) (by omega)
            rw [o3 _ (by omega)] at this
            cases this
            obtain ⟨a1, a2, a3, a4⟩ := g3 o1
            refine ⟨?_, by simpa using a2, by simpa using a3, a4⟩
            intro r hr
            rcases List.mem_cons.1 hr with h | h
            · exact h
            · exact a1 r h
          · intro hs
            rcases Decidable.em (r.ret = .success) with hr | hr
            · obtain ⟨a1, a2, a3, a4⟩ := g3 (hk.over hr)
              refine ⟨?_, a4⟩
              rw [List.getLast?_cons]
              cases hl : rets2.getLast? with
              | none => rw [hr]; rfl
              | some z => rw [a1 z (List.mem_of_getLast? hl)]; rfl
            · have hs2 : .success ∈ rets2 := by
                rcases List.mem_cons.1 hs with h | h
                · exact absurd h.symm hr
                · exact h
              obtain ⟨a1, a2⟩ := g4 hs2
              refine ⟨?_, a2⟩
              rw [List.getLast?_cons, a1]; rfl

theorem new_live (skip : Bool) : DLive (.new skip) := by
  show 0 < 16
  decide

theorem calls_any : ∀ (cs : List (Nat × Nat)) {d : Dec} (bytes : List UInt8), DLive d →
    ∃ k x, ∀ fuel, k ≤ fuel → calls dw fuel d bytes cs = some x := by
  intro cs
  induction cs with
  | nil => intro d bytes _; exact ⟨0, _, fun _ _ => rfl⟩
  | cons c cs ih =>
    intro d bytes hd
    obtain ⟨offer, room⟩ := c
    obtain ⟨k, x, hk, hx⟩ := decode_any dw hd (bytes.take offer) room
    cases x with
    | fail => exact ⟨k, .fail, fun fuel hf => by simp only [calls, hk fuel hf]⟩
    | panic => exact ⟨k, .panic, fun fuel hf => by simp only [calls, hk fuel hf]⟩
    | ok r =>
      obtain ⟨k2, y, hy⟩ := ih (bytes.drop r.used) (hx r rfl).inv
      refine ⟨max k k2, y.bind fun y => .ok (y.1, y.2.1, r.out ++ y.2.2.1, r.ret :: y.2.2.2), fun fuel hf => ?_⟩
      simp only [calls, hk fuel (by omega), hy fuel (by omega), Option.map_some]

/-! ## The one loop that is left -/

theorem tick_during {inp : List UInt8} {R : Nat} {c c' : Conf} {r : Option Ret} (h : During L inp R c)
    (e : c.tick dw skip = .ok (c', r)) : During L inp R c' := by
  obtain ⟨b1, b2, n0, b3, b4⟩ := h
  unfold Conf.tick at e
  cases hph : c.ph with
  | input =>
    obtain ⟨t, n, go, e1, e2, e3, -⟩ := input_live (skip := skip) b1 c.pend
    simp only [hph, e1, Codec.Res.ok.injEq, Prod.mk.injEq] at e
    obtain ⟨rfl, -⟩ := e
    refine ⟨e3, b2, n0 + n, ?_, ?_⟩
    · rw [b4, List.length_drop] at e2; omega
    · simp only; rw [b4, List.drop_drop]
  | work =>
    simp only [hph] at e
    cases hw : c.s.work with
    | fail => rw [hw] at e; cases e
    | panic => rw [hw] at e; cases e
    | ok x =>
      obtain ⟨t, p⟩ := x
      obtain ⟨e1, -⟩ := work_live b1 hw 0
      rw [hw] at e
      simp only [Codec.Res.bind] at e
      cases p with
      | none => cases e; exact ⟨e1, b2, n0, b3, b4⟩
      | some p => cases p <;> (cases e; exact ⟨e1, b2, n0, b3, b4⟩)
  | output =>
    simp only [hph] at e
    cases ho : c.s.output dw skip c.room with
    | fail => rw [ho] at e; cases e
    | panic => rw [ho] at e; cases e
    | ok x =>
      obtain ⟨t, o, a⟩ := x
      obtain ⟨e1, e2, -⟩ := output_live b1 ho
      rw [ho] at e
      simp only [Codec.Res.bind] at e
      have hr : (c.out ++ o).length + (c.room - o.length) = R := by rw [List.length_append]; omega
      cases a <;> (cases e; exact ⟨e2, hr, n0, b3, b4⟩)

end

/-! ## Specification -/

/-- The configurations a call goes through from `c` on. -/
inductive Visits (dw : Nat → Nat → Nat → List UInt8) (skip : Bool) (c : Conf) : Conf → Prop where
  | here : Visits dw skip c c
  | step {c1 c2 : Conf} : Visits dw skip c c1 → c1.tick dw skip = .ok (c2, none) → Visits dw skip c c2

/-! ## The theorems -/

/-- **C62.**  Any bytes, offered in any pieces with any output buffers: every call of `decode` ends.  (It returns,
fails or panics; `calls` stops at the first call that does not return a value.) -/
theorem every_call_ends (dw : Nat → Nat → Nat → List UInt8) (skip : Bool) (bytes : List UInt8) (cs : List (Nat × Nat)) :
    ∃ k x, ∀ fuel, k ≤ fuel → calls dw fuel (.new skip) bytes cs = some x :=
  calls_any cs bytes (new_live skip)

/-- **C62.**  After any calls, a call that returns has taken no more than it was offered, written no more than there was
room for, and filled the output buffer if it asks for more room. -/
theorem every_call_bounded (dw : Nat → Nat → Nat → List UInt8) (fuel fuel' : Nat) (skip : Bool) (bytes : List UInt8)
    (cs : List (Nat × Nat)) (d : Dec) (rest out : List UInt8) (rets : List Ret)
    (e : calls dw fuel (.new skip) bytes cs = some (.ok (d, rest, out, rets))) (input : List UInt8) (room : Nat) (r : Reply)
    (h : d.decode dw fuel' input room = some (.ok r)) :
    r.used ≤ input.length ∧ r.out.length ≤ room ∧ (r.ret = .needsOutput → r.out.length = room) := by
  have := decode_kind (calls_live cs (new_live skip) e).1 h
  exact ⟨this.used, this.len, this.full⟩

/-- **C62.**  After a call has reported success, whatever else was called since, every further call reports success,
takes nothing and writes nothing. -/
theorem success_stays (dw : Nat → Nat → Nat → List UInt8) (fuel : Nat) (skip : Bool) (bytes : List UInt8)
    (cs : List (Nat × Nat)) (d : Dec) (rest out : List UInt8) (rets : List Ret)
    (e : calls dw fuel (.new skip) bytes cs = some (.ok (d, rest, out, rets))) (hs : .success ∈ rets)
    (input : List UInt8) (room : Nat) :
    ∃ d', ∀ fuel', 3 ≤ fuel' → d.decode dw fuel' input room = some (.ok ⟨d', 0, [], .success⟩) := by
  obtain ⟨-, -, -, h4⟩ := calls_live cs (new_live skip) e
  obtain ⟨d', -, -, h⟩ := over_ends (dw := dw) (h4 hs).2 input room
  exact ⟨d', h⟩

/-- **C62.**  If any call has reported success, then the last one has.  So what C61 says about a success reported by the
last call holds of a success reported by any call. -/
theorem success_last (dw : Nat → Nat → Nat → List UInt8) (fuel : Nat) (skip : Bool) (bytes : List UInt8)
    (cs : List (Nat × Nat)) (d : Dec) (rest out : List UInt8) (rets : List Ret)
    (e : calls dw fuel (.new skip) bytes cs = some (.ok (d, rest, out, rets))) (hs : .success ∈ rets) :
    rets.getLast? = some .success :=
  ((calls_live cs (new_live skip) e).2.2.2 hs).1

/-- **C62.**  If a file is accepted to its last byte and then offered with more bytes behind it, then however long the
caller goes on after a success, exactly those bytes are left. -/
theorem rest_is_never_taken (dw dw' : Nat → Nat → Nat → List UInt8) (fuel fuel' : Nat) (skip skip' : Bool)
    (bytes more : List UInt8) (cs cs' : List (Nat × Nat)) (d d' : Dec) (rest' out out' : List UInt8) (rets rets' : List Ret)
    (e : calls dw fuel (.new skip) bytes cs = some (.ok (d, [], out, rets))) (hs : .success ∈ rets)
    (e' : calls dw' fuel' (.new skip') (bytes ++ more) cs' = some (.ok (d', rest', out', rets')))
    (hs' : .success ∈ rets') : rest' = more :=
  call_rest dw dw' fuel fuel' skip skip' bytes more cs cs' d d' rest' out out' rets rets' e
    (success_last dw fuel skip bytes cs d [] out rets e hs) e' (success_last dw' fuel' skip' _ cs' d' rest' out' rets' e' hs')

/-- **C62.**  The loop that does not end: after any calls, if during a call the recoder would loop forever (which the
model of the decompressor counts as a panic), then the command it was given is a copy whose distance is exactly the
window, or a dictionary word as long as the window, which is at least 1024 bytes. -/
theorem endless_loop_needs_window_copy (dw : Nat → Nat → Nat → List UInt8) (fuel : Nat) (skip : Bool) (bytes : List UInt8)
    (cs : List (Nat × Nat)) (d : Dec) (rest out : List UInt8) (rets : List Ret)
    (e : calls dw fuel (.new skip) bytes cs = some (.ok (d, rest, out, rets))) (s : St) (hst : d.stage = .body s)
    (input : List UInt8) (room : Nat) (c : Conf) (hv : Visits dw skip ⟨s, .input, input, room, []⟩ c) (cmd : Recode.Cmd)
    (hat : c.s.b.rcv.at_ = .filling cmd) (hspin : Recode.encodeCmd c.s.b.rcv.ring cmd c.room = .spin) :
    1024 ≤ c.s.b.rcv.ring.len ∧ ((∃ n, cmd = .copy c.s.b.rcv.ring.len n) ∨
      ∃ word n, cmd = .dict word n ∧ c.s.b.rcv.ring.len ≤ word.length) := by
  have hd := (calls_live cs (new_live skip) e).1
  unfold DLive at hd
  rw [hst] at hd
  obtain ⟨w, h1, h2, hl⟩ := hd
  have hdur : During (2 ^ w) input room c := by
    clear hat hspin
    induction hv with
    | here => exact ⟨hl, by simp, 0, Nat.zero_le _, rfl⟩
    | step _ ht ih => exact tick_during ih ht
  have hlen : 1024 ≤ c.s.b.rcv.ring.len := by
    rw [hdur.live.len]
    exact Nat.pow_le_pow_right (n := 2) (i := 10) (by decide) h1
  refine ⟨hlen, ?_⟩
  rcases Classical.em (∃ n, cmd = .copy c.s.b.rcv.ring.len n) with h | h
  · exact Or.inl h
  refine Or.inr ?_
  rcases Classical.em (∃ word n, cmd = .dict word n ∧ c.s.b.rcv.ring.len ≤ word.length) with h' | h'
  · exact h'
  · refine absurd hspin (Recode.encodeCmd_ends _ hdur.live.ring (by omega) cmd c.room (fun n hn => h ⟨n, hn⟩) fun word f hf => ?_)
    rcases Nat.lt_or_ge word.length c.s.b.rcv.ring.len with hx | hx
    · exact hx
    · exact absurd ⟨word, f, hf, hx⟩ h'

/-- So many steps of a call. -/
def visit (dw : Nat → Nat → Nat → List UInt8) (skip : Bool) : Nat → Conf → Option Conf
  | 0, c => some c
  | k + 1, c =>
    match c.tick dw skip with
    | .ok (c', none) => visit dw skip k c'
    | _ => none

theorem visit_visits {dw : Nat → Nat → Nat → List UInt8} {skip : Bool} {c0 : Conf} : ∀ (k : Nat) {c c' : Conf},
    Visits dw skip c0 c → visit dw skip k c = some c' → Visits dw skip c0 c' := by
  intro k
  induction k with
  | zero => intro c c' h e; cases e; exact h
  | succ k ih =>
    intro c c' h e
    rw [visit] at e
    cases ht : c.tick dw skip with
    | fail => rw [ht] at e; cases e
    | panic => rw [ht] at e; cases e
    | ok y =>
      obtain ⟨c1, r⟩ := y
      rw [ht] at e
      cases r with
      | some r => cases e
      | none => exact ih (.step h ht) e

/-- A file of 46 bytes with window 10 and a correct checksum.  Its only command is a copy of one byte from distance
1024. -/
def loopFile : List UInt8 :=
  [255, 229, 140, 159, 0, 10, 0, 0, 0, 0, 0, 0, 0, 0, 0, 0, 0, 15, 0, 211, 140, 9, 80, 30, 68, 0, 0, 91, 15, 136, 25,
    64, 128, 0, 0, 255, 254, 255, 174, 79, 85, 239, 97, 110, 115, 126]

/-- Is the recoder about to be called with the copy, with nothing to be given out? -/
def atLoop : Option Conf → Bool
  | some c => decide (c.s.b.rcv.at_ = .filling (.copy 1024 1) ∧ c.s.b.rcv.ring.len = 1024 ∧ Recode.pend c.s.b.rcv.ring = 0 ∧
      c.s.b.rcv.ring.sub = 0 ∧ c.out = [] ∧ c.room = 4096 ∧ c.ph = .output)
  | none => false

theorem at_loop : atLoop
    (visit File.noWords false 14 ⟨St.init false (loopFile.take 16) 10, .input, loopFile.drop 16, 4096, []⟩) = true := by
  decide +kernel

/-- **C62 is false of the recoder, and a file shows it.**  A decompressor is offered a file of 46 bytes (its header
first, then the rest) with an output buffer of 4096 bytes.  During the second call the recoder is called with a copy
from a distance of exactly the window, and its loop does not end within any number of rounds. -/
theorem endless_loop_on_a_file : ∃ d s c,
    (Dec.new false).decode File.noWords 1 (loopFile.take 16) 4096 = some (.ok ⟨d, 16, [], .needsInput⟩) ∧ d.stage = .body s ∧
    Visits File.noWords false ⟨s, .input, loopFile.drop 16, 4096, []⟩ c ∧ c.ph = .output ∧ c.room = 4096 ∧
    c.s.b.rcv.at_ = .filling (.copy 1024 1) ∧ ∀ rounds, Recode.encodeLoop rounds c.s.b.rcv.ring (.copy 1024 1) c.room = .spin := by
  cases hc : visit File.noWords false 14 ⟨St.init false (loopFile.take 16) 10, .input, loopFile.drop 16, 4096, []⟩ with
  | none => have := at_loop; rw [hc] at this; cases this
  | some c =>
    have hl := at_loop
    rw [hc] at hl
    obtain ⟨h1, h2, h3, h4, h5, h6, h7⟩ := of_decide_eq_true hl
    have hv : Visits File.noWords false ⟨St.init false (loopFile.take 16) 10, .input, loopFile.drop 16, 4096, []⟩ c :=
      visit_visits 14 .here hc
    refine ⟨⟨false, .body (St.init false (loopFile.take 16) 10)⟩, _, c, rfl, rfl, hv, h7, h6, h1, fun rounds => ?_⟩
    have hg : Recode.Good c.s.b.rcv.ring := by
      have hdur : During (2 ^ 10) (loopFile.drop 16) 4096 c := by
        clear h1 h2 h3 h4 h5 h6 h7 hl hc
        induction hv with
        | here => exact ⟨init_live _ _ _, by simp, 0, Nat.zero_le _, rfl⟩
        | step _ ht ih => exact tick_during ih ht
      exact hdur.live.ring
    have := Recode.copy_ring_size_never_ends c.s.b.rcv.ring hg (by rw [h2]; decide) h3 1 (by rw [h4]; decide) c.room rounds
    rw [h2] at this
    exact this

/-! ## A broken end marker -/

section
variable {dw : Nat → Nat → Nat → List UInt8}

/-- Stuck behind the first byte of the end marker, or about to be, with `rest` to come. -/
def StuckBody (x : List UInt8) (s : St) (rest : List UInt8) : Prop :=
  s.b.mux.Ok ∧ s.lent = 0 ∧ (Mux.scanOf s.b.mux).btd = .none ∧ s.b.mux.unread false = [] ∧
    ((s.b.mux.eof = .running ∧ rest = 0xff :: 0xff :: x) ∨ (s.b.mux.eof = .start ∧ rest = 0xff :: x))

theorem step_mark {sc : Mux.Scan} (hb : sc.btd = .none) (he : sc.eof = .running) :
    Mux.step sc 0xff = some { sc with eof := .start } := by
  unfold Mux.step
  rw [if_neg (by rw [he]; simp), hb]
  simp only
  rw [if_pos (show Mux.isMark sc.eof 0xff from Or.inl rfl), he]
  rfl

theorem step_stuck {sc : Mux.Scan} (hb : sc.btd = .none) (he : sc.eof = .start) : Mux.step sc 0xff = none := by
  unfold Mux.step
  rw [if_neg (by rw [he]; simp), hb]
  simp only
  rw [if_pos (show Mux.isMark sc.eof 0xff from Or.inl rfl), he]
  rfl

theorem stuck_body {x : List UInt8} {s : St} {rest : List UInt8} (h : StuckBody x s rest) (skip : Bool) (offer pre room : Nat) :
    ∃ t n, (∀ fuel, 1 ≤ fuel → process dw fuel skip s (rest.take offer) pre room =
        some (.ok ⟨⟨skip, .body t⟩, pre + n, [], .needsInput⟩)) ∧ StuckBody x t (rest.drop n) := by
  obtain ⟨h1, h2, h3, h4, h5⟩ := h
  obtain ⟨m, n, e1, k1, k2, k3, -, -⟩ := Mux.deserialize_spec h1 (rest.take offer)
  obtain ⟨q1, q2, q3⟩ : (Mux.scanOf m).btd = .none ∧ (Mux.scanOf m).out false = [] ∧
      (((Mux.scanOf m).eof = .running ∧ rest.drop n = 0xff :: 0xff :: x) ∨
        ((Mux.scanOf m).eof = .start ∧ rest.drop n = 0xff :: x)) := by
    have htk : (rest.take offer).take n = rest.take n := by
      rw [List.take_take]
      rw [List.length_take] at k2
      congr 1
      omega
    rw [htk] at k3
    have hnl : n ≤ rest.length := by rw [List.length_take] at k2; omega
    match n, hnl, k3 with
    | 0, _, k3 =>
      rw [List.take_zero, Mux.runAll, Option.some.injEq] at k3
      rw [← k3]
      exact ⟨h3, h4, h5⟩
    | n + 1, hnl, k3 =>
      rcases h5 with ⟨u1, rfl⟩ | ⟨u1, rfl⟩
      · rw [List.take_succ_cons, Mux.runAll, step_mark h3 u1, Option.bind_some] at k3
        match n, hnl, k3 with
        | 0, _, k3 =>
          rw [List.take_zero, Mux.runAll, Option.some.injEq] at k3
          rw [← k3]
          exact ⟨h3, h4, Or.inr ⟨rfl, rfl⟩⟩
        | n + 1, _, k3 =>
          rw [List.take_succ_cons, Mux.runAll, step_stuck (by exact h3) rfl] at k3
          cases k3
      · rw [List.take_succ_cons, Mux.runAll, step_stuck (by exact h3) u1] at k3
        cases k3
  have hne : m.sawEof = false := by
    have : (Mux.scanOf m).eof = m.eof := rfl
    unfold Mux.Mux.sawEof
    rw [decide_eq_false_iff_not, ← this]
    rcases q3 with ⟨u, -⟩ | ⟨u, -⟩ <;> rw [u] <;> simp
  obtain ⟨b1, hb1⟩ : ∃ b1 : File.Body, b1 = { s.b with mux := m, crc := if skip then s.b.crc else Crc.update s.b.crc ((rest.take offer).take n) } :=
    ⟨_, rfl⟩
  have hin : s.b.input skip (rest.take offer) = some (b1, (rest.take offer).drop n) := by
    unfold File.Body.input
    rw [e1]
    simp only
    rw [if_neg (by rw [hne]; simp), hb1]
  have hmux : b1.mux = m := by rw [hb1]
  have hunread : b1.mux.unread false = [] := by rw [hmux]; exact q2
  have hsin : s.input skip (rest.take offer) = some ({ s with b := b1 }, (rest.take offer).drop n, false) := by
    unfold St.input
    rw [hin]
    simp only
    rw [if_neg (by rw [hunread]; simp), hmux, hne, h2]
    rfl
  refine ⟨{ s with b := b1 }, n, ?_, ?_⟩
  · intro fuel hf
    obtain ⟨f, rfl⟩ : ∃ f, fuel = f + 1 := ⟨fuel - 1, by omega⟩
    have ht : (⟨s, .input, rest.take offer, room, []⟩ : Conf).tick dw skip =
        .ok (⟨{ s with b := b1 }, .work, (rest.take offer).drop n, room, []⟩, some .needsInput) := by
      unfold Conf.tick
      simp only [hsin]
      rfl
    rw [process, loop, ht]
    simp only [Option.map_some, Codec.Res.bind, List.length_drop]
    congr 4
    omega
  · refine ⟨by rw [hmux]; exact k1, h2, by rw [hmux]; exact q1, hunread, ?_⟩
    simp only [hmux]
    exact q3

/-- The same with the header. -/
def Stuck (h x : List UInt8) (d : Dec) (rest : List UInt8) : Prop :=
  match d.stage with
  | .header got => got.length < 16 ∧ got ++ rest = h ++ 0xff :: 0xff :: x
  | .body s => StuckBody x s rest

theorem stuck_decode {w : Nat} {h x : List UInt8} (hg : GoodHeader h w) {d : Dec} {rest : List UInt8} (hd : Stuck h x d rest)
    (offer room : Nat) :
    ∃ d' n, (∀ fuel, 1 ≤ fuel → d.decode dw fuel (rest.take offer) room = some (.ok ⟨d', n, [], .needsInput⟩)) ∧
      Stuck h x d' (rest.drop n) := by
  obtain ⟨skip, stage⟩ := d
  cases stage with
  | body s =>
    obtain ⟨t, n, h1, h2⟩ := stuck_body (dw := dw) (show StuckBody x s rest from hd) skip offer 0 room
    rw [Nat.zero_add] at h1
    exact ⟨⟨skip, .body t⟩, n, h1, h2⟩
  | header got =>
    obtain ⟨h1, h2⟩ : got.length < 16 ∧ got ++ rest = h ++ 0xff :: 0xff :: x := hd
    obtain ⟨j, hj⟩ : ∃ j, j = 16 - got.length := ⟨_, rfl⟩
    have h16 : h.length = 16 := hg.1
    have hsp : got ++ rest.take j = h ∧ rest.drop j = 0xff :: 0xff :: x := by
      rw [← List.take_append_drop j rest, ← List.append_assoc] at h2
      have hrl : j ≤ rest.length := by
        have := congrArg List.length h2
        rw [List.append_assoc, List.take_append_drop] at this
        simp only [List.length_append, List.length_cons, List.length_take, List.length_drop] at this
        omega
      exact List.append_inj h2 (by rw [List.length_append, List.length_take]; omega)
    unfold Dec.decode Frame.headerDecode
    simp only
    rw [← hj]
    by_cases hp : (rest.take offer).length ≥ j
    · rw [if_pos hp]
      have hp' := hp
      rw [List.length_take] at hp'
      have ht : (rest.take offer).take j = rest.take j := by rw [List.take_take]; congr 1; omega
      rw [ht, hsp.1, (Frame.parseHeader_iff h h16 w).mpr hg]
      simp only
      have hs0 : StuckBody x (St.init skip h w) (rest.drop j) :=
        ⟨Mux.ok_new, rfl, rfl, rfl, Or.inl ⟨rfl, hsp.2⟩⟩
      by_cases hlt : j < (rest.take offer).length
      · simp only [if_pos hlt]
        have hdt : (rest.take offer).drop j = (rest.drop j).take (offer - j) := by rw [List.drop_take]
        rw [hdt]
        obtain ⟨t, n, g1, g2⟩ := stuck_body (dw := dw) hs0 skip (offer - j) j room
        refine ⟨⟨skip, .body t⟩, j + n, g1, ?_⟩
        show StuckBody x t _
        rw [← List.drop_drop]
        exact g2
      · simp only [if_neg hlt]
        exact ⟨⟨skip, .body (St.init skip h w)⟩, j, fun _ _ => rfl, hs0⟩
    · rw [if_neg hp]
      rw [List.length_take] at hp
      refine ⟨⟨skip, .header (got ++ rest.take offer)⟩, (rest.take offer).length, fun _ _ => rfl, ?_, ?_⟩
      · rw [List.length_append, List.length_take]; omega
      · have : rest.drop (rest.take offer).length = rest.drop offer := by
          rw [List.length_take]
          rcases Nat.le_total offer rest.length with ho | ho
          · rw [Nat.min_eq_left ho]
          · rw [Nat.min_eq_right ho, List.drop_length, List.drop_of_length_le ho]
        rw [this, List.append_assoc, List.take_append_drop]
        exact h2

theorem stuck_calls {w : Nat} {h x : List UInt8} (hg : GoodHeader h w) : ∀ (cs : List (Nat × Nat)) {d : Dec} {rest : List UInt8},
    Stuck h x d rest → ∀ fuel, 1 ≤ fuel → ∃ d' rest', calls dw fuel d rest cs =
      some (.ok (d', rest', [], cs.map fun _ => .needsInput)) ∧ Stuck h x d' rest' := by
  intro cs
  induction cs with
  | nil => intro d rest hd fuel _; exact ⟨d, rest, rfl, hd⟩
  | cons c cs ih =>
    intro d rest hd fuel hf
    obtain ⟨offer, room⟩ := c
    obtain ⟨d1, n, g1, g2⟩ := stuck_decode (dw := dw) hg hd offer room
    obtain ⟨d2, rest2, k1, k2⟩ := ih g2 fuel hf
    refine ⟨d2, rest2, ?_, k2⟩
    simp only [calls, g1 fuel hf, k1, Option.map_some, Codec.Res.bind, List.append_nil, List.map_cons]

end

/-- **C62, the other side of it.**  A good header, then the first byte of the end marker twice, then anything.  However
the bytes are offered, every call asks for input, gives out nothing, and the second of the two bytes is never taken:
the decompressor neither reports the damage nor makes progress. -/
theorem broken_end_marker_asks_forever (dw : Nat → Nat → Nat → List UInt8) (skip : Bool) (h x : List UInt8) (w : Nat)
    (hg : GoodHeader h w) (cs : List (Nat × Nat)) (fuel : Nat) (hf : 1 ≤ fuel) :
    ∃ d rest, calls dw fuel (.new skip) (h ++ 0xff :: 0xff :: x) cs = some (.ok (d, rest, [], cs.map fun _ => .needsInput)) ∧
      0xff :: x <:+ rest := by
  obtain ⟨d, rest, h1, h2⟩ := stuck_calls (dw := dw) (x := x) hg cs (d := .new skip) (rest := h ++ 0xff :: 0xff :: x)
    (by exact ⟨by decide, rfl⟩) fuel hf
  refine ⟨d, rest, h1, ?_⟩
  obtain ⟨sk, stage⟩ := d
  cases stage with
  | header got =>
    obtain ⟨g1, g2⟩ : got.length < 16 ∧ got ++ rest = h ++ 0xff :: 0xff :: x := h2
    rcases List.append_eq_append_iff.1 g2 with ⟨a, ha1, ha2⟩ | ⟨a, ha1, ha2⟩
    · rw [ha2]; exact ⟨a ++ [0xff], by simp⟩
    · have := congrArg List.length ha1
      rw [List.length_append, hg.1] at this
      omega
  | body s =>
    obtain ⟨-, -, -, -, ⟨-, rfl⟩ | ⟨-, rfl⟩⟩ : StuckBody x s rest := h2
    · exact ⟨[0xff], rfl⟩
    · exact List.suffix_rfl

/-! ## The theorems are not vacuous -/

/-- A file no compressor writes; success, and four more calls. -/
example : seen (calls File.noWords 60 (.new false) (File.oddFile ++ [1, 2, 3])
      [(10, 3), (7, 3), (100, 30), (0, 0), (9, 9), (1, 0), (3, 3)]) =
    some (3, [97, 98, 99, 97, 98, 99, 97, 98, 99, 97, 98, 99, 97],
      [.needsInput, .needsInput, .success, .success, .success, .success, .success]) := by
  decide +kernel

/-- A broken end marker behind the header of a compressor with the default window. -/
example : GoodHeader (Frame.makeHeader 22) 22 ∧
    seen (calls File.noWords 60 (.new false) (Frame.makeHeader 22 ++ [0xff, 0xff, 1, 2]) [(30, 9), (30, 9), (2, 0)]) =
      some (3, [], [.needsInput, .needsInput, .needsInput]) := by
  refine ⟨⟨by decide +kernel, by decide +kernel, by decide +kernel, by decide, by decide⟩, by decide +kernel⟩

end Divans.Call
