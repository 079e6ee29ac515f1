import Verif.ParStep

/-!
# The steps of the main thread
-/

namespace Divans.Par
open Divans.Adaptive Divans.Pipe Divans.File
open Divans.Call

variable {cm : Bool} {dw : Nat → Nat → Nat → List UInt8} {w : Nat} {F h body tr tail : List UInt8} {skip : Bool}

/-! ## The input -/

theorem input_rcv {b b1 : File.Body} {skip : Bool} {pend rest : List UInt8} (hi : b.input skip pend = some (b1, rest)) :
    b1.rcv = b.rcv := by
  unfold File.Body.input at hi
  cases hm : Mux.deserialize b.mux pend with
  | none => rw [hm] at hi; cases hi
  | some y =>
    rw [hm] at hi
    simp only at hi
    split at hi <;> (simp only [Option.some.injEq, Prod.mk.injEq] at hi; rw [← hi.1])

theorem push_with2 (s : Call.St) (r : List Codec.Got) (l : Nat) (n : Nat) (hl : l + n = s.lent) :
    (with2 s r l).push = s.push.map fun t => with2 t r (t.lent - n) := by
  unfold Call.St.push
  have h1 : (with2 s r l).data = s.data := rfl
  have h2 : (with2 s r l).b = s.b := rfl
  have h3 : (with2 s r l).lent = l := rfl
  rw [h1, h2, h3]
  by_cases hc : s.data.length < 2 ∧ s.b.mux.unread false ≠ []
  · rw [if_pos hc, if_pos hc]
    have : l + 1 = s.lent + 1 - n := by omega
    simp only [Option.map_some, with2, this]
  · rw [if_neg hc, if_neg hc]; rfl

/-- What handing over a buffer leaves alone. -/
theorem push_frame {s t : Call.St} (h : s.push = some t) :
    t.result = s.result ∧ t.b.rcv = s.b.rcv ∧ t.sawEnd = s.sawEnd ∧ t.back = s.back ∧ t.lent = s.lent + 1 ∧
      t.b.sum = s.b.sum ∧ t.b.mux.eof = s.b.mux.eof ∧ t.b.mux = (s.b.mux.takeBuf false).1 := by
  unfold Call.St.push at h
  by_cases hc : s.data.length < 2 ∧ s.b.mux.unread false ≠ []
  · rw [if_pos hc] at h
    cases h
    exact ⟨rfl, rfl, rfl, rfl, rfl, rfl, rfl, rfl⟩
  · rw [if_neg hc] at h; cases h

theorem input_with2 (s : Call.St) (r : List Codec.Got) (pend : List UInt8) :
    (with2 s r s.lent).input skip pend = (s.input skip pend).map fun x => (with2 x.1 r x.1.lent, x.2) := by
  unfold Call.St.input
  have h2 : (with2 s r s.lent).b = s.b := rfl
  rw [h2]
  cases hi : s.b.input skip pend with
  | none => rfl
  | some x =>
    obtain ⟨b1, rest⟩ := x
    simp only
    by_cases hu : b1.mux.unread false ≠ []
    · rw [if_pos hu, if_pos hu]
      have hp := push_with2 ({ s with b := b1 } : Call.St) r s.lent 0 rfl
      have hp' : ({ with2 s r s.lent with b := b1 } : Call.St).push =
          ({ s with b := b1 } : Call.St).push.map fun t => with2 t r (t.lent - 0) := hp
      rw [hp']
      cases ({ s with b := b1 } : Call.St).push <;> rfl
    · rw [if_neg hu, if_neg hu]; rfl

theorem input_frame {s t : Call.St} {pend rest : List UInt8} {go : Bool} (e : s.input skip pend = some (t, rest, go)) :
    t.result = s.result ∧ t.b.rcv = s.b.rcv ∧ t.sawEnd = s.sawEnd := by
  unfold Call.St.input at e
  cases hi : s.b.input skip pend with
  | none => rw [hi] at e; cases e
  | some x =>
    obtain ⟨b1, rest1⟩ := x
    have hr := input_rcv hi
    rw [hi] at e
    simp only at e
    by_cases hu : b1.mux.unread false ≠ []
    · rw [if_pos hu] at e
      cases hp : ({ s with b := b1 } : Call.St).push with
      | none =>
        rw [hp] at e
        simp only [Option.some.injEq, Prod.mk.injEq] at e
        rw [← e.1]
        exact ⟨rfl, hr, rfl⟩
      | some t1 =>
        rw [hp] at e
        simp only [Option.some.injEq, Prod.mk.injEq] at e
        obtain ⟨f1, f2, f3, -⟩ := push_frame hp
        rw [← e.1]
        exact ⟨f1, f2.trans hr, f3⟩
    · rw [if_neg hu] at e
      simp only [Option.some.injEq, Prod.mk.injEq] at e
      rw [← e.1]
      exact ⟨rfl, hr, rfl⟩

/-! ## The output -/

/-- What follows a step of the decoders of the main side. -/
def nextOf (skip : Bool) (b : File.Body) (maps : Nat) (x : File.Body × List UInt8) : Codec.Res (Nat × Call.After) :=
  match b.rcv.at_ with
  | .content c => .ok (maps, if x.1.rcv.at_ = .content c then .ret .needsInput else .go)
  | .filling c => .ok (maps, if x.1.rcv.at_ = .filling c then .ret .needsOutput else .go)
  | .idle =>
    match b.rcv.queue with
    | .pm _ :: _ => if maps = 2 then .panic else .ok (maps + 1, .go)
    | .lit _ _ :: _ => .ok (maps, .yield)
    | _ :: _ => .ok (maps, .go)
    | [] => ends
  | .finished => ends
where
  /-- At the end. -/
  ends : Codec.Res (Nat × Call.After) :=
    if x.1.rcv.at_ ≠ .finished then .ok (maps, .ret .needsOutput)
    else if x.1.sum.length ≠ 8 then .ok (maps, .ret .needsInput)
    else if File.sumOk skip x.1.crc x.1.sum then .ok (maps, .ret .success)
    else .fail

theorem finish_eq (s : Call.St) (room : Nat) : s.finish dw skip room = (s.b.main dw room).bind fun x =>
    (nextOf.ends skip s.maps x).bind fun y => .ok ({ s with b := x.1, maps := y.1 }, x.2, y.2) := by
  unfold Call.St.finish
  congr 1
  funext x
  unfold nextOf.ends
  by_cases h1 : x.1.rcv.at_ ≠ .finished
  · rw [if_pos h1, if_pos h1]; rfl
  rw [if_neg h1, if_neg h1]
  by_cases h2 : x.1.sum.length ≠ 8
  · rw [if_pos h2, if_pos h2]; rfl
  rw [if_neg h2, if_neg h2]
  by_cases h3 : File.sumOk skip x.1.crc x.1.sum = true
  · rw [if_pos h3, if_pos h3]; rfl
  · rw [if_neg h3, if_neg h3]; rfl

theorem output_eq (s : Call.St) (room : Nat) (hf : fetches s = false) :
    s.output dw skip room = (s.b.main dw room).bind fun x =>
      (nextOf skip s.b s.maps x).bind fun y => .ok ({ s with b := x.1, maps := y.1 }, x.2, y.2) := by
  unfold Call.St.output nextOf
  unfold fetches at hf
  cases hat : s.b.rcv.at_ with
  | content c => rfl
  | filling c => rfl
  | finished =>
    simp only
    exact finish_eq s room
  | idle =>
    simp only
    cases hq : s.b.rcv.queue with
    | nil =>
      simp only
      rw [hat, hq] at hf
      have : s.sawEnd = true := by simpa using hf
      rw [if_pos this]
      exact finish_eq s room
    | cons g q =>
      simp only
      congr 1
      funext x
      cases g <;> try rfl
      simp only
      by_cases h2 : s.maps = 2
      · rw [if_pos h2, if_pos h2]; rfl
      · rw [if_neg h2, if_neg h2]; rfl

/-- The number of buffers fetched and not yet dealt with. -/
def Phase.count : Phase → Nat
  | .giving ms _ => ms.length
  | _ => 0

/-- What is left of a phase. -/
def Phase.left : Phase → Nat
  | .input => 3
  | .output => 0
  | .giving ms _ => 1 + ms.length

/-- What is left of the call. -/
def Conf.mu (c : Conf) (T : Nat) : Nat := c.p.pot T + (if fetches c.p.s then 2 else 0) + c.ph.left

/-- What holds during a call with input `inp`, room for `R` bytes, after `E0` was given out before. -/
structure Base (cm : Bool) (dw : Nat → Nat → Nat → List UInt8) (w : Nat) (F h body tr tail : List UInt8) (skip : Bool)
    (fut E0 inp : List UInt8) (R : Nat) (c : Conf) (T : Nat) : Prop where
  ok : BOk cm dw (2 ^ w) F h body tr tail skip (c.p.view c.ph.count).abs c.pend fut (E0 ++ c.out) T
  ext : Ext (c.p.view c.ph.count)
  side : Side c.p
  few : c.ph.count ≤ c.p.s.lent
  tidy : Mux.Tidy c.p.s.b.mux (c.pend ++ fut)
  room : c.out.length + c.room = R
  pend : ∃ n, n ≤ inp.length ∧ c.pend = inp.drop n
  drained : c.ph ≠ .input → c.pend ≠ [] → c.p.s.b.mux.eof = .done ∧ c.p.s.b.sum.length = 8
  need : ∀ ms, c.ph = .giving ms true → c.p.s.b.mux.eof ≠ .done
  fed : c.ph ≠ .input → c.p.s.lent = 0 →
    (c.p.s.b.mux.unread false = [] ∧ c.p.s.b.mux.eof = .done) ∨ ∃ ms, c.ph = .giving ms true

/-- What holds when it returns. -/
def Post (cm : Bool) (dw : Nat → Nat → Nat → List UInt8) (w : Nat) (F h body tr tail : List UInt8) (skip : Bool)
    (fut E0 inp : List UInt8) (R : Nat) (c : Conf) (r : Ret) : Prop :=
  ∃ T, BOk cm dw (2 ^ w) F h body tr tail skip (c.p.view 0).abs c.pend fut (E0 ++ c.out) T ∧ Ext (c.p.view 0) ∧
    Side c.p ∧ Mux.Tidy c.p.s.b.mux (c.pend ++ fut) ∧ c.out.length + c.room = R ∧
    (∃ n, n ≤ inp.length ∧ c.pend = inp.drop n) ∧
    (r = .needsInput → c.pend = [] ∧ (c.p.s.b.mux.eof ≠ .done ∨ c.p.s.b.sum.length ≠ 8)) ∧
    (r = .needsOutput → c.room = 0) ∧
    (r = .success → E0 ++ c.out = F.drop (2 ^ w) ∧ c.pend ++ fut = tail) ∧
    (c.pend ≠ [] → c.p.s.b.mux.eof = .done ∧ c.p.s.b.sum.length = 8)

variable {fut E0 inp : List UInt8} {R : Nat}

/-- What a step of the main thread comes to. -/
def Ticks (cm : Bool) (dw : Nat → Nat → Nat → List UInt8) (w : Nat) (F h body tr tail : List UInt8) (skip : Bool)
    (fut E0 inp : List UInt8) (R : Nat) (c : Conf) (T : Nat) : Prop :=
  (c.tick dw skip = .ok none ∧ c.ph = .output ∧ fetches c.p.s = true ∧ c.p.s.result = [] ∧ c.p.s.back = [] ∧ c.p.eof = false) ∨
  (∃ c' T', c.tick dw skip = .ok (some (c', none)) ∧ Base cm dw w F h body tr tail skip fut E0 inp R c' T' ∧ c'.mu T' < c.mu T) ∨
  (∃ c' r, c.tick dw skip = .ok (some (c', some r)) ∧ Post cm dw w F h body tr tail skip fut E0 inp R c' r)

theorem drained_nil {b : File.Body} {pend : List UInt8} (hd : pend ≠ [] → b.mux.eof = .done ∧ b.sum.length = 8)
    (hn : b.mux.eof ≠ .done ∨ b.sum.length ≠ 8) : pend = [] := by
  rcases Decidable.em (pend = []) with h0 | h0
  · exact h0
  · obtain ⟨d1, d2⟩ := hd h0
    rcases hn with hn | hn
    · exact absurd d1 hn
    · exact absurd d2 hn

theorem input_tick (htl : tr.length = 8) {c : Conf} {T : Nat} (hph : c.ph = .input)
    (hb : Base cm dw w F h body tr tail skip fut E0 inp R c T) : Ticks cm dw w F h body tr tail skip fut E0 inp R c T := by
  obtain ⟨p, ph, pend, room, out⟩ := c
  simp only at hph
  subst hph
  obtain ⟨b1, b2, b3, b4, b5, b6, ⟨n0, hn0, b7⟩, b8, b9, b10⟩ := hb
  simp only [Phase.count] at b1 b2 b3 b4 b5 b6 b7
  obtain ⟨t, n, go, T', e1, e2, e3, e4, e5, e6, e7, e8, e9⟩ := sinput_ok htl b1 b2 b5
  have hv : p.view 0 = with2 p.s (p.s.result ++ p.batch) p.s.lent := rfl
  rw [hv, input_with2] at e1
  cases hi : p.s.input skip pend with
  | none => rw [hi] at e1; cases e1
  | some x =>
    obtain ⟨u, rest, go'⟩ := x
    rw [hi] at e1
    simp only [Option.map_some, Option.some.injEq, Prod.mk.injEq] at e1
    obtain ⟨hu, rfl, rfl⟩ := e1
    obtain ⟨f1, f2, f3⟩ := input_frame hi
    have hlent : u.lent = t.lent := by rw [← hu]; rfl
    have hview : (St.mk u p.batch p.least p.force p.eof).view 0 = t := by
      rw [← hu]
      simp only [St.view, f1]
      rfl
    have hb' : u.b = t.b := by rw [← hu]; rfl
    have hside : Side (St.mk u p.batch p.least p.force p.eof) := by
      obtain ⟨s1, s2, s3, s4, s5⟩ := b3
      exact ⟨s1, s2, by simp only [f2]; exact s3, by simp only [f3]; exact s4, by simp only [f2]; exact s5⟩
    have hpend : ∃ m, m ≤ inp.length ∧ pend.drop n = inp.drop m := by
      refine ⟨n0 + n, ?_, ?_⟩
      · rw [b7, List.length_drop] at e2; omega
      · rw [b7, List.drop_drop]
    cases go' with
    | false =>
      right; right
      refine ⟨_, _, by unfold Conf.tick; simp only [hi]; rfl, T', ?_⟩
      have hn : u.b.mux.eof ≠ .done ∨ u.b.sum.length ≠ 8 := Or.inl (by rw [hb']; exact e9 rfl)
      rw [← hb'] at e5 e7
      refine ⟨by simp only [hview]; exact e3, by simp only [hview]; exact e4, hside, e5, b6, hpend,
        fun _ => ⟨drained_nil e7 hn, hn⟩, by simp, by simp, e7⟩
    | true =>
      right; left
      rw [← hb'] at e5 e7 e8
      have hrec : receives u = true := by
        unfold receives
        by_cases h0 : u.lent = 0
        · obtain ⟨v1, v2⟩ := e8 rfl (by rw [← hlent]; exact h0)
          simp [Mux.Mux.sawEof, v1, v2]
        · simp [Nat.pos_of_ne_zero h0]
      refine ⟨⟨⟨u, p.batch, p.least, p.force, p.eof⟩, .output, pend.drop n, room, out⟩, T',
        by unfold Conf.tick; simp only [hi, hrec, if_true], ?_, ?_⟩
      · refine ⟨by simp only [Phase.count, hview]; exact e3, by simp only [Phase.count, hview]; exact e4, hside,
          Nat.zero_le _, e5, b6, hpend, fun _ => e7, by simp, fun _ h0 => Or.inl (e8 rfl (by rw [← hlent]; exact h0))⟩
      · have hw1 : weight u T' ≤ weight p.s T := by
          rw [← hu] at e6; exact e6
        have hfe : fetches u = fetches p.s := by unfold fetches; rw [f2, f3]
        have hfp : (St.mk u p.batch p.least p.force p.eof).fpart = p.fpart := rfl
        simp only [Conf.mu, St.pot, Phase.left, hfe, hfp]
        omega

theorem given_tick {c : Conf} {T : Nat} {need : Bool} (hph : c.ph = .giving [] need)
    (hb : Base cm dw w F h body tr tail skip fut E0 inp R c T) : Ticks cm dw w F h body tr tail skip fut E0 inp R c T := by
  obtain ⟨p, ph, pend, room, out⟩ := c
  simp only at hph
  subst hph
  obtain ⟨b1, b2, b3, b4, b5, b6, b7, b8, b9, b10⟩ := hb
  have hdr := b8 (by simp)
  cases need with
  | true =>
    right; right
    have hn : p.s.b.mux.eof ≠ .done ∨ p.s.b.sum.length ≠ 8 := Or.inl (b9 [] rfl)
    refine ⟨⟨p, .output, pend, room, out⟩, .needsInput, by unfold Conf.tick; rfl, T, b1, b2, b3, b5, b6, b7, fun _ => ⟨drained_nil hdr hn, hn⟩, by simp, by simp, hdr⟩
  | false =>
    right; left
    refine ⟨⟨p, .output, pend, room, out⟩, T, by unfold Conf.tick; rfl, ⟨b1, b2, b3, b4, b5, b6, b7, fun _ => hdr, by simp, fun _ h0 => ?_⟩, ?_⟩
    · rcases b10 (by simp) h0 with h1 | ⟨ms, h1⟩
      · exact Or.inl h1
      · cases h1
    · simp only [Conf.mu, Phase.left]
      omega

/-- With the memory `m` given to the demultiplexer. -/
def recycled (s : Call.St) (m : List UInt8) : Call.St := { s with b := { s.b with mux := s.b.mux.recycle false m } }

theorem recycled_ext {s : Call.St} (m : List UInt8) (he : Ext s) : Ext (recycled s m) := by
  obtain ⟨g1, g2, g3, g4, g5, g6, g7, g8, g9⟩ := he
  exact ⟨g1, g2, g3, g4, g5, g6, g7, g8, g9⟩

theorem giveBack_one (m : List UInt8) (s : Call.St) (need : Bool) (h0 : s.lent ≠ 0) :
    Call.St.giveBack [m] s need =
      some (recycled (({ s with lent := s.lent - 1 } : Call.St).refill need).1 m,
        (({ s with lent := s.lent - 1 } : Call.St).refill need).2) := by
  rw [Call.St.giveBack, if_neg h0]
  rfl

theorem giving_tick {c : Conf} {T : Nat} {m : List UInt8} {ms : List (List UInt8)} {need : Bool} (hph : c.ph = .giving (m :: ms) need)
    (hb : Base cm dw w F h body tr tail skip fut E0 inp R c T) : Ticks cm dw w F h body tr tail skip fut E0 inp R c T := by
  obtain ⟨p, ph, pend, room, out⟩ := c
  simp only at hph
  subst hph
  obtain ⟨b1, b2, b3, b4, b5, b6, b7, b8, b9, b10⟩ := hb
  have hdr := b8 (by simp)
  simp only [Phase.count, List.length_cons] at b1 b2 b3 b4 b5 b6 b7 hdr b9
  obtain ⟨s1, hs1⟩ : ∃ s1 : Call.St, s1 = { p.s with lent := p.s.lent - 1 } := ⟨_, rfl⟩
  obtain ⟨L, hL⟩ : ∃ L, L = p.s.lent - (ms.length + 1) := ⟨_, rfl⟩
  have hvw : p.view (ms.length + 1) = with2 s1 (p.s.result ++ p.batch) L := by rw [hs1, hL]; rfl
  have hl1 : s1.lent = p.s.lent - 1 := by rw [hs1]
  have hLl : L + ms.length = s1.lent := by omega
  have hpw := push_with2 s1 (p.s.result ++ p.batch) L ms.length hLl
  rw [hvw] at b1 b2
  have hr1 : s1.result = p.s.result := by rw [hs1]
  have hb1 : s1.b = p.s.b := by rw [hs1]
  have hse1 : s1.sawEnd = p.s.sawEnd := by rw [hs1]
  have hw1 : weight s1 T = weight p.s T := by rw [hs1]; rfl
  have hgb := giveBack_one m p.s need (by omega)
  rw [← hs1] at hgb
  right; left
  unfold Call.St.refill at hgb
  have hfp : ∀ u, (St.mk u p.batch p.least p.force p.eof).fpart = p.fpart := fun _ => rfl
  cases hp : s1.push with
  | some t =>
    rw [hp] at hpw hgb
    simp only [Option.map_some] at hpw hgb
    obtain ⟨q1, q2, q3, q4, q5, q6, q7, q8, q9, q10, q11, q12, q13, q14⟩ := push_ok b1 b2 hpw
    obtain ⟨r1, r2, r3, r4⟩ := recycled_ok m q1
    obtain ⟨f1, f2, f3, f4, f5, f6, f7, f8⟩ := push_frame hp
    have hview : (St.mk (recycled t m) p.batch p.least p.force p.eof).view ms.length =
        recycled (with2 t (p.s.result ++ p.batch) (t.lent - ms.length)) m := by
      rw [← hr1, ← f1]; rfl
    refine ⟨⟨⟨recycled t m, p.batch, p.least, p.force, p.eof⟩, .giving ms need, pend, room, out⟩, T,
      by unfold Conf.tick; simp only [hgb], ⟨?_, ?_, ?_, ?_, ?_, b6, b7, ?_, ?_, ?_⟩, ?_⟩
    · simp only [Phase.count, hview]; exact r1
    · simp only [Phase.count, hview]; exact recycled_ext m q2
    · obtain ⟨s1, s2, s3, s4, s5⟩ := b3
      refine ⟨s1, s2, ?_, ?_, ?_⟩
      · simp only [recycled, f2, hb1]; exact s3
      · simp only [recycled, f3, hse1]; exact s4
      · simp only [recycled, f2, hb1]; exact s5
    · simp only [Phase.count, recycled, f5]; omega
    · refine Mux.Tidy.congr ?_ (r3.trans q6) (r2.trans q5)
      simp only [with2, hb1]; exact b5
    · intro _ hne
      have h1 : (recycled t m).b.mux.eof = p.s.b.mux.eof := by rw [← hb1]; exact r2.trans q5
      have h2 : (recycled t m).b.sum = p.s.b.sum := by rw [← hb1]; exact f6
      simp only [h1, h2]
      exact hdr hne
    · intro ms' h0
      cases h0
      have h1 : (recycled t m).b.mux.eof = p.s.b.mux.eof := by rw [← hb1]; exact r2.trans q5
      simp only [h1]
      exact b9 _ rfl
    · intro _ h0
      have : t.lent = 0 := h0
      omega
    · have h1 : weight (recycled t m) T ≤ weight p.s T := by
        have h2 : (recycled t m).load = t.load := by
          have : (recycled t m).b.mux.unread false = t.b.mux.unread false := r4
          simp only [Call.St.load, this]; rfl
        have h3 : t.load < s1.load := q9
        have h4 : t.hold = s1.hold := q10
        have h5 : t.maps = s1.maps := q11
        rw [← hw1]
        have h6 : (recycled t m).hold = t.hold := rfl
        have h7 : (recycled t m).maps = t.maps := rfl
        simp only [weight, h2, h6, h7, h4, h5]
        omega
      have hfe : fetches (recycled t m) = fetches p.s := by
        have h8 : (recycled t m).b.rcv = p.s.b.rcv := by rw [← hb1]; exact f2
        have h9 : (recycled t m).sawEnd = p.s.sawEnd := by rw [← hse1]; exact f3
        unfold fetches; rw [h8, h9]
      simp only [Conf.mu, St.pot, Phase.left, hfe, hfp, List.length_cons]
      omega
  | none =>
    rw [hp] at hgb
    simp only at hgb
    obtain ⟨nd, hnd⟩ : ∃ nd, nd = (need || (decide (s1.lent = 0) && (decide (s1.b.mux.unread false ≠ []) || !s1.b.mux.sawEof))) := ⟨_, rfl⟩
    rw [← hnd] at hgb
    obtain ⟨r1, r2, r3, r4⟩ := recycled_ok m b1
    have hle := b2.lent
    simp only [with2] at hle
    have hun : s1.lent = 0 → s1.b.mux.unread false = [] := by
      intro h0
      rcases push_none hp with h3 | h3
      · omega
      · exact h3
    have hview : (St.mk (recycled s1 m) p.batch p.least p.force p.eof).view ms.length =
        recycled (with2 s1 (p.s.result ++ p.batch) L) m := by
      have : L = s1.lent - ms.length := by omega
      rw [← hr1, this]; rfl
    have heo : (recycled s1 m).b.mux.eof = p.s.b.mux.eof := by rw [← hb1]; exact r2
    refine ⟨⟨⟨recycled s1 m, p.batch, p.least, p.force, p.eof⟩, .giving ms nd, pend, room, out⟩, T,
      by unfold Conf.tick; simp only [hgb], ⟨?_, ?_, ?_, ?_, ?_, b6, b7, ?_, ?_, ?_⟩, ?_⟩
    · simp only [Phase.count, hview]; exact r1
    · simp only [Phase.count, hview]; exact recycled_ext m b2
    · obtain ⟨s1, s2, s3, s4, s5⟩ := b3
      refine ⟨s1, s2, ?_, ?_, ?_⟩
      · simp only [recycled, hb1]; exact s3
      · simp only [recycled, hse1]; exact s4
      · simp only [recycled, hb1]; exact s5
    · simp only [Phase.count, recycled]; omega
    · refine Mux.Tidy.congr ?_ r3 r2
      simp only [with2, hb1]; exact b5
    · intro _ hne
      have h2 : (recycled s1 m).b.sum = p.s.b.sum := by rw [← hb1]; rfl
      simp only [heo, h2]
      exact hdr hne
    · intro ms' h0
      simp only [heo]
      have h0' : nd = true := by simp only [Phase.giving.injEq] at h0; exact h0.2
      rw [hnd] at h0'
      simp only [Bool.or_eq_true, Bool.and_eq_true, decide_eq_true_eq, Bool.not_eq_true'] at h0'
      rcases h0' with h1 | ⟨h1, h2⟩
      · exact b9 (m :: ms) (by rw [h1])
      · rcases h2 with h2 | h2
        · exact absurd (hun h1) h2
        · rw [hb1] at h2
          intro h4
          simp [Mux.Mux.sawEof, h4] at h2
    · intro _ h0
      have h1 : s1.lent = 0 := h0
      cases hn : nd with
      | true => exact Or.inr ⟨ms, rfl⟩
      | false =>
        left
        rw [hn] at hnd
        have hu := hun h1
        have h2 : s1.b.mux.eof = .done := by
          simp only [h1, hu, decide_true, Bool.true_and, ne_eq, not_true_eq_false, decide_false, Bool.false_or] at hnd
          have := hnd.symm
          simp only [Bool.or_eq_false_iff, Bool.not_eq_false'] at this
          simpa [Mux.Mux.sawEof] using this.2
        have h3 : (recycled s1 m).b.mux.unread false = s1.b.mux.unread false := r4
        simp only [h3, heo]
        exact ⟨hu, by rw [← hb1]; exact h2⟩
    · have h1 : weight (recycled s1 m) T = weight p.s T := by
        have h2 : (recycled s1 m).load = s1.load := by
          have : (recycled s1 m).b.mux.unread false = s1.b.mux.unread false := r4
          simp only [Call.St.load, this]; rfl
        rw [← hw1]
        have h6 : (recycled s1 m).hold = s1.hold := rfl
        have h7 : (recycled s1 m).maps = s1.maps := rfl
        simp only [weight, h2, h6, h7]
      have hfe : fetches (recycled s1 m) = fetches p.s := by
        have h8 : (recycled s1 m).b.rcv = p.s.b.rcv := by rw [← hb1]; rfl
        have h9 : (recycled s1 m).sawEnd = p.s.sawEnd := by rw [← hse1]; rfl
        unfold fetches; rw [h8, h9]
      simp only [Conf.mu, St.pot, Phase.left, hfe, hfp, h1, List.length_cons]
      omega

/-- The state after fetching. -/
def St.fetched (p : St) : St :=
  { p with s := { p.s with b := { p.s.b with rcv := { p.s.b.rcv with queue := p.s.result } }
                           result := []
                           back := []
                           sawEnd := p.eof } }

theorem fetch_tick {c : Conf} {T : Nat} (hph : c.ph = .output) (hf : fetches c.p.s = true)
    (hb : Base cm dw w F h body tr tail skip fut E0 inp R c T) : Ticks cm dw w F h body tr tail skip fut E0 inp R c T := by
  obtain ⟨p, ph, pend, room, out⟩ := c
  simp only at hph hf
  subst hph
  obtain ⟨b1, b2, b3, b4, b5, b6, b7, b8, b9, b10⟩ := hb
  have hdr := b8 (by simp)
  have hq : p.s.b.rcv.queue = [] := by
    unfold fetches at hf
    simp only [Bool.and_eq_true, List.isEmpty_iff] at hf
    exact hf.1.2
  by_cases hw : p.s.result = [] ∧ p.s.back = [] ∧ p.eof = false
  · left
    refine ⟨?_, rfl, hf, hw.1, hw.2.1, hw.2.2⟩
    unfold Conf.tick
    simp only [hf, if_true]
    rw [if_pos hw]
  right; left
  simp only [Phase.count] at b1 b2 b4
  have hview : ((p.fetched).view p.s.back.length).abs = (p.view 0).abs := by
    simp [Call.St.abs, St.view, with2, St.fetched, hq]
  have hle := b2.lent
  simp only [St.view, with2] at hle
  refine ⟨⟨p.fetched, .giving p.s.back false, pend, room, out⟩, T, ?_, ⟨?_, ?_, ?_, ?_, b5, b6, b7, fun _ => hdr, by simp, ?_⟩, ?_⟩
  · unfold Conf.tick
    simp only [hf, if_true]
    rw [if_neg hw]
    rfl
  · simp only [Phase.count, hview]; exact b1
  · obtain ⟨g1, g2, g3, g4, g5, g6, g7, g8, g9⟩ := b2
    refine ⟨g1, by simp [St.view, with2, St.fetched], g3, g4, ?_, ?_, g7, g8, ?_⟩
    · simp only [Phase.count, St.view, with2, St.fetched, List.length_nil]
      omega
    · simp only [St.view, with2, hq, pms_append] at g6
      simp only [St.view, with2, St.fetched, pms_append]
      simp only [pms, List.filter_nil, List.length_nil] at g6 ⊢
      omega
    · intro hx
      obtain ⟨u1, u2, u3⟩ := b3.fin hx
      exact ⟨u1, u2⟩
  · obtain ⟨s1, s2, s3, s4, s5⟩ := b3
    exact ⟨s1, s2, s3, fun hx => hx, s5⟩
  · simp only [Phase.count, St.fetched]; omega
  · intro _ h0
    rcases b10 (by simp) h0 with h1 | ⟨ms, h1⟩
    · exact Or.inl h1
    · cases h1
  · have hwt : weight p.fetched.s T + p.s.back.length = weight p.s T := by
      simp only [weight, Call.St.load, St.fetched, List.length_nil]
      omega
    have hfp : p.fetched.fpart = p.fpart := rfl
    have hfe : p.s.back = [] → fetches p.fetched.s = false := by
      intro h0
      unfold fetches
      by_cases h1 : p.s.result = []
      · have : p.eof = true := by
          cases h2 : p.eof with
          | true => rfl
          | false => exact absurd ⟨h1, h0, h2⟩ hw
        simp [St.fetched, this]
      · simp [St.fetched, h1]
    simp only [Conf.mu, St.pot, Phase.left, hfp, hf, if_true]
    by_cases h0 : p.s.back = []
    · rw [hfe h0, h0]
      rw [h0] at hwt
      simp only [List.length_nil] at hwt ⊢
      simp only [Bool.false_eq_true, if_false]
      omega
    · have := List.length_pos_iff.mpr h0
      split <;> omega

theorem output_tick (hw : 8 ≤ 2 ^ w) (htl : tr.length = 8)
    (hsum : sumOk skip (if skip then Crc.init else Crc.crc32c (h ++ body)) tr = true)
    {c : Conf} {T : Nat} (hph : c.ph = .output) (hf : fetches c.p.s = false)
    (hb : Base cm dw w F h body tr tail skip fut E0 inp R c T) : Ticks cm dw w F h body tr tail skip fut E0 inp R c T := by
  obtain ⟨p, ph, pend, room, out⟩ := c
  simp only at hph hf
  subst hph
  obtain ⟨b1, b2, b3, b4, b5, b6, b7, b8, b9, b10⟩ := hb
  have hdr := b8 (by simp)
  simp only [Phase.count] at b1 b2 b4
  have hfv : fetches (p.view 0) = false := hf
  have hnf : ¬ Fetching (p.view 0) := by
    rintro ⟨f1, f2, f3⟩
    unfold fetches at hfv
    simp [f1, f2, f3] at hfv
  have hrm : ¬ (returnsMap p.s = true ∧ p.s.maps = 2) := by
    rintro ⟨h1, h2⟩
    have hm := b2.maps
    simp only [St.view, with2, h2] at hm
    omega
  obtain ⟨t, o, a, T', e1, e2, e3, e4, e5, e6, e7, e8, e9, e10, e11, e12⟩ := output_ok hw htl hsum room b1 b2
  have hor : (p.view 0).b.rcv.at_ ≠ .idle ∨ (p.view 0).b.rcv.queue ≠ [] ∨ (p.view 0).result ++ held (p.view 0).hold = [] := by
    by_cases h1 : (p.view 0).b.rcv.at_ = .idle
    · right
      by_cases h2 : (p.view 0).b.rcv.queue = []
      · right
        have h3 : (p.view 0).sawEnd = true := by
          cases h4 : (p.view 0).sawEnd with
          | true => rfl
          | false => exact absurd ⟨h1, h2, h4⟩ hnf
        obtain ⟨f1, f2⟩ := b2.fin h3
        rw [f2, b2.stop f1]; rfl
      · exact Or.inl h2
    · exact Or.inl h1
  obtain ⟨b', o', T'', m1, -, -, -, -, -, m7, -, -, m10, -⟩ := smain_ok hw room b1 hor
  have hbv : (p.view 0).b = p.s.b := rfl
  have hmv : (p.view 0).maps = p.s.maps := rfl
  rw [output_eq _ _ hfv, m1, hbv, hmv] at e1
  rw [hbv] at m1 m7 m10 e5 e6 e7 e10
  simp only [Codec.Res.bind] at e1
  rw [List.append_assoc] at e3 e12
  cases hn : nextOf skip p.s.b p.s.maps (b', o') with
  | fail => rw [hn] at e1; cases e1
  | panic => rw [hn] at e1; cases e1
  | ok y =>
    rw [hn] at e1
    simp only [Codec.Res.ok.injEq, Prod.mk.injEq] at e1
    obtain ⟨ht, rfl, rfl⟩ := e1
    have hout : p.s.output dw skip room = .ok ({ p.s with b := b', maps := y.1 }, o', y.2) := by
      rw [output_eq _ _ hf, m1]
      simp only [Codec.Res.bind]
      rw [hn]
    obtain ⟨u, hu⟩ : ∃ u : Call.St, u = { p.s with b := b', maps := y.1 } := ⟨_, rfl⟩
    rw [← hu] at hout
    have hview : (St.mk u p.batch p.least p.force p.eof).view 0 = t := by
      rw [← ht, hu]; rfl
    have hub : u.b = b' := by rw [hu]
    have htb : t.b = b' := by rw [← ht]
    have hul : u.lent = p.s.lent := by rw [hu]
    have hus : u.sawEnd = p.s.sawEnd := by rw [hu]
    rw [htb] at e5 e6 e7
    have hside : Side (St.mk u p.batch p.least p.force p.eof) := by
      obtain ⟨s1, s2, s3, s4, s5⟩ := b3
      exact ⟨s1, s2, by simp only [hub, m10]; exact s3, by simp only [hus]; exact s4, by simp only [hub, m10]; exact s5⟩
    have htidy : Mux.Tidy u.b.mux (pend ++ fut) := by rw [hub]; exact b5.congr e6 e5
    have hroom : (out ++ o').length + (room - o'.length) = R := by
      rw [List.length_append]; simp only at b6; omega
    have hdr' : pend ≠ [] → u.b.mux.eof = .done ∧ u.b.sum.length = 8 := by
      intro hne
      rw [hub, e5, e7]
      exact hdr hne
    have hgo : weight t T' < weight (p.view 0) T →
        Base cm dw w F h body tr tail skip fut E0 inp R
          ⟨⟨u, p.batch, p.least, p.force, p.eof⟩, .output, pend, room - o'.length, out ++ o'⟩ T' ∧
        Conf.mu ⟨⟨u, p.batch, p.least, p.force, p.eof⟩, .output, pend, room - o'.length, out ++ o'⟩ T' <
          Conf.mu ⟨p, .output, pend, room, out⟩ T := by
      intro hlt
      refine ⟨⟨by simp only [Phase.count, hview]; exact e3, by simp only [Phase.count, hview]; exact e4, hside, Nat.zero_le _,
        htidy, hroom, b7, fun _ => hdr', by simp, fun _ h0 => ?_⟩, ?_⟩
      · simp only [hul] at h0
        rcases b10 (by simp) h0 with h1 | ⟨ms, h1⟩
        · left
          simp only [hub, m7, e5]
          exact h1
        · cases h1
      · rw [← ht] at hlt
        have hlt' : weight u T' < weight p.s T := by rw [hu]; exact hlt
        have hfp : (St.mk u p.batch p.least p.force p.eof).fpart = p.fpart := rfl
        simp only [Conf.mu, St.pot, Phase.left, hfp, hf, Bool.false_eq_true, if_false]
        split <;> omega
    have htick : Conf.tick dw skip ⟨p, .output, pend, room, out⟩ =
        (match y.2 with
        | .ret r => .ok (some (⟨⟨u, p.batch, p.least, p.force, p.eof⟩, .output, pend, room - o'.length, out ++ o'⟩, some r))
        | _ => .ok (some (⟨⟨u, p.batch, p.least, p.force, p.eof⟩, .output, pend, room - o'.length, out ++ o'⟩, none))) := by
      unfold Conf.tick
      simp only [hf, Bool.false_eq_true, if_false]
      rw [if_neg hrm, hout]
      rfl
    cases hy : y.2 with
    | go =>
      right; left
      rw [hy] at htick
      rcases e8 hy with hg | hg
      · obtain ⟨k1, k2⟩ := hgo hg
        exact ⟨_, T', htick, k1, k2⟩
      · exact absurd hg.2.1 hnf
    | yield =>
      right; left
      rw [hy] at htick
      rcases e9 hy with hg | hg
      · obtain ⟨k1, k2⟩ := hgo hg
        exact ⟨_, T', htick, k1, k2⟩
      · exact absurd hg.2.1 hnf
    | ret r =>
      right; right
      rw [hy] at htick
      refine ⟨_, r, htick, T', by simp only [hview]; exact e3, by simp only [hview]; exact e4, hside, htidy, hroom, b7, ?_, ?_, ?_, hdr'⟩
      · rintro rfl
        have hn' := e10 hy
        rw [← e5, ← e7, ← hub] at hn'
        exact ⟨drained_nil hdr' hn', hn'⟩
      · rintro rfl
        have := e11 hy
        simp only
        omega
      · rintro rfl
        exact e12 hy

/-- A step of the main thread. -/
theorem tick_ok (hw : 8 ≤ 2 ^ w) (htl : tr.length = 8)
    (hsum : sumOk skip (if skip then Crc.init else Crc.crc32c (h ++ body)) tr = true)
    {c : Conf} {T : Nat} (hb : Base cm dw w F h body tr tail skip fut E0 inp R c T) :
    Ticks cm dw w F h body tr tail skip fut E0 inp R c T := by
  cases hph : c.ph with
  | input => exact input_tick htl hph hb
  | output =>
    cases hf : fetches c.p.s with
    | true => exact fetch_tick hph hf hb
    | false => exact output_tick hw htl hsum hph hf hb
  | giving ms need =>
    cases ms with
    | nil => exact given_tick hph hb
    | cons m ms => exact giving_tick hph hb

end Divans.Par
