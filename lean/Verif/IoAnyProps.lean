import Verif.CallLeft
import Verif.IoFullProps

/-!
# What an end of file from the decompressing reader means, whatever the source gives: C64
-/

namespace Divans.Io
open Divans.Frame (GoodHeader trailer)
open Divans.Crc (crc32c)
open Divans.Call (calls Dec DLive DShut DLeft Ret Reply)

/-! ## Specification -/

/-- A broken end marker: a good header, then blocks, then, where a block should begin, `ff` and something else than
`fe`, or `ff fe` and something else than `ff`. -/
def Broken (bytes : List UInt8) : Prop :=
  ∃ h w body b more s, bytes = h ++ body ++ b :: more ∧ GoodHeader h w ∧ Mux.runAll .init body = some s ∧ s.btd = .none ∧
    ((s.eof = .start ∧ b ≠ 0xfe) ∨ (s.eof = .mid ∧ b ≠ 0xff))

/-- A complete file: header, streams with their end marker, trailer; with the right checksum unless `skip`. -/
def Complete (skip : Bool) (bytes : List UInt8) : Prop :=
  ∃ h w body sum s, GoodHeader h w ∧ Mux.runAll .init body = some s ∧ s.eof = .done ∧ sum.length = 4 ∧
    bytes = h ++ body ++ (sum ++ [0x61, 0x6e, 0x73, 0x7e]) ∧
    (skip = false → bytes = h ++ body ++ trailer (crc32c (h ++ body)))

/-! ## The decompressor inside -/

section
variable {dw : Nat → Nat → Nat → List UInt8} {n : Nat} {skip : Bool} {whole : List UInt8}

/-- A decompressor that took all of `whole` except `rest`, and wrote `out`. -/
def Past (dw : Nat → Nat → Nat → List UInt8) (n : Nat) (skip : Bool) (whole : List UInt8) (d : Dec) (rest out : List UInt8)
    (rets : List Ret) : Prop :=
  ∃ cs, calls dw n (.new skip) whole cs = some (.ok (d, rest, out, rets))

theorem Past.step {d : Dec} {inp fut out : List UInt8} {rets : List Ret} {cap : Nat} {r : Reply}
    (h : Past dw n skip whole d (inp ++ fut) out rets) (e : d.decode dw n inp cap = some (.ok r)) :
    Past dw n skip whole r.dec (inp.drop r.used ++ fut) (out ++ r.out) (rets ++ [r.ret]) := by
  obtain ⟨cs, h⟩ := h
  have hl := (Call.calls_live cs (Call.new_live skip) h).1
  have hu := (Call.decode_kind hl e).used
  have := calls_snoc (offer := inp.length) (room := cap) (by rw [List.take_left]; exact e) cs _ _ _ _ h
  rw [List.drop_append_of_le_length hu] at this
  exact ⟨_, this⟩

theorem Past.live {d : Dec} {rest out : List UInt8} {rets : List Ret} (h : Past dw n skip whole d rest out rets) : DLive d := by
  obtain ⟨cs, h⟩ := h
  exact (Call.calls_live cs (Call.new_live skip) h).1

/-- What is left is behind the trailer, if no end marker is broken. -/
theorem Past.left {d : Dec} {l fut out : List UInt8} {rets : List Ret} (h : Past dw n skip whole d (l ++ fut) out rets)
    (hb : ¬ Broken whole) (hd : DLeft d l) : l = [] ∨ DShut d := by
  rcases hd with h0 | ⟨s, hs, hl⟩
  · exact Or.inl h0
  rcases hl with h0 | h1 | ⟨h1, h2⟩
  · exact Or.inl h0
  · exact Or.inr ⟨s, hs, h1⟩
  refine Classical.byContradiction fun hno => hb ?_
  have hne : l ≠ [] := fun h0 => hno (Or.inl h0)
  obtain ⟨b, more, rfl⟩ := List.exists_cons_of_ne_nil hne
  obtain ⟨cs, h⟩ := h
  obtain ⟨f, x, ⟨acts, g1, g2⟩, ⟨-, -, hp, hst⟩, hx, -, -⟩ := Call.calls_sim cs (Call.pair_new skip whole) h
  obtain ⟨hseen, -⟩ := File.seen_run acts (File.seen_new skip) g1
  rw [hs] at hst
  unfold File.Seen at hseen
  cases hf : f.stage with
  | header got => rw [hf] at hst; exact hst.elim
  | body B =>
    rw [hf] at hst hseen
    simp only at hst hseen
    obtain ⟨hh, w, sc, body, k1, k2, k3, k4, -, -, -, k7, k8⟩ := hseen
    have hB : B.mux = s.b.mux := by
      rcases hst.near with e | ⟨k, -, -, e⟩
      · rw [← e]; rfl
      · have : s.abs.mux = (Call.moved B k).mux := by rw [e]
        exact this.symm
    rw [hB] at k3 k4 k7
    have hnd : s.b.mux.eof ≠ .done := by
      rcases h2 with h2 | h2 <;> (rw [h2.1]; simp)
    have hsum : B.sum = [] := by
      by_contra h0
      exact hnd (k7 h0)
    rw [hsum, List.append_nil, List.nil_append] at k8
    have g3 : File.fed acts = x ++ f.pending := g2
    rw [g3] at k8
    have hxx : x = hh ++ body := List.append_cancel_right k8
    refine ⟨hh, w, body, b, more ++ fut, sc, ?_, k1, k2, ?_, ?_⟩
    · rw [hx, hxx]; rfl
    · rw [k4, h1]; rfl
    · rw [k3]
      rcases h2 with ⟨h2, h3⟩ | ⟨h2, h3⟩
      · exact Or.inl ⟨h2, by simpa using h3⟩
      · exact Or.inr ⟨h2, by simpa using h3⟩

/-! ## The reader -/

variable {σ : Type}

/-- Reading from the source, whatever it does. -/
theorem pull_any (s : Reader σ) (h1 : s.off ≤ s.len) (h2 : s.len ≤ s.buf.length) :
    s.pull.1.cd = s.cd ∧ s.pull.1.off ≤ s.pull.1.len ∧ s.pull.1.len ≤ s.pull.1.buf.length ∧
    s.pull.1.buf.length = s.buf.length ∧
    s.pull.1.pending ++ srcBytes s.pull.1.src = s.pending ++ srcBytes s.src ∧
    (s.pull.1.pending = s.pending ∨ (∃ bs, s.pull.2 = some (.got bs)) ∧ s.pull.1.eof = false ∧ 0 < s.pull.1.avail) ∧
    (s.pull.2 = some .again → s.pull.1.pending = s.pending ∧ s.pull.1.eof = s.eof) ∧
    (Clean s.src → (s.eof = true → s.src = []) → Clean s.pull.1.src ∧ (s.pull.1.eof = true → s.pull.1.src = [])) := by
  have key : s.pull.1.cd = s.cd ∧ s.pull.1.off ≤ s.pull.1.len ∧ s.pull.1.len ≤ s.pull.1.buf.length ∧
      s.pull.1.buf.length = s.buf.length ∧
      s.pull.1.pending ++ srcBytes s.pull.1.src = s.pending ++ srcBytes s.src ∧
      (s.pull.1.pending = s.pending ∨ (∃ bs, s.pull.2 = some (.got bs)) ∧ s.pull.1.eof = false ∧ 0 < s.pull.1.avail) ∧
      (s.pull.2 = some .again → s.pull.1.pending = s.pending ∧ s.pull.1.eof = s.eof) := by
    obtain ⟨cd, buf, off, len, eof, flushed, err, src⟩ := s
    simp only at h1 h2
    unfold Reader.pull
    by_cases hr : len < buf.length ∧ eof = false
    · simp only [if_pos hr]
      match src with
      | [] => exact ⟨rfl, h1, h2, rfl, rfl, Or.inl rfl, by simp⟩
      | .interrupted :: t => exact ⟨rfl, h1, h2, rfl, rfl, Or.inl rfl, fun _ => ⟨rfl, rfl⟩⟩
      | .fail :: t => exact ⟨rfl, h1, h2, rfl, rfl, Or.inl rfl, by simp⟩
      | .data [] :: t => exact ⟨rfl, h1, h2, rfl, rfl, Or.inl rfl, by simp⟩
      | .data (b :: bs) :: t =>
        simp only
        obtain ⟨k, hk⟩ : ∃ k, k = min (buf.length - len) (b :: bs).length := ⟨_, rfl⟩
        rw [← hk]
        have hk1 : 1 ≤ k := by
          have : 1 ≤ (b :: bs).length := by simp
          omega
        have hk2 : len + k ≤ buf.length := by omega
        have hk3 : k ≤ (b :: bs).length := by omega
        have hlen : ((b :: bs).take k).length = k := by rw [List.length_take]; omega
        have hput : (put buf len ((b :: bs).take k)).length = buf.length := put_length (by rw [hlen]; exact hk2)
        have htk : (put buf len ((b :: bs).take k)).take (len + k) = buf.take len ++ (b :: bs).take k := by
          have := put_take (buf := buf) (bs := (b :: bs).take k) (k := len) h2
          rw [hlen] at this
          exact this
        have hpend : ((put buf len ((b :: bs).take k)).take (len + k)).drop off = (buf.take len).drop off ++ (b :: bs).take k := by
          rw [htk, List.drop_append_of_le_length]
          rw [List.length_take]; omega
        have hbytes : (b :: bs).take k ++ srcBytes (if k < (b :: bs).length then .data ((b :: bs).drop k) :: t else t) =
            (b :: bs) ++ srcBytes t := by
          by_cases hlt : k < (b :: bs).length
          · rw [if_pos hlt]
            simp only [srcBytes]
            rw [← List.append_assoc, List.take_append_drop]
          · rw [if_neg hlt, List.take_of_length_le (by omega)]
        refine ⟨trivial, by omega, by rw [hput]; exact hk2, hput, ?_, Or.inr ⟨⟨_, rfl⟩, hr.2, by simp only [Reader.avail]; omega⟩,
          by simp⟩
        simp only [Reader.pending]
        rw [hpend, List.append_assoc, hbytes]
        rfl
    · simp only [if_neg hr]
      exact ⟨trivial, h1, h2, trivial, trivial, Or.inl trivial, by simp⟩
  obtain ⟨k1, k2, k3, k4, k5, k6, k7⟩ := key
  refine ⟨k1, k2, k3, k4, k5, k6, k7, ?_⟩
  intro hc he
  obtain ⟨-, -, -, -, -, -, a, b, -⟩ := pull_got s h1 h2 hc he
  exact ⟨a, b⟩

/-- The decompressing reader between calls of its codec, when no end marker is broken: a call leaves bytes only
behind the trailer, and when nothing was left and the source has ended, the decompressor has reported success. -/
structure Sound (dw : Nat → Nat → Nat → List UInt8) (n : Nat) (skip : Bool) (src : List Ev) (s : Reader (Slot Dec)) (needs : Bool)
    (out : List UInt8) : Prop where
  off : s.off ≤ s.len
  len : s.len ≤ s.buf.length
  buf : 0 < s.buf.length
  empty : needs = true → s.pending = []
  clean : Clean src → Clean s.src ∧ (s.eof = true → s.src = [])
  ok : ∃ d rets, s.cd = .live d ∧ Past dw n skip (srcBytes src) d (s.pending ++ srcBytes s.src) out rets ∧
    (s.pending ≠ [] → DShut d) ∧ (needs = true → s.eof = true → .success ∈ rets)

/-- What a read that returned bytes, or none at all, says. -/
def Says (dw : Nat → Nat → Nat → List UInt8) (n : Nat) (skip : Bool) (src : List Ev) (s : Reader (Slot Dec)) (out : List UInt8)
    (last : Bool) : Prop :=
  Sound dw n skip src s false out ∧ (last = true → ∃ d rets, Past dw n skip (srcBytes src) d (srcBytes s.src) out rets ∧ .success ∈ rets ∧
    (Clean src → s.src = []))

theorem ofRet_inj {r : Ret} : (ofRet r = .success → r = .success) ∧ (ofRet r = .needsInput → r = .needsInput) ∧
    (ofRet r = .needsOutput → r = .needsOutput) := by
  cases r <;> simp [ofRet]

theorem loop_sound {src : List Ev} (hb : ¬ Broken (srcBytes src)) {cap : Nat} (hcap : 0 < cap) : ∀ (fuel : Nat)
    {s s' : Reader (Slot Dec)} {needs : Bool} {log log' : List Entry} {out bs : List UInt8}, Sound dw n skip src s needs out →
    Reader.loop (decProc dw n) cap fuel s needs log = some (s', log', .ok bs) → Says dw n skip src s' (out ++ bs) (bs == []) := by
  intro fuel
  induction fuel with
  | zero => intro s s' needs log log' out bs h e; cases e
  | succ fuel ih =>
    intro s s' needs log log' out bs h e
    by_cases ht : needs = true ∧ s.eof = true
    · rw [Reader.loop.eq_def] at e
      simp only at e
      rw [if_pos ht] at e
      cases e
      obtain ⟨h1, h2, h3, h4, h5, d, rets, h6, h7, h8, h9⟩ := h
      rw [List.append_nil]
      have hp := h4 ht.1
      rw [hp, List.nil_append] at h7
      refine ⟨⟨h1, h2, h3, by simp, h5, d, rets, h6, by rw [hp]; exact h7, h8, by simp⟩, fun _ => ⟨d, rets, h7, h9 ht.1 ht.2, ?_⟩⟩
      intro hc
      exact (h5 hc).2 ht.2
    obtain ⟨p1, p2, p3, p4, p5, p6, p7, p8⟩ := pull_any s h.off h.len
    by_cases ha : s.pull.2 = some .again
    · rw [loop_again _ _ _ _ _ _ ht ha] at e
      obtain ⟨q1, q2⟩ := p7 ha
      obtain ⟨h1, h2, h3, h4, h5, d, rets, h6, h7, h8, h9⟩ := h
      refine ih ⟨p2, p3, by rw [p4]; exact h3, by rw [q1]; exact h4, fun hc => p8 (h5 hc).1 (h5 hc).2, d, rets, by rw [p1]; exact h6,
        by rw [p5]; exact h7, by rw [q1]; exact h8, ?_⟩ e
      intro a b
      rw [q2] at b
      exact absurd ⟨a, b⟩ ht
    rw [loop_round _ _ _ _ _ _ ht ha] at e
    obtain ⟨h1, h2, h3, h4, h5, d, rets, h6, h7, h8, h9⟩ := h
    obtain ⟨t, ht'⟩ : ∃ t, t = s.pull.1 := ⟨_, rfl⟩
    have hcl : Clean src → Clean t.src ∧ (t.eof = true → t.src = []) := fun hc => by rw [ht']; exact p8 (h5 hc).1 (h5 hc).2
    rw [← ht'] at p1 p2 p3 p4 p5 p6
    have hbuf : 0 < t.buf.length := by rw [p4]; exact h3
    have htcd : t.cd = .live d := by rw [p1]; exact h6
    have hpast : Past dw n skip (srcBytes src) d (t.pending ++ srcBytes t.src) out rets := by rw [p5]; exact h7
    have hpl : t.pending.length = t.avail := pending_len t p3
    obtain ⟨nd, hnd⟩ : ∃ nd, nd = stillNeeds s.pull.2 needs := ⟨_, rfl⟩
    -- needs, with something there, means new bytes
    have hnd0 : nd = true → t.pending = [] := by
      intro h0
      rcases p6 with q | ⟨⟨x, q⟩, -⟩
      · rw [q]
        apply h4
        rw [hnd] at h0
        unfold stillNeeds at h0
        split at h0
        · cases h0
        · exact h0
      · rw [hnd, q] at h0; cases h0
    unfold after at e
    simp only at e
    rw [← ht', ← hnd] at e
    by_cases hav : t.avail = 0
    · -- close
      have hp0 : t.pending = [] := by rw [← List.length_eq_zero_iff, hpl, hav]
      have hcall : t.call (decProc dw n) cap = (⟨(decClose dw n t.cd cap).1, t.buf, t.off, t.len, t.eof, true, t.err, t.src⟩,
          .closed (decClose dw n t.cd cap).2.1 (decClose dw n t.cd cap).2.2, (decClose dw n t.cd cap).2.1, (decClose dw n t.cd cap).2.2) := by
        unfold Reader.call
        rw [if_pos hav]
        rfl
      rw [hcall] at e
      simp only at e
      obtain ⟨u, hu⟩ : ∃ u : Reader (Slot Dec), u = ⟨(decClose dw n t.cd cap).1, t.buf, t.off, t.len, t.eof, true, t.err, t.src⟩ := ⟨_, rfl⟩
      rw [← hu] at e
      have huav : u.avail = 0 := by rw [hu]; exact hav
      by_cases her : u.avail = 0 ∧ t.err = true
      · rw [if_pos her] at e; cases e
      rw [if_neg her] at e
      simp only [if_pos huav] at e
      by_cases hfl : (decClose dw n t.cd cap).2.2 = .failure
      · rw [if_pos hfl] at e; cases e
      rw [if_neg hfl] at e
      -- the call returned
      have hc : ∃ r, d.decode dw n [] cap = some (.ok r) ∧ (decClose dw n t.cd cap) = (.live r.dec, r.out, ofRet r.ret) ∧
          r.ret ≠ .needsInput := by
        unfold decClose decStep at hfl ⊢
        rw [htcd] at hfl ⊢
        simp only at hfl ⊢
        cases hd : d.decode dw n [] cap with
        | none => rw [hd] at hfl; simp at hfl
        | some y =>
          cases y with
          | fail => rw [hd] at hfl; simp at hfl
          | panic => rw [hd] at hfl; simp at hfl
          | ok r =>
            rw [hd] at hfl
            simp only at hfl
            cases hr : r.ret with
            | needsInput => rw [hr] at hfl; simp [ofRet] at hfl
            | needsOutput => exact ⟨r, rfl, by simp [hr, ofRet], by rw [hr]; simp⟩
            | success => exact ⟨r, rfl, by simp [hr, ofRet], by rw [hr]; simp⟩
      obtain ⟨r, hr1, hr2, hr3⟩ := hc
      have hucd : u.cd = .live r.dec := by rw [hu]; simp only; rw [hr2]
      have hstep := Past.step (inp := []) (fut := srcBytes t.src) (by rw [hp0] at hpast; exact hpast) hr1
      rw [List.drop_nil, List.nil_append] at hstep
      obtain ⟨f1, f2, f3, f4, -, f6, f7, f8, f9, f10, -⟩ := front_held u (by rw [hu]; exact p2) (by rw [hu]; exact p3)
        (by rw [hu]; exact hbuf) huav
      have husrc : u.src = t.src := by rw [hu]
      have hueof : u.eof = t.eof := by rw [hu]
      have hubuf : u.buf = t.buf := by rw [hu]
      rw [hr2] at e
      simp only at e
      have hkind := Call.decode_kind hpast.live hr1
      have hsucc : r.out = [] → r.ret = .success := by
        intro h0
        cases hret : r.ret with
        | needsInput => exact absurd hret hr3
        | success => rfl
        | needsOutput =>
          have := hkind.full hret
          rw [h0] at this
          simp at this
          omega
      have hsound : ∀ nd', Sound dw n skip src u.front nd' (out ++ r.out) ∨ (nd' = true ∧ r.out ≠ []) := by
        intro nd'
        by_cases hbad : nd' = true ∧ r.out ≠ []
        · exact Or.inr hbad
        refine Or.inl ⟨f2, f3, by rw [f4, hubuf]; exact hbuf, fun _ => f9, fun hcc => by rw [f7, f8, husrc, hueof]; exact hcl hcc, r.dec,
          rets ++ [r.ret], by rw [f1]; exact hucd, by rw [f9, f7, husrc]; exact hstep, by rw [f9]; simp, ?_⟩
        intro a _
        have : r.out = [] := by
          by_contra h0
          exact hbad ⟨a, h0⟩
        rw [hsucc this]
        simp
      have hs0 : Sound dw n skip src u.front false (out ++ r.out) := by
        rcases hsound false with h | h
        · exact h
        · cases h.1
      by_cases hx : ofRet r.ret = .success ∧ u.front.eof = true ∧ u.avail = 0 ∧ u.front.flushed = true
      · rw [if_pos hx] at e
        simp only [Option.some.injEq, Prod.mk.injEq, Got.ok.injEq] at e
        obtain ⟨rfl, -, rfl⟩ := e
        refine ⟨hs0, fun _ => ⟨r.dec, rets ++ [r.ret], by rw [f7, husrc]; exact hstep, by rw [ofRet_inj.1 hx.1]; simp, ?_⟩⟩
        intro hcc
        rw [f7, husrc]
        exact (hcl hcc).2 (by rw [← hueof, ← f8]; exact hx.2.1)
      rw [if_neg hx] at e
      by_cases hout : r.out = []
      · rw [if_pos hout] at e
        rcases hsound true with hs | hs
        · rw [hout, List.append_nil] at hs
          exact ih hs e
        · exact absurd hout hs.2
      · rw [if_neg hout] at e
        simp only [Option.some.injEq, Prod.mk.injEq, Got.ok.injEq] at e
        obtain ⟨rfl, -, rfl⟩ := e
        refine ⟨hs0, fun h0 => ?_⟩
        exact absurd (by simpa using h0) hout
    · -- process
      have hcall : t.call (decProc dw n) cap = (⟨(decStep dw n t.cd t.pending cap).1, t.buf, t.off + (decStep dw n t.cd t.pending cap).2.1,
          t.len, t.eof, t.flushed, t.err, t.src⟩,
          .fed t.pending (decStep dw n t.cd t.pending cap).2.1 (decStep dw n t.cd t.pending cap).2.2.1 (decStep dw n t.cd t.pending cap).2.2.2,
          (decStep dw n t.cd t.pending cap).2.2.1, (decStep dw n t.cd t.pending cap).2.2.2) := by
        unfold Reader.call
        rw [if_neg hav]
        rfl
      rw [hcall] at e
      simp only at e
      obtain ⟨u, hu⟩ : ∃ u : Reader (Slot Dec), u = ⟨(decStep dw n t.cd t.pending cap).1, t.buf,
        t.off + (decStep dw n t.cd t.pending cap).2.1, t.len, t.eof, t.flushed, t.err, t.src⟩ := ⟨_, rfl⟩
      rw [← hu] at e
      by_cases her : u.avail = 0 ∧ t.err = true
      · rw [if_pos her] at e; cases e
      rw [if_neg her] at e
      by_cases hfl : (decStep dw n t.cd t.pending cap).2.2.2 = .failure
      · rw [if_pos hfl] at e; cases e
      rw [if_neg hfl] at e
      have hc : ∃ r, d.decode dw n t.pending cap = some (.ok r) ∧
          decStep dw n t.cd t.pending cap = (.live r.dec, r.used, r.out, ofRet r.ret) := by
        unfold decStep at hfl ⊢
        rw [htcd] at hfl ⊢
        simp only at hfl ⊢
        cases hd : d.decode dw n t.pending cap with
        | none => rw [hd] at hfl; simp at hfl
        | some y =>
          cases y with
          | fail => rw [hd] at hfl; simp at hfl
          | panic => rw [hd] at hfl; simp at hfl
          | ok r => exact ⟨r, rfl, rfl⟩
      obtain ⟨r, hr1, hr2⟩ := hc
      have hkind := Call.decode_kind hpast.live hr1
      obtain ⟨hleft, hshut⟩ := Call.decode_left hpast.live hr1
      have hstep := Past.step hpast hr1
      have hl2 := hstep.left hb hleft
      have hused : r.used ≤ t.avail := by rw [← hpl]; exact hkind.used
      have htav : t.avail = t.len - t.off := rfl
      have huf : u = ⟨.live r.dec, t.buf, t.off + r.used, t.len, t.eof, t.flushed, t.err, t.src⟩ := by rw [hu, hr2]
      have huoff : u.off ≤ u.len := by rw [huf]; simp only; omega
      have hulen : u.len ≤ u.buf.length := by rw [huf]; exact p3
      have hup : u.pending = t.pending.drop r.used := by
        rw [huf]
        simp only [Reader.pending]
        rw [List.drop_drop]
      have huav : u.avail = t.avail - r.used := by
        rw [huf]
        simp only [Reader.avail]
        omega
      have hucd : u.cd = .live r.dec := by rw [huf]
      have husrc : u.src = t.src := by rw [huf]
      have hueof : u.eof = t.eof := by rw [huf]
      have hubuf : 0 < u.buf.length := by rw [huf]; exact hbuf
      rw [hr2] at e
      simp only at e
      have hstep' : Past dw n skip (srcBytes src) r.dec (u.pending ++ srcBytes u.src) (out ++ r.out) (rets ++ [r.ret]) := by
        rw [hup, husrc]; exact hstep
      by_cases hu0 : u.avail = 0
      · simp only [if_pos hu0] at e
        obtain ⟨f1, f2, f3, f4, -, f6, f7, f8, f9, f10, -⟩ := front_held u huoff hulen hubuf hu0
        have hup0 : u.pending = [] := by rw [← List.length_eq_zero_iff, pending_len u hulen, hu0]
        have hsound : ∀ nd', (nd' = true → u.eof = true → .success ∈ rets ++ [r.ret]) → Sound dw n skip src u.front nd' (out ++ r.out) := by
          intro nd' hnd'
          refine ⟨f2, f3, by rw [f4]; exact hubuf, fun _ => f9, fun hcc => by rw [f7, f8, husrc, hueof]; exact hcl hcc, r.dec,
            rets ++ [r.ret], by rw [f1]; exact hucd, by rw [f9, f7]; rw [hup0] at hstep'; exact hstep', by rw [f9]; simp, ?_⟩
          rw [f8]; exact hnd'
        -- with the source at its end, these were left before, so they are not taken
        have heof : u.eof = true → False := by
          intro h0
          rw [hueof] at h0
          rcases p6 with q | ⟨-, q, -⟩
          · have hne : s.pending ≠ [] := by
              rw [← q]
              intro h1
              rw [h1] at hpl
              exact hav hpl.symm
            have := (hshut (h8 hne)).1
            rw [huav, this] at hu0
            exact hav hu0
          · rw [q] at h0; cases h0
        by_cases hx : ofRet r.ret = .success ∧ u.front.eof = true ∧ True ∧ u.front.flushed = true
        · exact absurd (by rw [← f8]; exact hx.2.1) heof
        rw [if_neg (by intro h0; exact hx ⟨h0.1, h0.2.1, trivial, h0.2.2.2⟩)] at e
        by_cases hout : r.out = []
        · rw [if_pos hout] at e
          have := hsound true (fun _ h0 => (heof h0).elim)
          rw [hout, List.append_nil] at this
          exact ih this e
        · rw [if_neg hout] at e
          simp only [Option.some.injEq, Prod.mk.injEq, Got.ok.injEq] at e
          obtain ⟨rfl, -, rfl⟩ := e
          exact ⟨hsound false (by simp), fun h0 => absurd (by simpa using h0) hout⟩
      · simp only [if_neg hu0] at e
        have hndf : nd = false := by
          cases nd with
          | false => rfl
          | true =>
            have := hnd0 rfl
            rw [this] at hpl
            exact absurd hpl.symm hav
        have hs0 : Sound dw n skip src u false (out ++ r.out) := by
          refine ⟨huoff, hulen, hubuf, by simp, fun hcc => by rw [husrc, hueof]; exact hcl hcc, r.dec, rets ++ [r.ret], hucd, hstep', ?_, by simp⟩
          intro hne
          rw [hup] at hne
          exact hl2.resolve_left hne
        rw [if_neg (by intro h0; exact hu0 h0.2.2.1)] at e
        by_cases hout : r.out = []
        · rw [if_pos hout, hndf] at e
          rw [hout, List.append_nil] at hs0
          exact ih hs0 e
        · rw [if_neg hout] at e
          simp only [Option.some.injEq, Prod.mk.injEq, Got.ok.injEq] at e
          obtain ⟨rfl, -, rfl⟩ := e
          exact ⟨hs0, fun h0 => absurd (by simpa using h0) hout⟩

theorem readToEnd_sound {src : List Ev} (hb : ¬ Broken (srcBytes src)) {fuel : Nat} : ∀ (caps : List Nat), (∀ c ∈ caps, 0 < c) →
    ∀ {s s' : Reader (Slot Dec)} {log log' : List Entry} {out bs : List UInt8}, Sound dw n skip src s false out →
    readToEnd (decProc dw n) fuel caps s log = some (s', log', bs, .eof) → Says dw n skip src s' (out ++ bs) true := by
  intro caps
  induction caps with
  | nil => intro _ s s' log log' out bs h e; cases e
  | cons cap caps ih =>
    intro hcaps s s' log log' out bs h e
    rw [readToEnd] at e
    cases hr : s.read (decProc dw n) fuel cap log with
    | none => rw [hr] at e; cases e
    | some x =>
      obtain ⟨s1, log1, g⟩ := x
      rw [hr] at e
      cases g with
      | ioErr => simp at e
      | codecErr => simp at e
      | ok y =>
        have h1 := loop_sound hb (hcaps cap (by simp)) fuel h hr
        cases y with
        | nil =>
          simp only [Option.some.injEq, Prod.mk.injEq] at e
          obtain ⟨rfl, -, rfl, -⟩ := e
          exact h1
        | cons b y =>
          simp only at e
          rw [Option.map_eq_some_iff] at e
          obtain ⟨⟨s2, log2, bs2, st⟩, e1, e2⟩ := e
          simp only [Prod.mk.injEq] at e2
          obtain ⟨rfl, rfl, rfl, rfl⟩ := e2
          have := ih (fun c hc => hcaps c (by simp [hc])) h1.1 e1
          rw [List.append_assoc] at this
          exact this

theorem decReader_sound (dw : Nat → Nat → Nat → List UInt8) (n : Nat) (skip : Bool) (size : Nat) (src : List Ev) :
    Sound dw n skip src (decReader skip size src) false [] := by
  refine ⟨Nat.le_refl _, Nat.zero_le _, ?_, by simp, fun h => ⟨h, by simp [decReader, Reader.new]⟩, .new skip, [], rfl, ⟨[], rfl⟩,
    fun h => ?_, by simp⟩
  · simp only [decReader, Reader.new, List.length_replicate, bufSize]
    split <;> omega
  · exact absurd rfl h

end

/-! ## The theorems -/

/-- **C64, partial.**  The source gives any bytes in any pieces, with any errors and interruptions.  If a caller reads
with nonempty buffers until `read` returns 0 and no error came, then the decompressor inside has reported success, what it
was given is a complete file with the right checksum, and what was read is what `decode` gives for that file; for a source
without errors that file is everything the source has.  Missing: files with a broken end marker; for those it is not
true (`end_of_file_without_file`). -/
theorem reader_end_means_complete_partial (dw : Nat → Nat → Nat → List UInt8) (n : Nat) (skip : Bool) (size : Nat) (src : List Ev)
    (hb : ¬ Broken (srcBytes src)) (fuel : Nat) (caps : List Nat) (hcaps : ∀ c ∈ caps, 0 < c) (s : Reader (Slot Dec))
    (log : List Entry) (bs : List UInt8)
    (e : readToEnd (decProc dw n) fuel caps (decReader skip size src) [] = some (s, log, bs, .eof)) :
    ∃ file cs d rets, srcBytes src = file ++ srcBytes s.src ∧ Complete skip file ∧ (Clean src → file = srcBytes src) ∧
      calls dw n (.new skip) (srcBytes src) cs = some (.ok (d, srcBytes s.src, bs, rets)) ∧ .success ∈ rets := by
  obtain ⟨-, h2⟩ := readToEnd_sound hb caps hcaps (decReader_sound dw n skip size src) e
  obtain ⟨d, rets, ⟨cs, h3⟩, h4, h5⟩ := h2 rfl
  rw [List.nil_append] at h3
  have hl := Call.success_last dw n skip _ cs d _ bs rets h3 h4
  obtain ⟨h, w, body, sum, st, k1, k2, k3, k4, k5, k6⟩ := Call.call_success_means_checked dw n skip _ cs d _ bs rets h3 hl
  refine ⟨h ++ body ++ (sum ++ [0x61, 0x6e, 0x73, 0x7e]), cs, d, rets, k5, ⟨h, w, body, sum, st, k1, k2, k3, k4, rfl, ?_⟩, ?_, h3, h4⟩
  · intro hs
    have := k6 hs
    rw [k5] at this
    exact List.append_cancel_right this
  · intro hc
    rw [h5 hc, srcBytes, List.append_nil] at k5
    exact k5.symm

/-- A header, then a broken end marker. -/
def bogus : List UInt8 := [0xff, 0xe5, 0x8c, 0x9f, 0, 10, 0, 0, 0, 0, 0, 0, 0, 0, 0, 0, 0xff, 3]

/-- **C64.**  18 bytes that are no file, with or without the checksum: a caller who reads to the end gets no error, and
no bytes.  The 17 bytes without the last are refused. -/
theorem end_of_file_without_file :
    ¬ Complete true bogus ∧ ¬ Complete false bogus ∧
    ∃ s log, readToEnd (decProc File.noWords 60) 100 [10] (decReader false 0 [.data bogus]) [] = some (s, log, [], .eof) := by
  have hno : ∀ skip, ¬ Complete skip bogus := by
    rintro skip ⟨h, w, body, sum, s, h1, h2, h3, h4, h5, -⟩
    have := congrArg List.getLast? h5
    rw [List.getLast?_append, List.getLast?_append] at this
    simp [bogus] at this
  refine ⟨hno _, hno _, ?_⟩
  have h : view (readToEnd (decProc File.noWords 60) 100 [10] (decReader false 0 [.data bogus]) []) = some ([], .eof) := by
    decide +kernel
  cases hr : readToEnd (decProc File.noWords 60) 100 [10] (decReader false 0 [.data bogus]) [] with
  | none => rw [hr] at h; cases h
  | some x =>
    obtain ⟨s, log, bs, st⟩ := x
    rw [hr] at h
    simp only [view, Option.some.injEq, Prod.mk.injEq] at h
    obtain ⟨rfl, rfl⟩ := h
    exact ⟨s, log, rfl⟩

/-- Is the end marker broken behind `k` bytes of the streams? -/
def brokenAt (bytes : List UInt8) (k : Nat) : Bool :=
  match Mux.runAll .init ((bytes.drop 16).take k) with
  | none => false
  | some s => decide ((s.eof = .start ∧ ((bytes.drop 16).drop k).head? ≠ some 0xfe) ∨
      (s.eof = .mid ∧ ((bytes.drop 16).drop k).head? ≠ some 0xff))

theorem broken_at {bytes : List UInt8} (h : Broken bytes) : ∃ k, k < bytes.length ∧ brokenAt bytes k = true := by
  obtain ⟨hd, w, body, b, more, s, h1, h2, h3, -, h5⟩ := h
  have hl : hd.length = 16 := h2.1
  refine ⟨body.length, by rw [h1]; simp; omega, ?_⟩
  have e1 : bytes.drop 16 = body ++ b :: more := by
    rw [h1, List.append_assoc, ← hl, List.drop_left]
  unfold brokenAt
  rw [e1, List.take_left, List.drop_left, h3]
  simpa using h5

/-- A file without a broken end marker, in pieces, with an interruption, read to its end. -/
example : ¬ Broken (srcBytes [.data (File.oddFile.take 20), .interrupted, .data (File.oddFile.drop 20)]) ∧
    view (readToEnd (decProc File.noWords 60) 100 [3, 1, 5, 100, 2, 2]
      (decReader false 7 [.data (File.oddFile.take 20), .interrupted, .data (File.oddFile.drop 20)]) []) =
    some ([97, 98, 99, 97, 98, 99, 97, 98, 99, 97, 98, 99, 97], .eof) := by
  refine ⟨fun h => ?_, by decide +kernel⟩
  obtain ⟨k, h1, h2⟩ := broken_at h
  have : ∀ k, k < (srcBytes [.data (File.oddFile.take 20), .interrupted, .data (File.oddFile.drop 20)]).length →
      brokenAt (srcBytes [.data (File.oddFile.take 20), .interrupted, .data (File.oddFile.drop 20)]) k = false := by decide +kernel
  rw [this k h1] at h2
  cases h2

/-- The last byte missing: an error. -/
example : view (readToEnd (decProc File.noWords 60) 100 [10] (decReader false 0 [.data bogus.dropLast]) []) = some ([], .codecErr) := by
  decide +kernel

end Divans.Io
