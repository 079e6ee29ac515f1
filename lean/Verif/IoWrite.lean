import Verif.IoDec

/-!
# A writer around a codec that keeps a contract
-/

namespace Divans.Io

variable {σ : Type}

/-- What the writer needs of its codec.  `P` as in `Contract`; `Settled c rest out`: what holds when the codec
does not want output space. -/
structure WContract (p : Nat → Proc σ) (P Settled : σ → List UInt8 → List UInt8 → Prop)
    (lt : σ × List UInt8 × List UInt8 → σ × List UInt8 × List UInt8 → Prop) : Prop where
  process : ∀ c inp fut out cap, P c (inp ++ fut) out → 0 < cap →
    ∃ k c' n o r, (∀ fuel, k ≤ fuel → (p fuel).process c inp cap = (c', n, o, r)) ∧
      P c' (inp.drop n ++ fut) (out ++ o) ∧ r ≠ .failure ∧
      (r = .needsOutput → lt (c', inp.drop n ++ fut, out ++ o) (c, inp ++ fut, out)) ∧
      (r ≠ .needsOutput → inp.drop n = [] ∧ Settled c' fut (out ++ o))

variable {p : Nat → Proc σ} {P Settled : σ → List UInt8 → List UInt8 → Prop}
  {lt : σ × List UInt8 × List UInt8 → σ × List UInt8 × List UInt8 → Prop}

/-- A writer whose sink does not fail. -/
structure WHeld (P : σ → List UInt8 → List UInt8 → Prop) (cap : Nat) (fl : Bool) (w : Writer σ) (rest out : List UInt8) :
    Prop where
  ok : P w.cd rest out
  cap : w.cap = cap
  flushed : w.flushed = fl
  sink : ∀ b ∈ w.sink, b = true

theorem emit_good (w : Writer σ) (bs : List UInt8) (h : ∀ b ∈ w.sink, b = true) :
    ∃ w' : Writer σ, w.emit bs = (w', .wrote bs, true) ∧ w'.cd = w.cd ∧ w'.cap = w.cap ∧ w'.flushed = w.flushed ∧
      (∀ b ∈ w'.sink, b = true) := by
  obtain ⟨cd, cap, fl, sink⟩ := w
  cases sink with
  | nil => exact ⟨_, rfl, rfl, rfl, rfl, h⟩
  | cons b t =>
    have hb := h b (by simp)
    subst hb
    exact ⟨_, rfl, rfl, rfl, rfl, fun b hb => h b (by simp [hb])⟩

theorem wloop_ok (hc : WContract p P Settled lt) (hwf : WellFounded lt) {cap : Nat} (hcap : 0 < cap) (total : Nat) {fl : Bool} :
    ∀ (x : σ × List UInt8 × List UInt8) (w : Writer σ) (inp fut : List UInt8) (log : List Entry) (out : List UInt8),
      (w.cd, inp ++ fut, out) = x → WHeld P cap fl w (inp ++ fut) out →
      ∃ k w' log' bs, (∀ f, k ≤ f → ∀ n, k ≤ n → w.loop (p f) total n inp log = some (w', log', .ok total)) ∧
        WHeld P cap fl w' fut (out ++ bs) ∧ Settled w'.cd fut (out ++ bs) ∧ sinkBytes log' = sinkBytes log ++ bs := by
  intro x
  induction x using hwf.induction with
  | _ x ih =>
  intro w inp fut log out hx hh
  obtain ⟨k, c', n0, o, r, e1, e2, e3, e4, e5⟩ := hc.process w.cd inp fut out cap hh.ok hcap
  obtain ⟨w1, m1, m2, m3, m4, m5⟩ := emit_good { w with cd := c' } o hh.sink
  have hh1 : WHeld P cap fl w1 (inp.drop n0 ++ fut) (out ++ o) :=
    ⟨by rw [m2]; exact e2, m3.trans hh.cap, m4.trans hh.flushed, m5⟩
  obtain ⟨log1, hlog1⟩ : ∃ log1, log1 = log ++ [.fed inp n0 o r, .wrote o] := ⟨_, rfl⟩
  have hsb : sinkBytes log1 = sinkBytes log ++ o := by
    rw [hlog1, sinkBytes_append]
    simp [sinkBytes]
  have hround : ∀ f, k ≤ f → ∀ n, w.loop (p f) total (n + 1) inp log =
      match r with
      | .needsInput => if inp.drop n0 ≠ [] then some (w1, log1, .trailing) else some (w1, log1, .ok total)
      | .needsOutput => Writer.loop (p f) total n w1 (inp.drop n0) log1
      | .success => some (w1, log1, .ok total)
      | .failure => some (w1, log1, .codecErr) := by
    intro f hf n
    rw [Writer.loop.eq_def]
    simp only
    rw [show (p f).process w.cd inp w.cap = (c', n0, o, r) by rw [hh.cap]; exact e1 f hf]
    simp only
    rw [m1, ← hlog1]
    simp only [Bool.true_eq_false, if_false]
    cases r <;> rfl
  cases r with
  | failure => exact absurd rfl e3
  | needsInput =>
    obtain ⟨q1, q2⟩ := e5 (by simp)
    rw [q1, List.nil_append] at hh1
    refine ⟨k + 1, w1, log1, o, fun f hf n hn => ?_, hh1, by rw [m2]; exact q2, hsb⟩
    obtain ⟨n, rfl⟩ : ∃ n', n = n' + 1 := ⟨n - 1, by omega⟩
    rw [hround f (by omega) n]
    simp only [q1, ne_eq, not_true_eq_false, if_false]
  | success =>
    obtain ⟨q1, q2⟩ := e5 (by simp)
    rw [q1, List.nil_append] at hh1
    refine ⟨k + 1, w1, log1, o, fun f hf n hn => ?_, hh1, by rw [m2]; exact q2, hsb⟩
    obtain ⟨n, rfl⟩ : ∃ n', n = n' + 1 := ⟨n - 1, by omega⟩
    rw [hround f (by omega) n]
  | needsOutput =>
    obtain ⟨k2, w', log', bs, q1, q2, q3, q4⟩ := ih _ (by rw [← hx]; exact e4 rfl) w1 (inp.drop n0) fut log1 (out ++ o) (by rw [m2]) hh1
    refine ⟨max k k2 + 1, w', log', o ++ bs, fun f hf n hn => ?_, by rw [← List.append_assoc]; exact q2,
      by rw [← List.append_assoc]; exact q3, by rw [q4, hsb, List.append_assoc]⟩
    obtain ⟨n, rfl⟩ : ∃ n', n = n' + 1 := ⟨n - 1, by omega⟩
    rw [hround f (by omega) n]
    exact q1 f (by omega) n (by omega)

/-- A number of writes. -/
theorem writes_ok (hc : WContract p P Settled lt) (hwf : WellFounded lt) {cap : Nat} (hcap : 0 < cap) {fl : Bool} :
    ∀ (bss : List (List UInt8)) (w : Writer σ) (fut : List UInt8) (log : List Entry) (out : List UInt8),
      WHeld P cap fl w (bss.flatten ++ fut) out →
      ∃ k w' log' bs, (∀ f, k ≤ f → ∀ n, k ≤ n → writes (p f) n (bss.map .write) w log =
          some (w', log', bss.map fun b => .ok b.length)) ∧
        WHeld P cap fl w' fut (out ++ bs) ∧ (bss ≠ [] → Settled w'.cd fut (out ++ bs)) ∧ sinkBytes log' = sinkBytes log ++ bs := by
  intro bss
  induction bss with
  | nil =>
    intro w fut log out hh
    exact ⟨0, w, log, [], fun _ _ _ _ => rfl, by rw [List.append_nil]; exact hh, fun h => absurd rfl h, by rw [List.append_nil]⟩
  | cons b bss ih =>
    intro w fut log out hh
    rw [List.flatten_cons, List.append_assoc] at hh
    obtain ⟨k, w1, log1, bs1, e1, h1, h2, h3⟩ := wloop_ok hc hwf hcap b.length _ w b (bss.flatten ++ fut) log out rfl hh
    obtain ⟨k2, w2, log2, bs2, e2, q1, q2, q3⟩ := ih w1 fut log1 (out ++ bs1) h1
    rw [List.append_assoc] at q1 q2
    refine ⟨max k k2, w2, log2, bs1 ++ bs2, fun f hf n hn => ?_, q1, fun _ => ?_, by rw [q3, h3, List.append_assoc]⟩
    · have e1' : w.write (p f) n b log = some (w1, log1, .ok b.length) := e1 f (by omega) n (by omega)
      rw [List.map_cons, writes]
      simp only [wstep]
      rw [e1']
      simp only
      rw [e2 f (by omega) n (by omega)]
      rfl
    · cases bss with
      | nil =>
        have e3 := e2 k2 (Nat.le_refl _) k2 (Nat.le_refl _)
        simp only [List.map_nil, writes, Option.some.injEq, Prod.mk.injEq] at e3
        obtain ⟨rfl, rfl, -⟩ := e3
        have hbs : bs2 = [] := by
          have := congrArg List.length q3
          rw [List.length_append] at this
          exact List.eq_nil_of_length_eq_zero (by omega)
        rw [hbs, List.append_nil]
        exact h2
      | cons _ _ => exact q2 (by simp)

/-! ## The decompressor -/

open Divans.Call

variable {dw : Nat → Nat → Nat → List UInt8} {file data : List UInt8} {skip : Bool}

theorem dec_wcontract (hs : Serves dw file data) (missing : List UInt8) :
    WContract (fun fuel => decProc dw fuel) (fun c rest out => Reached dw skip file c (rest ++ missing) out)
      (fun _ rest out => rest ++ missing = [] → out = data) (fun x y => left data x < left data y) := by
  constructor
  intro c inp fut out cap h hcap
  cases c with
  | failed => exact absurd h id
  | crashed => exact absurd h id
  | live d =>
    rw [← List.append_nil file] at h
    obtain ⟨-, k, r, e, h1, h2, h3, h4, h5, h6, h7, h8⟩ := reached_step hs h inp.length cap
    have htake : (inp ++ fut ++ missing).take inp.length = inp := by rw [List.append_assoc, List.take_left]
    have hdr : (inp ++ fut ++ missing).drop inp.length = fut ++ missing := by rw [List.append_assoc, List.drop_left]
    rw [htake] at e h2 h3 h6
    rw [hdr] at h6
    have hused : r.used = inp.length := by
      rcases Nat.lt_or_eq_of_le h2 with h0 | h0
      · have := congrArg List.length (h3 h0)
        rw [List.length_drop, List.length_append, List.length_append, List.length_nil] at this
        omega
      · exact h0
    rw [hused, hdr, List.append_nil] at h1
    rw [hused, hdr] at h8
    have hle := h5.length_le
    rw [List.length_append] at hle
    have hnil : inp.drop r.used = [] := by rw [hused]; exact List.drop_length
    refine ⟨k, .live r.dec, r.used, r.out, ofRet r.ret, fun fuel hf => ?_, by rw [hnil]; exact h1, ?_, ?_, fun h0 => ⟨hnil, fun h9 => ?_⟩⟩
    · show decStep dw fuel (.live d) inp cap = _
      unfold decStep
      simp only [e fuel hf]
    · intro h0; cases hr : r.ret <;> rw [hr] at h0 <;> cases h0
    · intro h0
      have hr : r.ret = .needsOutput := by cases hr : r.ret <;> rw [hr] at h0 <;> first | rfl | cases h0
      have := h7 hr
      simp only [left, List.length_append, List.length_drop]
      omega
    · cases hr : r.ret with
      | needsInput =>
        have := (h6 hr).2
        rw [h9] at this
        simp at this
      | needsOutput => rw [hr] at h0; exact absurd rfl h0
      | success => exact (h8 hr).1

end Divans.Io
