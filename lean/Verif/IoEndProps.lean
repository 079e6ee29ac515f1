import Verif.CallOwedProps

/-!
# Every read and every write comes to an end, whatever the bytes: C69

Also what it means, for any bytes, that every write of the decompressing writer succeeded.
-/

namespace Divans.Io
open Divans.Call (calls Dec DLive DFit DShut DLeft Ret Reply)
open Divans.Cli (EndsWithin)

section
variable {dw : Nat → Nat → Nat → List UInt8} {K : Nat} {skip : Bool} {whole : List UInt8}

/-! ## Writing -/

/-- A writer whose decompressor is in order, or has failed. -/
def WFit (dw : Nat → Nat → Nat → List UInt8) (w : Writer (Slot Dec)) : Prop :=
  0 < w.cap ∧ w.flushed = true ∧ ∀ d, w.cd = .live d → DLive d ∧ DFit dw d

theorem emit_same (w : Writer (Slot Dec)) (bs : List UInt8) :
    (w.emit bs).1.cd = w.cd ∧ (w.emit bs).1.cap = w.cap ∧ (w.emit bs).1.flushed = w.flushed := by
  unfold Writer.emit
  split <;> exact ⟨rfl, rfl, rfl⟩

theorem emit_fit {w : Writer (Slot Dec)} (h : WFit dw w) {c : Slot Dec} (hc : ∀ d, c = .live d → DLive d ∧ DFit dw d) (bs : List UInt8) :
    WFit dw (Writer.emit { w with cd := c } bs).1 := by
  obtain ⟨e1, e2, e3⟩ := emit_same { w with cd := c } bs
  exact ⟨by rw [e2]; exact h.1, by rw [e3]; exact h.2.1, fun d hd => hc d (by rw [← hd, e1])⟩

/-- A codec that fails. -/
theorem wloop_fails {p : Nat → Proc (Slot Dec)} {w : Writer (Slot Dec)} {left : List UInt8} {c : Slot Dec} {k total : Nat} (h : WFit dw w)
    (hc : ∀ d, c = .live d → DLive d ∧ DFit dw d) (he : ∀ f, k ≤ f → (p f).process w.cd left w.cap = (c, 0, [], .failure)) (log : List Entry) :
    ∃ k w' log' q, (∀ f, k ≤ f → ∀ n, k ≤ n → Writer.loop (p f) total n w left log = some (w', log', q)) ∧ WFit dw w' := by
  refine ⟨k + 1, (Writer.emit { w with cd := c } []).1, log ++ [.fed left 0 [] .failure, (Writer.emit { w with cd := c } []).2.1],
    if (Writer.emit { w with cd := c } []).2.2 = false then .ioErr else .codecErr, fun f hf n hn => ?_, emit_fit h hc []⟩
  obtain ⟨n, rfl⟩ : ∃ j, n = j + 1 := ⟨n - 1, by omega⟩
  rw [Writer.loop, he f (by omega)]
  simp only
  split <;> rfl

theorem wloop_ends (hK : 2 ^ 32 + 15 ≤ K) (hdw : ∀ z i t, z ≤ 24 → (dw z i t).length ≤ K) {total : Nat} :
    ∀ (m : Nat) (w : Writer (Slot Dec)) (left : List UInt8) (log : List Entry), WFit dw w →
      (∀ d, w.cd = .live d → d.bound dw K left.length = m) →
      ∃ k w' log' q, (∀ f, k ≤ f → ∀ n, k ≤ n → Writer.loop (decProc dw f) total n w left log = some (w', log', q)) ∧ WFit dw w' := by
  intro m
  induction m using Nat.strong_induction_on with
  | _ m ih =>
    intro w left log hw hm
    cases hcd : w.cd with
    | failed =>
      exact wloop_fails (k := 0) (c := .failed) hw (by simp) (fun f _ => by rw [hcd]; rfl) log
    | crashed =>
      exact wloop_fails (k := 0) (c := .crashed) hw (by simp) (fun f _ => by rw [hcd]; rfl) log
    | live d =>
      obtain ⟨hlive, hfit⟩ := hw.2.2 d hcd
      obtain ⟨k1, x, e, hx⟩ := Call.decode_any dw hlive left w.cap
      cases x with
      | fail =>
        exact wloop_fails (k := k1) (c := .failed) hw (by simp) (fun f hf => by
          rw [hcd]; show decStep dw f (.live d) left w.cap = _; unfold decStep; simp only [e f hf]) log
      | panic =>
        exact wloop_fails (k := k1) (c := .crashed) hw (by simp) (fun f hf => by
          rw [hcd]; show decStep dw f (.live d) left w.cap = _; unfold decStep; simp only [e f hf]) log
      | ok r =>
        have hkd := hx r rfl
        have hf' := (Call.decode_fit hlive hfit).2 r (e k1 (Nat.le_refl _))
        have ho := Call.decode_owed hK hdw hlive hfit (e k1 (Nat.le_refl _)) (Nat.le_refl _)
        have hp : ∀ f, k1 ≤ f → (decProc dw f).process w.cd left w.cap = (.live r.dec, r.used, r.out, ofRet r.ret) := fun f hf => by
          rw [hcd]; show decStep dw f (.live d) left w.cap = _; unfold decStep; simp only [e f hf]
        have hwf : WFit dw (Writer.emit { w with cd := Slot.live r.dec } r.out).1 :=
          emit_fit hw (fun d' h' => by cases h'; exact ⟨hkd.inv, hf'⟩) _
        have hone : ∀ q, (∀ f, k1 ≤ f → ∀ n, Writer.loop (decProc dw f) total (n + 1) w left log =
              some ((Writer.emit { w with cd := Slot.live r.dec } r.out).1,
                log ++ [.fed left r.used r.out (ofRet r.ret), (Writer.emit { w with cd := Slot.live r.dec } r.out).2.1], q)) →
            ∃ k w' log' q, (∀ f, k ≤ f → ∀ n, k ≤ n → Writer.loop (decProc dw f) total n w left log = some (w', log', q)) ∧ WFit dw w' := by
          intro q hq
          refine ⟨k1 + 1, (Writer.emit { w with cd := Slot.live r.dec } r.out).1,
            log ++ [.fed left r.used r.out (ofRet r.ret), (Writer.emit { w with cd := Slot.live r.dec } r.out).2.1], q, fun f hf n hn => ?_, hwf⟩
          obtain ⟨n, rfl⟩ : ∃ j, n = j + 1 := ⟨n - 1, by omega⟩
          exact hq f (by omega) n
        cases hem : (Writer.emit { w with cd := Slot.live r.dec } r.out).2.2 with
        | false =>
          refine hone .ioErr fun f hf n => ?_
          rw [Writer.loop, hp f hf]
          simp only [hem, if_true]
        | true =>
          cases hret : r.ret with
          | success =>
            refine hone (.ok total) fun f hf n => ?_
            rw [Writer.loop, hp f hf]
            simp only [hem, hret, ofRet, Bool.true_eq_false, if_false]
          | needsInput =>
            refine hone (if left.drop r.used ≠ [] then .trailing else .ok total) fun f hf n => ?_
            rw [Writer.loop, hp f hf]
            simp only [hem, hret, ofRet, Bool.true_eq_false, if_false]
            split <;> rfl
          | needsOutput =>
            have g1 := hkd.full hret
            have hcap := hw.1
            have hb := hm d hcd
            obtain ⟨k2, w', log', q, l1, l2⟩ := ih (r.dec.bound dw K (left.drop r.used).length) (by
                rw [List.length_drop]; omega) (Writer.emit { w with cd := Slot.live r.dec } r.out).1 (left.drop r.used)
              (log ++ [.fed left r.used r.out (ofRet r.ret), (Writer.emit { w with cd := Slot.live r.dec } r.out).2.1]) hwf
              (fun d' h' => by rw [(emit_same _ _).1] at h'; cases h'; rfl)
            refine ⟨max k1 k2 + 1, w', log', q, fun f hf n hn => ?_, l2⟩
            obtain ⟨n, rfl⟩ : ∃ j, n = j + 1 := ⟨n - 1, by omega⟩
            rw [Writer.loop, hp f (by omega)]
            simp only [hem, hret, ofRet, Bool.true_eq_false, if_false]
            have := l1 f (by omega) n (by omega)
            rw [hret] at this
            exact this

theorem writes_end (hK : 2 ^ 32 + 15 ≤ K) (hdw : ∀ z i t, z ≤ 24 → (dw z i t).length ≤ K) : ∀ (ops : List WOp) (w : Writer (Slot Dec))
    (log : List Entry), WFit dw w →
    ∃ k w' log' qs, ∀ f, k ≤ f → ∀ n, k ≤ n → writes (decProc dw f) n ops w log = some (w', log', qs) := by
  intro ops
  induction ops with
  | nil => intro w log _; exact ⟨0, w, log, [], fun _ _ _ _ => rfl⟩
  | cons o ops ih =>
    intro w log hw
    obtain ⟨k1, w1, log1, q, h1, h2⟩ : ∃ k w' log' q, (∀ f, k ≤ f → ∀ n, k ≤ n → wstep (decProc dw f) n w log o = some (w', log', q)) ∧ WFit dw w' := by
      cases o with
      | write bs =>
        cases hcd : w.cd with
        | live d => exact wloop_ends hK hdw _ w bs log hw (fun d' h' => by rw [hcd] at h'; cases h'; exact rfl)
        | failed => exact wloop_ends hK hdw 0 w bs log hw (by rw [hcd]; simp)
        | crashed => exact wloop_ends hK hdw 0 w bs log hw (by rw [hcd]; simp)
      | flush ok =>
        refine ⟨1, w, log, if ok then .ok 0 else .ioErr, fun f _ n hn => ?_, hw⟩
        obtain ⟨n, rfl⟩ : ∃ j, n = j + 1 := ⟨n - 1, by omega⟩
        show Writer.flush _ _ _ _ _ = _
        rw [Writer.flush, if_pos hw.2.1]
    obtain ⟨k2, w2, log2, qs, h3⟩ := ih w1 log1 h2
    refine ⟨max k1 k2, w2, log2, q :: qs, fun f hf n hn => ?_⟩
    rw [writes, h1 f (by omega) n (by omega)]
    simp only
    rw [h3 f (by omega) n (by omega)]
    rfl

/-! ## What successful writes mean -/

/-- What the writes of a list of calls are given. -/
def given (ops : List WOp) : List UInt8 :=
  ops.flatMap fun
    | .write bs => bs
    | .flush _ => []

theorem emit_log (w : Writer (Slot Dec)) (bs : List UInt8) (h : (w.emit bs).2.2 = true) : (w.emit bs).2.1 = .wrote bs := by
  unfold Writer.emit at h ⊢
  cases hs : w.sink with
  | nil => rfl
  | cons b t =>
    cases b with
    | true => rfl
    | false => rw [hs] at h; cases h

theorem sinkBytes_step (log : List Entry) (e : Entry) (bs : List UInt8) (h : ∀ x, e ≠ .wrote x) :
    sinkBytes (log ++ [e, .wrote bs]) = sinkBytes log ++ bs := by
  cases e with
  | wrote x => exact absurd rfl (h x)
  | _ => simp [sinkBytes]

/-- The first round of a write that succeeds. -/
theorem wloop_first {f total n : Nat} {w w' : Writer (Slot Dec)} {d : Dec} {left : List UInt8} {log log' : List Entry} {t : Nat}
    (hcd : w.cd = .live d) (h : Writer.loop (decProc dw f) total (n + 1) w left log = some (w', log', .ok t)) :
    ∃ r, d.decode dw f left w.cap = some (.ok r) ∧ ∃ e log1, e = (Writer.emit { w with cd := Slot.live r.dec } r.out).1 ∧
      e.cd = .live r.dec ∧ e.flushed = w.flushed ∧ sinkBytes log1 = sinkBytes log ++ r.out ∧
      (r.ret = .needsOutput ∧ Writer.loop (decProc dw f) total n e (left.drop r.used) log1 = some (w', log', .ok t) ∨
        (r.ret = .success ∨ r.ret = .needsInput ∧ left.drop r.used = []) ∧ w' = e ∧ log' = log1) := by
  rw [Writer.loop] at h
  have hpr : (decProc dw f).process w.cd left w.cap = decStep dw f (.live d) left w.cap := by rw [hcd]; rfl
  rw [hpr] at h
  cases hd : d.decode dw f left w.cap with
  | none =>
    have : decStep dw f (.live d) left w.cap = (.crashed, 0, [], .failure) := by unfold decStep; simp only [hd]
    rw [this] at h
    simp only at h
    split at h <;> simp at h
  | some x =>
    cases x with
    | fail =>
      have : decStep dw f (.live d) left w.cap = (.failed, 0, [], .failure) := by unfold decStep; simp only [hd]
      rw [this] at h
      simp only at h
      split at h <;> simp at h
    | panic =>
      have : decStep dw f (.live d) left w.cap = (.crashed, 0, [], .failure) := by unfold decStep; simp only [hd]
      rw [this] at h
      simp only at h
      split at h <;> simp at h
    | ok r =>
      have : decStep dw f (.live d) left w.cap = (.live r.dec, r.used, r.out, ofRet r.ret) := by unfold decStep; simp only [hd]
      rw [this] at h
      simp only at h
      obtain ⟨m1, m2, m3⟩ := emit_same { w with cd := Slot.live r.dec } r.out
      by_cases hem : (Writer.emit { w with cd := Slot.live r.dec } r.out).2.2 = false
      · rw [if_pos hem] at h; simp at h
      rw [if_neg hem] at h
      have hem' : (Writer.emit { w with cd := Slot.live r.dec } r.out).2.2 = true := by simpa using hem
      rw [emit_log _ _ hem'] at h
      refine ⟨r, rfl, (Writer.emit { w with cd := Slot.live r.dec } r.out).1, log ++ [.fed left r.used r.out (ofRet r.ret), .wrote r.out], rfl, m1, m3,
        sinkBytes_step log _ r.out (by simp), ?_⟩
      cases hret : r.ret with
      | success =>
        rw [hret] at h
        simp only [ofRet, Option.some.injEq, Prod.mk.injEq] at h
        exact .inr ⟨.inl rfl, h.1.symm, h.2.1.symm⟩
      | needsInput =>
        rw [hret] at h
        simp only [ofRet] at h
        by_cases hl : left.drop r.used ≠ []
        · rw [if_pos hl] at h; simp at h
        · rw [if_neg hl] at h
          simp only [Option.some.injEq, Prod.mk.injEq] at h
          exact .inr ⟨.inr ⟨rfl, by simpa using hl⟩, h.1.symm, h.2.1.symm⟩
      | needsOutput =>
        rw [hret] at h
        simp only [ofRet] at h
        exact .inl ⟨rfl, h⟩

/-- A write that succeeds. -/
theorem wloop_sound {f total : Nat} {fut : List UInt8} : ∀ (n : Nat) {w w' : Writer (Slot Dec)} {d : Dec} {left : List UInt8} {log log' : List Entry}
    {out : List UInt8} {rets : List Ret} {t : Nat}, w.cd = .live d → Past dw f skip whole d (left ++ fut) out rets →
    Writer.loop (decProc dw f) total n w left log = some (w', log', .ok t) →
    ∃ d' rest o rets', w'.cd = .live d' ∧ w'.flushed = w.flushed ∧ sinkBytes log' = sinkBytes log ++ o ∧
      Past dw f skip whole d' (rest ++ fut) (out ++ o) rets' ∧ (rest = [] ∨ .success ∈ rets') := by
  intro n
  induction n with
  | zero => intro w w' d left log log' out rets t _ _ h; cases h
  | succ n ih =>
    intro w w' d left log log' out rets t hcd hp h
    obtain ⟨r, hd, e, log1, -, m1, m3, hsb, hor⟩ := wloop_first hcd h
    have hp' := hp.step hd
    rcases hor with ⟨h1, h2⟩ | ⟨h1, rfl, rfl⟩
    · obtain ⟨d', rest, o, rets', q1, q2, q3, q4, q5⟩ := ih m1 hp' h2
      refine ⟨d', rest, r.out ++ o, rets', q1, q2.trans m3, ?_, by rw [← List.append_assoc]; exact q4, q5⟩
      rw [q3, hsb, List.append_assoc]
    · refine ⟨r.dec, left.drop r.used, r.out, _, m1, m3, hsb, hp', ?_⟩
      rcases h1 with h1 | h1
      · exact .inr (by rw [h1]; simp)
      · exact .inl h1.2

/-- After success, whatever is written: nothing more. -/
theorem wloop_over {f total : Nat} {n : Nat} {w w' : Writer (Slot Dec)} {d : Dec} {left : List UInt8} {log log' : List Entry}
    {t : Nat} (hcd : w.cd = .live d) (hd : DLive d) (ho : Call.Over d)
    (h : Writer.loop (decProc dw f) total n w left log = some (w', log', .ok t)) :
    ∃ d', w'.cd = .live d' ∧ DLive d' ∧ Call.Over d' ∧ w'.flushed = w.flushed ∧ sinkBytes log' = sinkBytes log := by
  cases n with
  | zero => cases h
  | succ n =>
    obtain ⟨r, hr, e, log1, -, m1, m3, hsb, hor⟩ := wloop_first hcd h
    obtain ⟨-, -, h3, -⟩ := Call.calls_live (dw := dw) (fuel := f) (bytes := left) [(left.length, w.cap)] hd (d' := r.dec)
      (rest := left.drop r.used) (out := r.out ++ []) (rets := [r.ret]) (by rw [calls, List.take_length, hr]; rfl)
    obtain ⟨a, -, b, c⟩ := h3 ho
    have a := a r.ret (by simp)
    have b : r.out = [] := by simpa using b
    rcases hor with ⟨h1, -⟩ | ⟨-, rfl, rfl⟩
    · rw [a] at h1; cases h1
    · exact ⟨r.dec, m1, (Call.decode_kind hd hr).inv, c, m3, by rw [hsb, b, List.append_nil]⟩

theorem writes_sound {f n : Nat} : ∀ (ops : List WOp) {w w' : Writer (Slot Dec)} {d : Dec} {rest : List UInt8} {log log' : List Entry}
    {rets : List Ret} {qs : List Put}, w.cd = .live d → w.flushed = true → Past dw f skip whole d rest (sinkBytes log) rets →
    (rest = given ops ∨ .success ∈ rets) → writes (decProc dw f) n ops w log = some (w', log', qs) → (∀ q ∈ qs, ∃ m, q = .ok m) →
    ∃ d' rest' rets', Past dw f skip whole d' rest' (sinkBytes log') rets' ∧ (rest' = [] ∨ .success ∈ rets') := by
  intro ops
  induction ops with
  | nil =>
    intro w w' d rest log log' rets qs _ _ hp hor h _
    cases h
    exact ⟨d, rest, rets, hp, hor⟩
  | cons o ops ih =>
    intro w w' d rest log log' rets qs hcd hfl hp hor h hq
    rw [writes] at h
    cases hst : wstep (decProc dw f) n w log o with
    | none => rw [hst] at h; cases h
    | some x =>
      obtain ⟨w1, log1, q⟩ := x
      rw [hst] at h
      simp only [Option.map_eq_some_iff] at h
      obtain ⟨⟨w2, log2, qs2⟩, h1, h2⟩ := h
      simp only [Prod.mk.injEq] at h2
      obtain ⟨rfl, rfl, rfl⟩ := h2
      obtain ⟨m, rfl⟩ := hq q (by simp)
      have hq' : ∀ q ∈ qs2, ∃ m, q = .ok m := fun q h => hq q (List.mem_cons_of_mem _ h)
      cases o with
      | flush ok =>
        have hst' : Writer.flush (decProc dw f) ok n w log = some (w1, log1, .ok m) := hst
        cases n with
        | zero => cases hst'
        | succ n =>
          rw [Writer.flush, if_pos hfl] at hst'
          simp only [Option.some.injEq, Prod.mk.injEq] at hst'
          obtain ⟨rfl, rfl, -⟩ := hst'
          exact ih hcd hfl hp hor h1 hq'
      | write bs =>
        have hst' : Writer.loop (decProc dw f) bs.length n w bs log = some (w1, log1, .ok m) := hst
        by_cases hs : Ret.success ∈ rets
        · obtain ⟨cs, hcs⟩ := hp
          obtain ⟨g1, -, -, g4⟩ := Call.calls_live cs (Call.new_live skip) hcs
          obtain ⟨d', k1, k2, k3, k4, k5⟩ := wloop_over hcd g1 (g4 hs).2 hst'
          -- a decompressor that is done: the calls made so far still describe what it gave out
          clear ih
          have hover : ∀ (ops : List WOp) {w w' : Writer (Slot Dec)} {d : Dec} {log log' : List Entry} {qs : List Put}, w.cd = .live d →
              w.flushed = true → DLive d → Call.Over d → writes (decProc dw f) n ops w log = some (w', log', qs) →
              (∀ q ∈ qs, ∃ m, q = .ok m) → sinkBytes log' = sinkBytes log := by
            intro ops
            induction ops with
            | nil => intro w w' d log log' qs _ _ _ _ h _; cases h; rfl
            | cons o ops ih =>
              intro w w' d log log' qs hcd hfl hd ho h hq
              rw [writes] at h
              cases hst : wstep (decProc dw f) n w log o with
              | none => rw [hst] at h; cases h
              | some x =>
                obtain ⟨w1, log1, q⟩ := x
                rw [hst] at h
                simp only [Option.map_eq_some_iff] at h
                obtain ⟨⟨w2, log2, qs2⟩, h1, h2⟩ := h
                simp only [Prod.mk.injEq] at h2
                obtain ⟨rfl, rfl, rfl⟩ := h2
                obtain ⟨m, rfl⟩ := hq q (by simp)
                have hq' : ∀ q ∈ qs2, ∃ m, q = .ok m := fun q h => hq q (List.mem_cons_of_mem _ h)
                cases o with
                | flush ok =>
                  have hst' : Writer.flush (decProc dw f) ok n w log = some (w1, log1, .ok m) := hst
                  cases n with
                  | zero => cases hst'
                  | succ n =>
                    rw [Writer.flush, if_pos hfl] at hst'
                    simp only [Option.some.injEq, Prod.mk.injEq] at hst'
                    obtain ⟨rfl, rfl, -⟩ := hst'
                    exact ih hcd hfl hd ho h1 hq'
                | write bs =>
                  obtain ⟨d', k1, k2, k3, k4, k5⟩ := wloop_over hcd hd ho (show Writer.loop (decProc dw f) bs.length n w bs log = _ from hst)
                  rw [ih k1 (k4.trans hfl) k2 k3 h1 hq', k5]
          refine ⟨d, rest, rets, ⟨cs, ?_⟩, .inr hs⟩
          rw [hover ops k1 (k4.trans hfl) k2 k3 h1 hq', k5]
          exact hcs
        · have hr := hor.resolve_right hs
          have hg : given (.write bs :: ops) = bs ++ given ops := by simp [given]
          rw [hr, hg] at hp
          obtain ⟨d', rest', o, rets', k1, k2, k3, k4, k5⟩ := wloop_sound n hcd hp hst'
          refine ih k1 (k2.trans hfl) (by rw [k3]; exact k4) ?_ h1 hq'
          rcases k5 with k5 | k5
          · exact .inl (by rw [k5, List.nil_append])
          · exact .inr k5

/-! ## Reading -/

/-- The calls made so far. -/
def Holds (dw : Nat → Nat → Nat → List UInt8) (skip : Bool) (whole : List UInt8) (c : Slot Dec) (rest out : List UInt8) (rets : List Ret) : Prop :=
  ∃ d, c = .live d ∧ DFit dw d ∧ ∃ N, ∀ n, N ≤ n → Past dw n skip whole d rest out rets

/-- Success, with something left. -/
theorem past_success {n : Nat} {d : Dec} {rest out : List UInt8} {rets : List Ret} (h : Past dw n skip whole d rest out rets)
    (hs : .success ∈ rets) (hr : rest ≠ []) : EndsWithin whole := by
  obtain ⟨cs, h⟩ := h
  have hl := Call.success_last dw n skip _ cs d _ out rets h hs
  obtain ⟨h, w, body, sum, st, q1, q2, q3, q4, q5, -⟩ := Call.call_success_means_checked dw n skip _ cs d _ out rets h hl
  exact ⟨h, w, body, sum ++ [0x61, 0x6e, 0x73, 0x7e], rest, st, q5, q1, q2, q3, by simp [q4], hr⟩

/-- How far it is to the end. -/
def rank (dw : Nat → Nat → Nat → List UInt8) (K : Nat) (x : Slot Dec × List UInt8 × List UInt8) : Nat :=
  match x.1 with
  | .live d => d.bound dw K x.2.1.length + x.2.1.length
  | _ => 0

/-- The decompressor, fed anything without a broken end marker in which no file ends before the last byte. -/
theorem any_contract (hK : 2 ^ 32 + 15 ≤ K) (hdw : ∀ z i t, z ≤ 24 → (dw z i t).length ≤ K) (hb : ¬ Broken whole)
    (he : ¬ EndsWithin whole) :
    Contract (fun fuel => decProc dw fuel) (fun c rest out => ∃ rets, Holds dw skip whole c rest out rets) (fun _ => False)
      (fun c out => ∃ rets, Holds dw skip whole c [] out rets ∧ .success ∈ rets) True (fun x y => rank dw K x < rank dw K y) := by
  constructor
  · rintro c inp fut out cap ⟨rets, d, rfl, hfit, N, hp⟩ hne hcap
    have hlive := (hp N (Nat.le_refl _)).live
    have hpos := List.length_pos_iff.2 hne
    obtain ⟨k, x, e, hx⟩ := Call.decode_any dw hlive inp cap
    have hfail : ∀ c', (∀ fuel, k ≤ fuel → (decProc dw fuel).process (Slot.live d) inp cap = (c', 0, [], .failure)) → ∃ k c' n o r,
        (∀ fuel, k ≤ fuel → (decProc dw fuel).process (Slot.live d) inp cap = (c', n, o, r)) ∧
      n ≤ inp.length ∧ o.length ≤ cap ∧ (r ≠ .failure → ∃ rets, Holds dw skip whole c' (inp.drop n ++ fut) (out ++ o) rets) ∧
      (r ≠ .failure → rank dw K (c', inp.drop n ++ fut, out ++ o) < rank dw K (.live d, inp ++ fut, out)) ∧
      (r = .failure → True) ∧
      (r = .needsInput → n = inp.length ∧ (fut = [] → False → o ≠ [])) ∧
      (r = .needsOutput → o ≠ [] ∧ (n < inp.length → False)) ∧
      (r = .success → inp.drop n ++ fut = [] ∧ ∃ rets, Holds dw skip whole c' [] (out ++ o) rets ∧ .success ∈ rets) :=
      fun c' hc' => ⟨k, c', 0, [], .failure, hc', Nat.zero_le _, Nat.zero_le _, fun h => absurd rfl h, fun h => absurd rfl h, fun _ => trivial,
        fun h => (by cases h), fun h => (by cases h), fun h => (by cases h)⟩
    cases x with
    | fail =>
      refine hfail .failed fun f hf => ?_
      show decStep dw f (.live d) inp cap = _
      unfold decStep
      simp only [e f hf]
    | panic =>
      refine hfail .crashed fun f hf => ?_
      show decStep dw f (.live d) inp cap = _
      unfold decStep
      simp only [e f hf]
    | ok r =>
      have hkd := hx r rfl
      have hf' := (Call.decode_fit hlive hfit).2 r (e k (Nat.le_refl _))
      have ho := Call.decode_owed hK hdw hlive hfit (e k (Nat.le_refl _)) (q := (inp ++ fut).length) (by rw [List.length_append]; omega)
      have hp' : ∀ n, max N k ≤ n → Past dw n skip whole r.dec (inp.drop r.used ++ fut) (out ++ r.out) (rets ++ [r.ret]) :=
        fun n hn => (hp n (by omega)).step (e n (by omega))
      have hp1 := hp' _ (Nat.le_refl _)
      have hu := hkd.used
      have hused : r.used = inp.length := by
        by_contra h0
        have hne' : inp.drop r.used ≠ [] := fun h1 => by
          have := congrArg List.length h1
          rw [List.length_drop, List.length_nil] at this
          omega
        rcases hp1.left hb (Call.decode_left hlive (e k (Nat.le_refl _))).1 with h1 | h1
        · exact hne' h1
        · exact he (Cli.past_shut hp1 h1 (by simp [hne']))
      have hdrop : inp.drop r.used = [] := by rw [hused, List.drop_length]
      refine ⟨k, .live r.dec, r.used, r.out, ofRet r.ret, fun fuel hf => ?_, hu, hkd.len, fun _ => ⟨_, r.dec, rfl, hf', _, hp'⟩, fun _ => ?_,
        fun _ => trivial, fun _ => ⟨hused, fun _ h0 => absurd h0 id⟩, fun h0 => ⟨fun h9 => ?_, fun h9 => by omega⟩, fun h0 => ?_⟩
      · show decStep dw fuel (.live d) inp cap = _
        unfold decStep
        simp only [e fuel hf]
      · show r.dec.bound dw K (inp.drop r.used ++ fut).length + (inp.drop r.used ++ fut).length < d.bound dw K (inp ++ fut).length + (inp ++ fut).length
        have : (inp.drop r.used ++ fut).length = (inp ++ fut).length - r.used := by
          rw [List.length_append, List.length_append, List.length_drop]; omega
        rw [this]
        rw [List.length_append] at ho ⊢
        omega
      · have := hkd.full (ofRet_inj.2.2 h0)
        rw [h9] at this
        simp at this
        omega
      · have hs : Ret.success ∈ rets ++ [r.ret] := by rw [ofRet_inj.1 h0]; simp
        have hnil : inp.drop r.used ++ fut = [] := by
          by_contra h1
          exact he (past_success hp1 hs h1)
        rw [hnil] at hp'
        exact ⟨hnil, _, ⟨r.dec, rfl, hf', _, hp'⟩, hs⟩
  · rintro c out cap ⟨rets, d, rfl, hfit, N, hp⟩ hcap
    have hlive := (hp N (Nat.le_refl _)).live
    obtain ⟨k, x, e, hx⟩ := Call.decode_any dw hlive [] cap
    have hfail : ∀ c' o, o.length ≤ cap → (∀ fuel, k ≤ fuel → (decProc dw fuel).close (Slot.live d) cap = (c', o, .failure)) → ∃ k c' o r,
        (∀ fuel, k ≤ fuel → (decProc dw fuel).close (Slot.live d) cap = (c', o, r)) ∧
      o.length ≤ cap ∧ (r ≠ .failure → ∃ rets, Holds dw skip whole c' [] (out ++ o) rets) ∧
      (r = .needsOutput → o ≠ []) ∧ r ≠ .needsInput ∧
      (r = .failure → True) ∧ (r = .success → ∃ rets, Holds dw skip whole c' [] (out ++ o) rets ∧ .success ∈ rets) ∧
      (r ≠ .failure → o ≠ [] → rank dw K (c', [], out ++ o) < rank dw K (.live d, [], out)) :=
      fun c' o hl hc' => ⟨k, c', o, .failure, hc', hl, fun h => absurd rfl h, fun h => (by cases h), by simp, fun _ => trivial,
        fun h => (by cases h), fun h => absurd rfl h⟩
    cases x with
    | fail =>
      refine hfail .failed [] (Nat.zero_le _) fun f hf => ?_
      show decClose dw f (.live d) cap = _
      unfold decClose decStep
      simp only [e f hf]
      rfl
    | panic =>
      refine hfail .crashed [] (Nat.zero_le _) fun f hf => ?_
      show decClose dw f (.live d) cap = _
      unfold decClose decStep
      simp only [e f hf]
      rfl
    | ok r =>
      have hkd := hx r rfl
      have hcl : ∀ f, k ≤ f → (decProc dw f).close (Slot.live d) cap = (.live r.dec, r.out, if ofRet r.ret = .needsInput then .failure else ofRet r.ret) := by
        intro f hf
        show decClose dw f (.live d) cap = _
        unfold decClose decStep
        simp only [e f hf]
      have hf' := (Call.decode_fit hlive hfit).2 r (e k (Nat.le_refl _))
      have ho := Call.decode_owed hK hdw hlive hfit (e k (Nat.le_refl _)) (q := 0) (Nat.le_refl _)
      have hu : r.used = 0 := Nat.le_zero.1 hkd.used
      have hp' : ∀ n, max N k ≤ n → Past dw n skip whole r.dec [] (out ++ r.out) (rets ++ [r.ret]) := fun n hn => by
        have := Past.step (inp := []) (fut := []) (by exact hp n (by omega)) (e n (by omega))
        simpa using this
      cases hret : r.ret with
      | needsInput =>
        refine hfail (.live r.dec) r.out hkd.len fun f hf => ?_
        rw [hcl f hf, hret]
        rfl
      | needsOutput =>
        rw [hret] at hcl hp'
        have hfull := hkd.full hret
        refine ⟨k, .live r.dec, r.out, .needsOutput, hcl, hkd.len, fun _ => ⟨_, r.dec, rfl, hf', _, hp'⟩, fun _ h0 => ?_, by simp, fun _ => trivial,
          fun h => (by cases h), fun _ h0 => ?_⟩
        · rw [h0] at hfull
          simp at hfull
          omega
        · have := List.length_pos_iff.2 h0
          show r.dec.bound dw K 0 + 0 < d.bound dw K 0 + 0
          rw [hu, Nat.sub_zero] at ho
          omega
      | success =>
        rw [hret] at hcl hp'
        refine ⟨k, .live r.dec, r.out, .success, hcl, hkd.len, fun _ => ⟨_, r.dec, rfl, hf', _, hp'⟩, fun h0 => (by cases h0), by simp, fun _ => trivial,
          fun _ => ⟨_, ⟨r.dec, rfl, hf', _, hp'⟩, by simp⟩, fun _ h0 => ?_⟩
        have := List.length_pos_iff.2 h0
        show r.dec.bound dw K 0 + 0 < d.bound dw K 0 + 0
        rw [hu, Nat.sub_zero] at ho
        omega

end

/-! ## The theorems -/

/-- **C69.**  Any calls of the decompressing writer with any bytes, and any sink: every call returns. -/
theorem every_write_returns (dw : Nat → Nat → Nat → List UInt8) (K : Nat) (hdw : ∀ z i t, z ≤ 24 → (dw z i t).length ≤ K) (skip : Bool)
    (size : Nat) (sink : List Bool) (ops : List WOp) :
    ∃ k w log puts, (∀ f, k ≤ f → ∀ n, k ≤ n → writes (decProc dw f) n ops (decWriter skip size sink) [] = some (w, log, puts)) := by
  refine writes_end (K := max K (2 ^ 32 + 15)) (Nat.le_max_right _ _) (fun z i t h => (hdw z i t h).trans (Nat.le_max_left _ _)) ops _ []
    ⟨Cli.bufSize_pos size, rfl, fun d h => ?_⟩
  cases h
  exact ⟨Call.new_live skip, trivial⟩

/-- **C69.**  If all of them succeed, then the sink was given exactly what `decode` gives for these bytes; and either `decode` has
taken all of them, or they begin with a complete file. -/
theorem successful_writes (dw : Nat → Nat → Nat → List UInt8) (f n : Nat) (skip : Bool) (size : Nat) (sink : List Bool) (ops : List WOp)
    (w : Writer (Slot Dec)) (log : List Entry) (puts : List Put)
    (e : writes (decProc dw f) n ops (decWriter skip size sink) [] = some (w, log, puts)) (hok : ∀ q ∈ puts, ∃ m, q = .ok m) :
    ∃ cs d rest rets, calls dw f (.new skip) (given ops) cs = some (.ok (d, rest, sinkBytes log, rets)) ∧
      (rest = [] ∨ ∃ file, given ops = file ++ rest ∧ Complete skip file) := by
  obtain ⟨d, rest, rets, ⟨cs, h1⟩, h2⟩ := writes_sound (skip := skip) (whole := given ops) ops (d := .new skip) (rets := []) rfl rfl ⟨[], rfl⟩ (.inl rfl) e hok
  refine ⟨cs, d, rest, rets, h1, h2.imp id fun k2 => ?_⟩
  have hl := Call.success_last dw f skip _ cs d _ _ rets h1 k2
  obtain ⟨h, w, body, sum, st, q1, q2, q3, q4, q5, q6⟩ := Call.call_success_means_checked dw f skip _ cs d _ _ rets h1 hl
  refine ⟨h ++ body ++ (sum ++ [0x61, 0x6e, 0x73, 0x7e]), q5, h, w, body, sum, st, q1, q2, q3, q4, rfl, fun hsk => ?_⟩
  have := q6 hsk
  rw [q5] at this
  exact List.append_cancel_right this

/-- **C69, partial.**  A source without errors, that gives any bytes in any pieces with any interruptions; a caller who reads with nonempty
buffers of any sizes.  Every read returns, and after some number of them the caller is told the end, or an error; the end only
if the bytes are a complete file.  Missing: bytes with a broken end marker, or in which a file ends before their end; for the latter
it is not true (`decompressor_reader_hangs`). -/
theorem reader_ends_partial (dw : Nat → Nat → Nat → List UInt8) (K : Nat) (hdw : ∀ z i t, z ≤ 24 → (dw z i t).length ≤ K) (skip : Bool)
    (size : Nat) (src : List Ev) (hc : Clean src) (hb : ¬ Broken (srcBytes src)) (he : ¬ EndsWithin (srcBytes src)) (caps : Nat → Nat)
    (hpos : ∀ i, 0 < caps i) :
    ∃ N k s log bs st, (∀ f, k ≤ f → ∀ n, k ≤ n →
        readToEnd (decProc dw f) n ((List.range N).map caps) (decReader skip size src) [] = some (s, log, bs, st)) ∧
      (st = .eof ∧ Complete skip (srcBytes src) ∨ st = .codecErr) := by
  obtain ⟨N, k, s, log, bs, st, e, h⟩ := readToEnd_ends (any_contract (dw := dw) (K := max K (2 ^ 32 + 15)) (skip := skip) (Nat.le_max_right _ _)
      (fun z i t h => (hdw z i t h).trans (Nat.le_max_left _ _)) hb he) (measure (rank dw (max K (2 ^ 32 + 15)))).wf _ caps
    (decReader skip size src) [] [] rfl hpos (held_new (by simpa using Cli.bufSize_pos size) false hc
      ⟨[], .new skip, rfl, trivial, 0, fun n _ => ⟨[], rfl⟩⟩)
  refine ⟨N, k, s, log, bs, st, e, h.imp (fun h1 => ⟨h1.1, ?_⟩) fun h1 => h1.1⟩
  obtain ⟨-, rets, ⟨d, -, -, N', hp⟩, hs⟩ := h1
  obtain ⟨cs, h1⟩ := hp N' (Nat.le_refl _)
  have hl := Call.success_last dw N' skip _ cs d _ _ rets h1 hs
  obtain ⟨h, w, body, sum, st, q1, q2, q3, q4, q5, q6⟩ := Call.call_success_means_checked dw N' skip _ cs d _ _ rets h1 hl
  rw [List.append_nil] at q5
  exact ⟨h, w, body, sum, st, q1, q2, q3, q4, q5, fun hsk => by simpa using q6 hsk⟩

/-! ## The theorems are not vacuous -/

/-- The sink's bytes and what the calls returned. -/
def wview : Option (Writer (Slot Dec) × List Entry × List Put) → Option (List UInt8 × List Put)
  | some (_, log, puts) => some (sinkBytes log, puts)
  | none => none

/-- Bytes that are no file, in two writes, and a write behind the one that failed. -/
example : wview (writes (decProc File.noWords 60) 100 [.write [0xff, 0xe5], .flush true, .write (List.replicate 20 7), .write [1]]
      (decWriter false 3 []) []) = some ([], [.ok 2, .ok 0, .codecErr, .codecErr]) ∧
    ∃ k w log puts, (∀ f, k ≤ f → ∀ n, k ≤ n → writes (decProc File.noWords f) n [.write [0xff, 0xe5], .flush true, .write (List.replicate 20 7),
      .write [1]] (decWriter false 3 []) [] = some (w, log, puts)) :=
  ⟨by decide +kernel, every_write_returns File.noWords 0 (fun _ _ _ _ => by simp [File.noWords]) false 3 [] _⟩

/-- A file, and four bytes behind it in the same write and in another: all succeed, as `successful_writes` has it, by its second case. -/
example : wview (writes (decProc File.noWords 60) 100 [.write (File.oddFile.take 20), .write (File.oddFile.drop 20 ++ [1, 2, 3]), .write [4]]
    (decWriter false 3 []) []) = some ([97, 98, 99, 97, 98, 99, 97, 98, 99, 97, 98, 99, 97], [.ok 20, .ok (File.oddFile.length - 20 + 3), .ok 1]) := by
  decide +kernel

/-- The first case: the file is not complete, the calls succeed. -/
example : wview (writes (decProc File.noWords 60) 100 [.write (File.oddFile.take 20), .flush true] (decWriter false 3 []) []) =
    some ([], [.ok 20, .ok 0]) := by
  decide +kernel

/-- Bytes that are no file, read one byte at a time from a source that is interrupted: the reading ends. -/
example : ∃ N k s log bs st, (∀ f, k ≤ f → ∀ n, k ≤ n →
        readToEnd (decProc File.noWords f) n ((List.range N).map fun _ => 1)
          (decReader false 7 [.data (Cli.torn.take 20), .interrupted, .data (Cli.torn.drop 20)]) [] = some (s, log, bs, st)) ∧
      (st = .eof ∧ Complete false (srcBytes [.data (Cli.torn.take 20), .interrupted, .data (Cli.torn.drop 20)]) ∨ st = .codecErr) := by
  have : srcBytes [.data (Cli.torn.take 20), .interrupted, .data (Cli.torn.drop 20)] = Cli.torn := by decide +kernel
  refine reader_ends_partial File.noWords 0 (fun _ _ _ _ => by simp [File.noWords]) false 7 _ ?_ ?_ ?_ (fun _ => 1) fun _ => Nat.one_pos
  · simp [Clean]; decide +kernel
  · rw [this]; exact Cli.torn_plain.1
  · rw [this]; exact Cli.torn_plain.2

end Divans.Io
