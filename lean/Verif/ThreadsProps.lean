import Verif.Threads
import Verif.HandProps

/-
C28 for two threads, and C46: no wake-up is lost; when the two threads can wait for each other forever.
-/
namespace Divans.Threads

open Divans.Hand

variable {γ : Type}

/-! ### Every history of two threads is a history of calls -/

theorem run_one {w w1 : Queue γ} {o : Op γ} {x : Obs γ} (h : Hand.step w o = some (w1, x)) :
    Hand.run [o] w = some (w1, [x]) := by
  simp [Hand.run, h]

theorem run_glue {a b : List (Op γ)} {w w1 w2 : Queue γ} {l1 l2 : List (Obs γ)}
    (h1 : Hand.run a w = some (w1, l1)) (h2 : Hand.run b w1 = some (w2, l2)) :
    Hand.run (a ++ b) w = some (w2, l1 ++ l2) := by
  induction a generalizing w l1 with
  | nil =>
    simp only [Hand.run, Option.some.injEq, Prod.mk.injEq] at h1
    obtain ⟨rfl, rfl⟩ := h1
    simpa using h2
  | cons o os ih =>
    simp only [Hand.run, List.cons_append] at h1 ⊢
    cases hs : Hand.step w o with
    | none => rw [hs] at h1; simp at h1
    | some y =>
      obtain ⟨w3, x⟩ := y
      rw [hs] at h1
      simp only [Option.map_eq_some_iff] at h1
      obtain ⟨⟨w4, l4⟩, h4, h5⟩ := h1
      simp only [Prod.mk.injEq] at h5
      obtain ⟨rfl, rfl⟩ := h5
      simp only [ih h4]
      rfl

/-- What holds of the queues between two calls. -/
structure QInv (q : Queue γ) : Prop where
  cap : q.result.cap = slots
  len : q.result.cmds.length ≤ slots
  err : q.err ≠ none → ∃ e, q.status = .err e

theorem critM_run {q : Queue γ} {n : Nat} {o : MOp} {c : Crit γ MOp} (hq : QInv q)
    (h : critM q n o = some c) : ∃ ops, Hand.run ops q = some (c.q, c.log) := by
  cases o with
  | pushCm p =>
    simp only [critM] at h
    split at h
    · simp only [Option.some.injEq] at h; subst h
      exact ⟨[.pushCm p], run_one rfl⟩
    · simp only [Option.some.injEq] at h; subst h
      exact ⟨[], rfl⟩
  | push b =>
    simp only [critM, Option.some.injEq] at h; subst h
    exact ⟨[.push b], run_one rfl⟩
  | pull =>
    simp only [critM] at h
    split at h
    · simp only [Option.map_eq_some_iff] at h
      obtain ⟨r, hr, rfl⟩ := h
      exact ⟨[.pull], run_one (by simp only [Hand.step, hr, Option.map_some])⟩
    · rename_i hn
      cases he : q.err with
      | none =>
        rw [he] at h
        simp only [Option.some.injEq] at h; subst h
        exact ⟨[], rfl⟩
      | some e =>
        obtain ⟨e', hs⟩ := hq.err (by rw [he]; simp)
        exact absurd (by unfold Queue.resultReady; rw [hs]) hn
  | fail e =>
    simp only [critM, Option.some.injEq] at h; subst h
    exact ⟨[.fail e], run_one rfl⟩

theorem pull_keep {q q' : Queue γ} {a : CBuf γ} {b : Range × Range} {d : Pm × Pm} {x}
    (h : q.pull a b d = some (q', x)) :
    q' = { q with result := a, r0 := b.1, r1 := b.2, p0 := d.1, p1 := d.2 } := by
  unfold Queue.pull at h
  split at h
  · simp at h
  · simp only [Option.some.injEq, Prod.mk.injEq] at h
    exact h.1.symm

theorem critM_qinv {q : Queue γ} {n : Nat} {o : MOp} {c : Crit γ MOp} (hq : QInv q)
    (h : critM q n o = some c) : QInv c.q := by
  cases o with
  | pushCm p =>
    simp only [critM] at h
    split at h
    · simp only [Option.some.injEq] at h; subst h
      obtain ⟨-, -, -, h1, -, -, -, -, h2, h3⟩ := pushCm_fields q p
      exact ⟨by rw [h1]; exact hq.cap, by rw [h1]; exact hq.len, by rw [h2, h3]; exact hq.err⟩
    · simp only [Option.some.injEq] at h; subst h; exact hq
  | push b =>
    simp only [critM, Option.some.injEq] at h; subst h
    obtain ⟨-, -, -, h1, -, -, -, -, h2, h3⟩ := push_fields q b
    exact ⟨by rw [h1]; exact hq.cap, by rw [h1]; exact hq.len, by rw [h2, h3]; exact hq.err⟩
  | pull =>
    simp only [critM] at h
    split at h
    · simp only [Option.map_eq_some_iff] at h
      obtain ⟨⟨q', x⟩, hr, rfl⟩ := h
      have := pull_keep hr
      simp only
      rw [this]
      exact ⟨rfl, Nat.zero_le _, hq.err⟩
    · cases he : q.err with
      | none =>
        rw [he] at h
        simp only [Option.some.injEq] at h; subst h; exact hq
      | some e =>
        rw [he] at h
        simp only [Option.some.injEq] at h; subst h; exact hq
  | fail e =>
    simp only [critM, Option.some.injEq] at h; subst h
    exact ⟨hq.cap, hq.len, fun _ => ⟨e, rfl⟩⟩

theorem setError_fail {q : Queue γ} {e : Nat} (h : q.err = some e) : q.setError e = q.fail e := by
  unfold Queue.setError Queue.fail
  rw [← h]

theorem putPm_result {q q' : Queue γ} {p : Pm} (h : q.putPm p = some q') : q'.result = q.result := by
  unfold Queue.putPm at h
  split at h
  · simp at h
  · split at h <;> (simp only [Option.some.injEq] at h; rw [← h])

theorem insert_qinv {q q' : Queue γ} {cs : List γ} {pm : Option Pm} {b : CBuf γ} {k : Nat}
    (hq : QInv q) (hs : q.space (batch cs pm).cmds.length = true)
    (h : q.insert (batch cs pm) pm = some (q', b, k)) : QInv q' := by
  have hlen : (batch cs pm).cmds.length ≤ slots - q.result.cmds.length := by
    have := hs
    unfold Queue.space at this
    rw [hq.cap] at this
    simpa using this
  obtain ⟨-, -, -, -, -, -, -, -, h2, h3, -⟩ := insert_fields h
  have hl := hq.len
  have key : q'.result.cap = slots ∧ q'.result.cmds.length ≤ slots := by
    unfold Queue.insert at h
    simp only at h
    split at h
    · cases pm with
      | none =>
        simp only [Option.some.injEq, Prod.mk.injEq] at h
        rw [← h.1]
        exact ⟨rfl, by simp only; omega⟩
      | some p =>
        simp only [Option.map_eq_some_iff, Prod.mk.injEq] at h
        obtain ⟨w2, h4, h5, -⟩ := h
        rw [← h5, putPm_result h4]
        exact ⟨rfl, by simp only; omega⟩
    · split at h
      · cases pm with
        | none =>
          simp only [Option.some.injEq, Prod.mk.injEq] at h
          rw [← h.1]
          exact ⟨hq.cap, by simp only [List.length_append]; omega⟩
        | some p =>
          simp only [Option.map_eq_some_iff, Prod.mk.injEq] at h
          obtain ⟨w2, h4, h5, -⟩ := h
          rw [← h5, putPm_result h4]
          exact ⟨hq.cap, by simp only [List.length_append]; omega⟩
      · simp at h
  exact ⟨key.1, key.2, by rw [h2, h3]; exact hq.err⟩

theorem setEof_qinv {q : Queue γ} (hq : QInv q) : QInv q.setEof := by
  obtain ⟨-, -, -, -, -, -, h1, -, -, -, -, h3, -⟩ := setEof_fields q
  refine ⟨by rw [h1]; exact hq.cap, by rw [h1]; exact hq.len, ?_⟩
  rw [h3]
  intro h
  obtain ⟨e, he⟩ := hq.err h
  exact ⟨e, by unfold Queue.setEof; simp only [he]⟩

/-- What the second half of `force_push` can do. -/
theorem forceCmds_cases {q : Queue γ} {n : Nat} {log : List (Obs γ)} {nt : Bool} {cs : List γ}
    {pm : Option Pm} {eof : Bool} {data : Range} {c : Crit γ (WOp γ)}
    (h : forceCmds q n log nt cs pm eof data = some c) :
    (q.space (batch cs pm).cmds.length = true ∧ c.notify = (nt || n != 0) ∧ c.next = none ∧
      ∃ b k, (if eof = true then q.setEof else q).insert (batch cs pm) pm = some (c.q, b, k) ∧
        c.log = (if eof = true then log ++ [Obs.pushEof q.pushEof.2] else log) ++ [.insert cs pm]) ∨
    (q.space (batch cs pm).cmds.length = false ∧ c.q = q ∧ c.log = log ∧ c.notify = nt ∧
      ((q.err = none ∧ c.next = some (.force cs pm eof data)) ∨ (q.err ≠ none ∧ c.next = none))) := by
  unfold forceCmds at h
  by_cases hs : q.space (batch cs pm).cmds.length = true
  · rw [if_pos hs] at h
    simp only [Option.map_eq_some_iff] at h
    obtain ⟨⟨q', b, k⟩, hi, rfl⟩ := h
    exact Or.inl ⟨hs, rfl, rfl, b, k, hi, rfl⟩
  · rw [if_neg hs] at h
    refine Or.inr ⟨by simpa using hs, ?_⟩
    cases he : q.err with
    | none =>
      rw [he] at h
      simp only [Option.some.injEq] at h; subst h
      exact ⟨rfl, rfl, rfl, Or.inl ⟨rfl, rfl⟩⟩
    | some e =>
      rw [he] at h
      simp only [Option.some.injEq] at h; subst h
      exact ⟨rfl, rfl, rfl, Or.inr ⟨by simp, rfl⟩⟩

theorem forceCmds_run {q q0 : Queue γ} {n : Nat} {log : List (Obs γ)} {nt : Bool} {cs : List γ}
    {pm : Option Pm} {eof : Bool} {data : Range} {c : Crit γ (WOp γ)} (hq : QInv q)
    (h0 : ∃ ops, Hand.run ops q0 = some (q, log))
    (h : forceCmds q n log nt cs pm eof data = some c) :
    ∃ ops, Hand.run ops q0 = some (c.q, c.log) := by
  obtain ⟨ops, hr⟩ := h0
  rcases forceCmds_cases h with ⟨hs, -, -, b, k, hi, hl⟩ | ⟨-, h1, h2, -⟩
  · have hlen : (batch cs pm).cmds.length ≤ slots := by
      unfold Queue.space at hs
      rw [hq.cap] at hs
      have : (batch cs pm).cmds.length ≤ slots - q.result.cmds.length := by simpa using hs
      omega
    have hst : Hand.step (if eof = true then q.setEof else q) (.insert cs pm)
        = some (c.q, .insert cs pm) := by
      simp only [Hand.step, if_pos hlen, hi, Option.map_some]
    cases eof with
    | true =>
      refine ⟨(ops ++ [.pushEof]) ++ [.insert cs pm], ?_⟩
      rw [hl]
      refine run_glue (run_glue hr (run_one ?_)) (run_one hst)
      simp only [Hand.step, pushEof_fst, if_true]
    | false =>
      refine ⟨ops ++ [.insert cs pm], ?_⟩
      rw [hl]
      exact run_glue hr (run_one hst)
  · exact ⟨ops, by rw [h1, h2, hr]⟩

theorem forceCmds_qinv {q : Queue γ} {n : Nat} {log : List (Obs γ)} {nt : Bool} {cs : List γ}
    {pm : Option Pm} {eof : Bool} {data : Range} {c : Crit γ (WOp γ)} (hq : QInv q)
    (h : forceCmds q n log nt cs pm eof data = some c) : QInv c.q := by
  rcases forceCmds_cases h with ⟨hs, -, -, b, k, hi, hl⟩ | ⟨-, h1, -⟩
  · cases eof with
    | true =>
      refine insert_qinv (setEof_qinv hq) ?_ hi
      obtain ⟨-, -, -, -, -, -, h1, -⟩ := setEof_fields q
      unfold Queue.space at hs ⊢
      rw [h1]; exact hs
    | false => exact insert_qinv hq hs hi
  · rw [h1]; exact hq

/-- The cases of `push_consumed_data`. -/
theorem pushConsumed_cases (q : Queue γ) (b : Range) (hb : b.cap ≠ 0) :
    (q.err = none ∧ (q.pushConsumed b).2.2 = .success ∧ (q.pushConsumed b).2.1.cap = 0 ∧
      ((q.r0.cap = 0 ∧ (q.pushConsumed b).1 = { q with r0 := b }) ∨
        (q.r0.cap ≠ 0 ∧ q.r1.cap = 0 ∧ (q.pushConsumed b).1 = { q with r1 := b }))) ∨
    (q.err = none ∧ q.r0.cap ≠ 0 ∧ q.r1.cap ≠ 0 ∧ q.pushConsumed b = (q, b, .needsOutput)) ∨
    (∃ e, q.err = some e ∧ q.pushConsumed b = (q, b, .failure e)) := by
  unfold Queue.pushConsumed
  cases he : q.err with
  | some e => exact Or.inr (Or.inr ⟨e, rfl, rfl⟩)
  | none =>
    simp only
    by_cases h0 : q.r0.cap = 0
    · simp only [if_pos h0]
      exact Or.inl ⟨trivial, trivial, h0, Or.inl ⟨h0, trivial⟩⟩
    · simp only [if_neg h0]
      by_cases h1 : q.r1.cap = 0
      · simp only [if_pos h1]
        exact Or.inl ⟨trivial, trivial, h1, Or.inr ⟨h0, h1, trivial⟩⟩
      · simp only [if_neg h1]
        exact Or.inr (Or.inl ⟨trivial, h0, h1, trivial⟩)

/-- The cases of `force_push`. -/
theorem force_cases {q : Queue γ} {n : Nat} {cs : List γ} {pm : Option Pm} {eof : Bool} {data : Range}
    {c : Crit γ (WOp γ)} (h : critW q n (.force cs pm eof data) = some c) :
    (data.cap = 0 ∧ forceCmds q n [] false cs pm eof data = some c) ∨
    (data.cap ≠ 0 ∧ q.err = none ∧ (q.pushConsumed data).2.2 = .success ∧
      (q.pushConsumed data).2.1.cap = 0 ∧ forceCmds (q.pushConsumed data).1 n
        [.pushConsumed data .success] (n != 0) cs pm eof (q.pushConsumed data).2.1 = some c) ∨
    (data.cap ≠ 0 ∧ q.err = none ∧ q.r0.cap ≠ 0 ∧ q.r1.cap ≠ 0 ∧
      c = ⟨q, [], false, some (.force cs pm eof data)⟩) ∨
    (∃ e, data.cap ≠ 0 ∧ q.err = some e ∧ forceCmds (q.fail e) n
        [.pushConsumed data (.failure e), .fail e] (n != 0) cs pm eof data = some c) := by
  simp only [critW] at h
  by_cases hd : data.cap ≠ 0
  · rw [if_pos hd] at h
    rcases pushConsumed_cases q data hd with ⟨h1, h2, h3, -⟩ | ⟨h1, h2, h3, h4⟩ | ⟨e, h1, h2⟩
    · rw [h2] at h
      exact Or.inr (Or.inl ⟨hd, h1, h2, h3, h⟩)
    · rw [h4] at h
      simp only [Option.some.injEq] at h
      exact Or.inr (Or.inr (Or.inl ⟨hd, h1, h2, h3, h.symm⟩))
    · rw [h2] at h
      simp only [setError_fail h1] at h
      exact Or.inr (Or.inr (Or.inr ⟨e, hd, h1, h⟩))
  · rw [if_neg hd] at h
    exact Or.inl ⟨by omega, h⟩

theorem pushConsumed_qinv {q : Queue γ} (b : Range) (hq : QInv q) : QInv (q.pushConsumed b).1 := by
  obtain ⟨-, -, -, -, -, -, h1, -, -, h2, h3⟩ := pushConsumed_fields q b
  exact ⟨by rw [h1]; exact hq.cap, by rw [h1]; exact hq.len, by rw [h2, h3]; exact hq.err⟩

theorem fail_qinv {q : Queue γ} (e : Nat) (hq : QInv q) : QInv (q.fail e) :=
  ⟨hq.cap, hq.len, fun _ => ⟨e, rfl⟩⟩

theorem critW_run {q : Queue γ} {n : Nat} {o : WOp γ} {c : Crit γ (WOp γ)} (hq : QInv q)
    (h : critW q n o = some c) : ∃ ops, Hand.run ops q = some (c.q, c.log) := by
  cases o with
  | pullData =>
    simp only [critW] at h
    split at h
    · simp only [Option.some.injEq] at h; subst h
      exact ⟨[.pullData], run_one rfl⟩
    · simp only [Option.some.injEq] at h; subst h
      exact ⟨[], rfl⟩
  | pullCm =>
    simp only [critW] at h
    split at h
    · simp only [Option.some.injEq] at h; subst h
      exact ⟨[.pullCm], run_one rfl⟩
    · simp only [Option.some.injEq] at h; subst h
      exact ⟨[], rfl⟩
  | force cs pm eof data =>
    rcases force_cases h with ⟨-, h1⟩ | ⟨-, -, h2, -, h1⟩ | ⟨-, -, -, -, rfl⟩ | ⟨e, -, h2, h1⟩
    · exact forceCmds_run hq ⟨[], rfl⟩ h1
    · refine forceCmds_run (pushConsumed_qinv data hq) ⟨[.pushConsumed data], run_one ?_⟩ h1
      simp only [Hand.step, h2]
    · exact ⟨[], rfl⟩
    · refine forceCmds_run (fail_qinv e hq) ⟨[.pushConsumed data] ++ [.fail e], ?_⟩ h1
      refine run_glue (l1 := [.pushConsumed data (.failure e)]) (l2 := [.fail e]) (w1 := q)
        (run_one ?_) (run_one rfl)
      simp only [Hand.step, Queue.pushConsumed, h2]
  | fail e =>
    simp only [critW, Option.some.injEq] at h; subst h
    exact ⟨[.fail e], run_one rfl⟩

theorem critW_qinv {q : Queue γ} {n : Nat} {o : WOp γ} {c : Crit γ (WOp γ)} (hq : QInv q)
    (h : critW q n o = some c) : QInv c.q := by
  cases o with
  | pullData =>
    simp only [critW] at h
    split at h
    · simp only [Option.some.injEq] at h; subst h
      obtain ⟨-, -, -, h1, -, -, -, -, h2, h3⟩ := pullData_fields q
      exact ⟨by rw [h1]; exact hq.cap, by rw [h1]; exact hq.len, by rw [h2, h3]; exact hq.err⟩
    · simp only [Option.some.injEq] at h; subst h; exact hq
  | pullCm =>
    simp only [critW] at h
    split at h
    · simp only [Option.some.injEq] at h; subst h
      obtain ⟨-, -, -, h1, -, -, -, -, h2, h3⟩ := pullCm_fields q
      exact ⟨by rw [h1]; exact hq.cap, by rw [h1]; exact hq.len, by rw [h2, h3]; exact hq.err⟩
    · simp only [Option.some.injEq] at h; subst h; exact hq
  | force cs pm eof data =>
    rcases force_cases h with ⟨-, h1⟩ | ⟨-, -, h2, -, h1⟩ | ⟨-, -, -, -, rfl⟩ | ⟨e, -, h2, h1⟩
    · exact forceCmds_qinv hq h1
    · exact forceCmds_qinv (pushConsumed_qinv data hq) h1
    · exact hq
    · exact forceCmds_qinv (fail_qinv e hq) h1
  | fail e =>
    simp only [critW, Option.some.injEq] at h; subst h
    exact fail_qinv e hq

/-! ### Sleeping threads -/

/-- The condition on which main waits. -/
def BlockedM (q : Queue γ) : MOp → Prop
  | .pushCm _ => q.cmLen = 2
  | .pull => q.resultReady = false ∧ q.err = none
  | _ => False

/-- The condition on which the worker waits. -/
def BlockedW (q : Queue γ) : WOp γ → Prop
  | .pullData => q.dataLen = 0
  | .pullCm => q.cmLen = 0
  | .force cs pm _ data => q.err = none ∧
      ((data.cap ≠ 0 ∧ q.r0.cap ≠ 0 ∧ q.r1.cap ≠ 0) ∨
        (data.cap = 0 ∧ q.space (batch cs pm).cmds.length = false))
  | .fail _ => False

theorem critM_sleep {q : Queue γ} {n : Nat} {o o' : MOp} {c : Crit γ MOp} (h : critM q n o = some c)
    (hn : c.next = some o') : BlockedM c.q o' := by
  cases o with
  | pushCm p =>
    simp only [critM] at h
    split at h
    · simp only [Option.some.injEq] at h; subst h; simp at hn
    · simp only [Option.some.injEq] at h; subst h
      simp only [Option.some.injEq] at hn; subst hn
      rename_i h2
      simpa [BlockedM] using h2
  | push b =>
    simp only [critM, Option.some.injEq] at h; subst h; simp at hn
  | pull =>
    simp only [critM] at h
    split at h
    · simp only [Option.map_eq_some_iff] at h
      obtain ⟨r, hr, rfl⟩ := h
      simp at hn
    · rename_i hr
      cases he : q.err with
      | none =>
        rw [he] at h
        simp only [Option.some.injEq] at h; subst h
        simp only [Option.some.injEq] at hn; subst hn
        exact ⟨by simpa using hr, he⟩
      | some e =>
        rw [he] at h
        simp only [Option.some.injEq] at h; subst h
        simp at hn
  | fail e =>
    simp only [critM, Option.some.injEq] at h; subst h; simp at hn

theorem forceCmds_sleep {q : Queue γ} {n : Nat} {log : List (Obs γ)} {nt : Bool} {cs : List γ}
    {pm : Option Pm} {eof : Bool} {data : Range} {c : Crit γ (WOp γ)} {o' : WOp γ}
    (h : forceCmds q n log nt cs pm eof data = some c) (hd : data.cap = 0 ∨ q.err ≠ none)
    (hn : c.next = some o') : BlockedW c.q o' := by
  rcases forceCmds_cases h with ⟨-, -, h1, -⟩ | ⟨h0, h1, -, -, ⟨h2, h3⟩ | ⟨h2, h3⟩⟩
  · rw [h1] at hn; simp at hn
  · rw [h3] at hn
    simp only [Option.some.injEq] at hn; subst hn
    rw [h1]
    refine ⟨h2, Or.inr ⟨?_, h0⟩⟩
    rcases hd with hd | hd
    · exact hd
    · exact absurd h2 hd
  · rw [h3] at hn; simp at hn

theorem critW_sleep {q : Queue γ} {n : Nat} {o o' : WOp γ} {c : Crit γ (WOp γ)}
    (h : critW q n o = some c) (hn : c.next = some o') : BlockedW c.q o' := by
  cases o with
  | pullData =>
    simp only [critW] at h
    split at h
    · simp only [Option.some.injEq] at h; subst h; simp at hn
    · simp only [Option.some.injEq] at h; subst h
      simp only [Option.some.injEq] at hn; subst hn
      rename_i h2
      simpa [BlockedW] using h2
  | pullCm =>
    simp only [critW] at h
    split at h
    · simp only [Option.some.injEq] at h; subst h; simp at hn
    · simp only [Option.some.injEq] at h; subst h
      simp only [Option.some.injEq] at hn; subst hn
      rename_i h2
      simpa [BlockedW] using h2
  | force cs pm eof data =>
    rcases force_cases h with ⟨h0, h1⟩ | ⟨-, -, h2, h0, h1⟩ | ⟨h0, h1, h2, h3, rfl⟩ | ⟨e, -, h2, h1⟩
    · exact forceCmds_sleep h1 (Or.inl h0) hn
    · exact forceCmds_sleep h1 (Or.inl h0) hn
    · simp only [Option.some.injEq] at hn; subst hn
      exact ⟨h1, Or.inl ⟨h0, h2, h3⟩⟩
    · exact forceCmds_sleep h1 (Or.inr (by simp [Queue.fail])) hn
  | fail e =>
    simp only [critW, Option.some.injEq] at h; subst h; simp at hn

/-- A passage of main that does not notify, while somebody waits, leaves the queues alone. -/
theorem critM_quiet {q : Queue γ} {n : Nat} {o : MOp} {c : Crit γ MOp} (h : critM q n o = some c)
    (hn : n ≠ 0) (hq : c.notify = false) : c.q = q := by
  have hb : (n != 0) = true := by simpa using hn
  cases o with
  | pushCm p =>
    simp only [critM] at h
    split at h
    · simp only [Option.some.injEq] at h; subst h; simp only [hb] at hq; simp at hq
    · simp only [Option.some.injEq] at h; subst h; rfl
  | push b =>
    simp only [critM, Option.some.injEq] at h; subst h
    simp only [hb, Bool.and_true] at hq
    simp only
    unfold Queue.push at hq ⊢
    split
    · rfl
    · rename_i h1
      rw [if_neg h1] at hq
      split at hq <;> simp at hq
  | pull =>
    simp only [critM] at h
    split at h
    · simp only [Option.map_eq_some_iff] at h
      obtain ⟨r, hr, rfl⟩ := h
      simp only [hb] at hq; simp at hq
    · cases he : q.err with
      | none =>
        rw [he] at h
        simp only [Option.some.injEq] at h; subst h; rfl
      | some e =>
        rw [he] at h
        simp only [Option.some.injEq] at h; subst h; rfl
  | fail e =>
    simp only [critM, Option.some.injEq] at h; subst h; simp only [hb] at hq; simp at hq

/-- A passage of the worker that does not notify, while somebody waits, at most takes data. -/
theorem critW_quiet {q : Queue γ} {n : Nat} {o : WOp γ} {c : Crit γ (WOp γ)} (h : critW q n o = some c)
    (hn : n ≠ 0) (hq : c.notify = false) : c.q = q ∨ c.q = q.pullData.1 := by
  have hb : (n != 0) = true := by simpa using hn
  cases o with
  | pullData =>
    simp only [critW] at h
    split at h
    · simp only [Option.some.injEq] at h; subst h; exact Or.inr rfl
    · simp only [Option.some.injEq] at h; subst h; exact Or.inl rfl
  | pullCm =>
    simp only [critW] at h
    split at h
    · simp only [Option.some.injEq] at h; subst h; simp only [hb] at hq; simp at hq
    · simp only [Option.some.injEq] at h; subst h; exact Or.inl rfl
  | force cs pm eof data =>
    left
    rcases force_cases h with ⟨h0, h1⟩ | ⟨-, -, h2, h0, h1⟩ | ⟨h0, h1, h2, h3, rfl⟩ | ⟨e, -, h2, h1⟩
    · rcases forceCmds_cases h1 with ⟨-, h1, -⟩ | ⟨-, h1, -⟩
      · rw [h1, hb] at hq; simp at hq
      · exact h1
    · rcases forceCmds_cases h1 with ⟨-, h1, -⟩ | ⟨-, -, -, h1, -⟩
      · rw [h1, hb] at hq; simp at hq
      · rw [h1, hb] at hq; simp at hq
    · rfl
    · rcases forceCmds_cases h1 with ⟨-, h1, -⟩ | ⟨-, -, -, h1, -⟩
      · rw [h1, hb] at hq; simp at hq
      · rw [h1, hb] at hq; simp at hq
  | fail e =>
    simp only [critW, Option.some.injEq] at h; subst h; simp only [hb] at hq; simp at hq

theorem blockedM_pullData {q : Queue γ} {o : MOp} (h : BlockedM q o) : BlockedM q.pullData.1 o := by
  obtain ⟨h1, -, -, h2, h3, -, -, -, h4, h5⟩ := pullData_fields q
  cases o with
  | pushCm p => simp only [BlockedM] at h ⊢; rw [h1]; exact h
  | push b => exact h
  | pull =>
    simp only [BlockedM, Queue.resultReady] at h ⊢
    rw [h2, h3, h4, h5]; exact h
  | fail e => exact h

/-! ### The invariant -/

/-- 1 for a thread counted in `waiters`. -/
def waits {α : Type} : Th α → Nat
  | .asleep _ => 1
  | .woken _ => 1
  | _ => 0

/-- What holds at all times. -/
structure Inv (s : Sys γ) : Prop where
  ops : ∃ ops, Hand.run ops (Queue.new γ) = some (s.q, s.log)
  q : QInv s.q
  cnt : s.waiters = waits s.main + waits s.work
  mb : ∀ o, s.main = .asleep o → BlockedM s.q o
  wb : ∀ o, s.work = .asleep o → BlockedW s.q o

theorem waits_wake {α : Type} (t : Th α) : waits t.wake = waits t := by cases t <;> rfl

theorem wake_asleep {α : Type} (t : Th α) (o : α) : t.wake ≠ .asleep o := by
  cases t <;> simp [Th.wake]

theorem waits_after {α : Type} (n : Nat) (x : Option α) :
    count n x = n + waits (after x) := by cases x <;> rfl

theorem inv_step {G : Sys γ → MOp → Prop} {H : Sys γ → WOp γ → Prop} {s t : Sys γ} (h : Inv s)
    (hs : Step G H s t) : Inv t := by
  obtain ⟨hops, hq, hcnt, hm, hw⟩ := h
  cases hs with
  | mStart o h1 _ =>
    refine ⟨hops, hq, ?_, by simp, hw⟩
    simp only [waits, h1] at hcnt ⊢; exact hcnt
  | mRun h1 hc =>
    rename_i o c
    obtain ⟨ops, hr⟩ := hops
    obtain ⟨ops2, hr2⟩ := critM_run hq hc
    refine ⟨⟨ops ++ ops2, run_glue hr hr2⟩, critM_qinv hq hc, ?_, ?_, ?_⟩
    · have : waits (if c.notify = true then s.work.wake else s.work) = waits s.work := by
        split
        · exact waits_wake _
        · rfl
      simp only [waits_after, this, hcnt, h1]
      simp only [waits]
      omega
    · intro o' ho
      simp only at ho
      cases hn : c.next with
      | none => rw [hn] at ho; simp [after] at ho
      | some o2 =>
        rw [hn] at ho
        simp only [after, Th.asleep.injEq] at ho
        subst ho
        exact critM_sleep hc hn
    · intro o' ho
      simp only at ho
      cases hn : c.notify with
      | true => rw [hn] at ho; simp only [if_true] at ho; exact absurd ho (wake_asleep _ _)
      | false =>
        rw [hn] at ho
        simp only [Bool.false_eq_true, if_false] at ho
        have hw0 : s.waiters ≠ 0 := by rw [hcnt, ho]; simp [waits]
        simp only [critM_quiet hc hw0 hn]
        exact hw o' ho
  | mAgain h1 =>
    refine ⟨hops, hq, ?_, by simp, hw⟩
    simp only [h1, waits] at hcnt ⊢
    omega
  | mSpurious h1 =>
    refine ⟨hops, hq, ?_, by simp, hw⟩
    simp only [h1, waits] at hcnt ⊢
    exact hcnt
  | wStart o h1 _ =>
    refine ⟨hops, hq, ?_, hm, by simp⟩
    simp only [waits, h1] at hcnt ⊢; exact hcnt
  | wRun h1 hc =>
    rename_i o c
    obtain ⟨ops, hr⟩ := hops
    obtain ⟨ops2, hr2⟩ := critW_run hq hc
    refine ⟨⟨ops ++ ops2, run_glue hr hr2⟩, critW_qinv hq hc, ?_, ?_, ?_⟩
    · have : waits (if c.notify = true then s.main.wake else s.main) = waits s.main := by
        split
        · exact waits_wake _
        · rfl
      simp only [waits_after, this, hcnt, h1]
      simp only [waits]
      omega
    · intro o' ho
      simp only at ho
      cases hn : c.notify with
      | true => rw [hn] at ho; simp only [if_true] at ho; exact absurd ho (wake_asleep _ _)
      | false =>
        rw [hn] at ho
        simp only [Bool.false_eq_true, if_false] at ho
        have hw0 : s.waiters ≠ 0 := by rw [hcnt, ho]; simp [waits]
        rcases critW_quiet hc hw0 hn with h2 | h2
        · simp only [h2]; exact hm o' ho
        · simp only [h2]; exact blockedM_pullData (hm o' ho)
    · intro o' ho
      simp only at ho
      cases hn : c.next with
      | none => rw [hn] at ho; simp [after] at ho
      | some o2 =>
        rw [hn] at ho
        simp only [after, Th.asleep.injEq] at ho
        subst ho
        exact critW_sleep hc hn
  | wAgain h1 =>
    refine ⟨hops, hq, ?_, hm, by simp⟩
    simp only [h1, waits] at hcnt ⊢
    omega
  | wSpurious h1 =>
    refine ⟨hops, hq, ?_, hm, by simp⟩
    simp only [h1, waits] at hcnt ⊢
    exact hcnt

theorem inv_reach {G : Sys γ → MOp → Prop} {H : Sys γ → WOp γ → Prop} {s : Sys γ}
    (h : Reach G H s) : Inv s := by
  induction h with
  | init =>
    exact ⟨⟨[], rfl⟩, ⟨rfl, Nat.zero_le _, by simp [Sys.init, Queue.new]⟩, rfl, by simp [Sys.init],
      by simp [Sys.init]⟩
  | step _ hs ih => exact inv_step ih hs

/-! ### C28 for two threads -/

/-- **C28 with two threads.** Under every interleaving, with any spurious wake-ups, the worker gets the
buffers of main in order, main gets the commands of the worker in order and the blocks of memory in
order, no map is lost, and at most two buffers, 256 commands, two blocks, two maps are waiting. -/
theorem two_threads_in_order {G : Sys γ → MOp → Prop} {H : Sys γ → WOp γ → Prop} {s : Sys γ}
    (h : Reach G H s) :
    (takenData s.log <+: pushedData s.log ∧
      (pushedData s.log).length ≤ (takenData s.log).length + 2) ∧
    (RealModes s.log → receivedCmds s.log <+: sentCmds s.log ∧
      (sentCmds s.log).length ≤ (receivedCmds s.log).length + slots) ∧
    (receivedBufs s.log <+: sentBufs s.log ∧
      (sentBufs s.log).length ≤ (receivedBufs s.log).length + 2) ∧
    ∃ l, l.length ≤ 2 ∧ (pushedCms s.log).Perm (takenCms s.log ++ l) := by
  obtain ⟨ops, hr⟩ := (inv_reach h).ops
  exact ⟨data_in_order hr, fun hm => commands_in_order hr hm, blocks_in_order hr, maps_not_lost hr⟩

/-! ### C46: no wake-up is lost -/

/-- **C46, no lost wake-up.** Whenever main waits (and has not been notified), trying again now would
make it wait again: the queues give it nothing.  For every interleaving and any spurious wake-ups. -/
theorem main_sleeps_only_if_blocked {G : Sys γ → MOp → Prop} {H : Sys γ → WOp γ → Prop} {s : Sys γ}
    (h : Reach G H s) {o : MOp} (ho : s.main = .asleep o) :
    critM s.q s.waiters o = some ⟨s.q, [], false, some o⟩ := by
  have hb := (inv_reach h).mb o ho
  cases o with
  | pushCm p => simp only [BlockedM] at hb; simp [critM, hb]
  | push b => exact absurd hb (by simp [BlockedM])
  | pull => simp only [BlockedM] at hb; simp [critM, hb.1, hb.2]
  | fail e => exact absurd hb (by simp [BlockedM])

/-- **C46, no lost wake-up**, for the worker. -/
theorem worker_sleeps_only_if_blocked {G : Sys γ → MOp → Prop} {H : Sys γ → WOp γ → Prop} {s : Sys γ}
    (h : Reach G H s) {o : WOp γ} (ho : s.work = .asleep o) :
    critW s.q s.waiters o = some ⟨s.q, [], false, some o⟩ := by
  have hb := (inv_reach h).wb o ho
  cases o with
  | pullData => simp only [BlockedW] at hb; simp [critW, hb]
  | pullCm => simp only [BlockedW] at hb; simp [critW, hb]
  | force cs pm eof data =>
    simp only [BlockedW] at hb
    obtain ⟨he, ⟨h1, h2, h3⟩ | ⟨h1, h2⟩⟩ := hb
    · simp [critW, h1, Queue.pushConsumed, he, h2, h3]
    · simp [critW, h1, forceCmds, h2, he]
  | fail e => exact absurd hb (by simp [BlockedW])

/-! ### How the decompressor uses the queues -/

/-- Is this a prediction mode? -/
def isMode : Cmd γ → Bool
  | .pm _ => true
  | .other _ => false

/-- Prediction modes the worker handed over. -/
def modesSent (log : List (Obs γ)) : Nat := (sentCmds log).countP isMode

/-- Prediction modes main got. -/
def modesGot (log : List (Obs γ)) : Nat := (receivedCmds log).countP isMode

/-- When main makes which call, /repo/src/codec/decoder.rs:282-400: it gives back the map of each
prediction mode it got before it pulls again. -/
def MainRule (s : Sys γ) : MOp → Prop
  | .pushCm _ => (pushedCms s.log).length < modesGot s.log
  | .pull => (pushedCms s.log).length = modesGot s.log
  | .push _ => True
  | .fail _ => True

/-- When the worker makes which call: it asks for data only after giving back every block it got
(`pull_if_necessary`, /repo/src/threading.rs:292-315); it starts with one map
(`PredictionModeState::begin`, /repo/src/codec/context_map.rs), hands over a prediction mode only when it
has a map, with which the map goes, and asks for a map only when it has none
(/repo/src/codec/mod.rs:811-856); it gives back only blocks it got; its buffer of commands has 256
slots (/repo/src/multithreading.rs:378). -/
def WorkRule (s : Sys γ) : WOp γ → Prop
  | .pullData => (sentBufs s.log).length = (takenData s.log).length
  | .pullCm => modesSent s.log = (takenCms s.log).length + 1
  | .force cs pm _ data =>
    (∀ p, pm = some p → modesSent s.log = (takenCms s.log).length ∧ p.speeds = true) ∧
      (data.cap ≠ 0 → (sentBufs s.log).length < (takenData s.log).length) ∧
      (batch cs pm).cmds.length ≤ slots
  | .fail _ => True

/-- The call a thread is in. -/
def Th.call {α : Type} : Th α → Option α
  | .idle => none
  | .wants o => some o
  | .asleep o => some o
  | .woken o => some o

theorem call_wake {α : Type} (t : Th α) : t.wake.call = t.call := by cases t <;> rfl

theorem call_after {α : Type} (x : Option α) : (after x).call = x := by cases x <;> rfl

/-- Invariant of a decompressor that keeps to the rules. -/
structure DInv (s : Sys γ) : Prop where
  real : RealModes s.log
  pr : (pushedCms s.log).length ≤ modesGot s.log
  mt : modesSent s.log ≤ (takenCms s.log).length + 1
  bd : (sentBufs s.log).length ≤ (takenData s.log).length
  m : ∀ o, s.main.call = some o → MainRule s o
  w : ∀ o, s.work.call = some o → WorkRule s o

theorem app_pushedCms (a b : List (Obs γ)) : pushedCms (a ++ b) = pushedCms a ++ pushedCms b := by
  simp [pushedCms]
theorem app_takenCms (a b : List (Obs γ)) : takenCms (a ++ b) = takenCms a ++ takenCms b := by
  simp [takenCms]
theorem app_takenData (a b : List (Obs γ)) : takenData (a ++ b) = takenData a ++ takenData b := by
  simp [takenData]
theorem app_sentBufs (a b : List (Obs γ)) : sentBufs (a ++ b) = sentBufs a ++ sentBufs b := by
  simp [sentBufs]
theorem app_sentCmds (a b : List (Obs γ)) : sentCmds (a ++ b) = sentCmds a ++ sentCmds b := by
  simp [sentCmds]
theorem app_receivedCmds (a b : List (Obs γ)) :
    receivedCmds (a ++ b) = receivedCmds a ++ receivedCmds b := by
  simp [receivedCmds]
theorem app_modesSent (a b : List (Obs γ)) : modesSent (a ++ b) = modesSent a + modesSent b := by
  simp [modesSent, app_sentCmds, List.countP_append]
theorem app_modesGot (a b : List (Obs γ)) : modesGot (a ++ b) = modesGot a + modesGot b := by
  simp [modesGot, app_receivedCmds, List.countP_append]

/-- Nothing in a log of main that belongs to the worker. -/
theorem critM_none {q : Queue γ} {n : Nat} {o : MOp} {c : Crit γ MOp} (h : critM q n o = some c) :
    takenData c.log = [] ∧ sentBufs c.log = [] ∧ sentCmds c.log = [] ∧ takenCms c.log = [] := by
  cases o with
  | pushCm p =>
    simp only [critM] at h
    split at h
    · simp only [Option.some.injEq] at h; subst h; exact ⟨rfl, rfl, rfl, rfl⟩
    · simp only [Option.some.injEq] at h; subst h; exact ⟨rfl, rfl, rfl, rfl⟩
  | push b =>
    simp only [critM, Option.some.injEq] at h; subst h; exact ⟨rfl, rfl, rfl, rfl⟩
  | pull =>
    simp only [critM] at h
    split at h
    · simp only [Option.map_eq_some_iff] at h
      obtain ⟨r, hr, rfl⟩ := h
      exact ⟨rfl, rfl, rfl, rfl⟩
    · cases he : q.err with
      | none =>
        rw [he] at h
        simp only [Option.some.injEq] at h; subst h; exact ⟨rfl, rfl, rfl, rfl⟩
      | some e =>
        rw [he] at h
        simp only [Option.some.injEq] at h; subst h; exact ⟨rfl, rfl, rfl, rfl⟩
  | fail e =>
    simp only [critM, Option.some.injEq] at h; subst h; exact ⟨rfl, rfl, rfl, rfl⟩

/-- What a passage of main adds. -/
theorem critM_adds {q : Queue γ} {n : Nat} {o : MOp} {c : Crit γ MOp} (h : critM q n o = some c) :
    (∃ o', c.next = some o' ∧ o' = o ∧ c.log = []) ∨
    (c.next = none ∧ ((∃ p, o = .pushCm p ∧ (pushedCms c.log).length ≤ 1 ∧ modesGot c.log = 0) ∨
      pushedCms c.log = [])) := by
  cases o with
  | pushCm p =>
    simp only [critM] at h
    split at h
    · simp only [Option.some.injEq] at h; subst h
      refine Or.inr ⟨rfl, Or.inl ⟨p, rfl, ?_, rfl⟩⟩
      cases (q.pushCm p).2 <;> simp [pushedCms]
    · simp only [Option.some.injEq] at h; subst h
      exact Or.inl ⟨_, rfl, rfl, rfl⟩
  | push b =>
    simp only [critM, Option.some.injEq] at h; subst h
    exact Or.inr ⟨rfl, Or.inr rfl⟩
  | pull =>
    simp only [critM] at h
    split at h
    · simp only [Option.map_eq_some_iff] at h
      obtain ⟨r, hr, rfl⟩ := h
      exact Or.inr ⟨rfl, Or.inr rfl⟩
    · cases he : q.err with
      | none =>
        rw [he] at h
        simp only [Option.some.injEq] at h; subst h; exact Or.inl ⟨_, rfl, rfl, rfl⟩
      | some e =>
        rw [he] at h
        simp only [Option.some.injEq] at h; subst h; exact Or.inr ⟨rfl, Or.inr rfl⟩
  | fail e =>
    simp only [critM, Option.some.injEq] at h; subst h
    exact Or.inr ⟨rfl, Or.inr rfl⟩

theorem modesSent_insert (cs : List γ) (pm : Option Pm) :
    modesSent [Obs.insert cs pm] = pm.toList.length := by
  have : ∀ l : List γ, (l.map Cmd.other).countP isMode = 0 := by
    intro l
    induction l with
    | nil => rfl
    | cons a t ih => simp [List.countP_cons, isMode, ih]
  cases pm <;>
    simp [modesSent, sentCmds, List.countP_append, this, isMode]

/-- What the second half of `force_push` adds. -/
theorem forceCmds_adds {q : Queue γ} {n : Nat} {log : List (Obs γ)} {nt : Bool} {cs : List γ}
    {pm : Option Pm} {eof : Bool} {data : Range} {c : Crit γ (WOp γ)}
    (h : forceCmds q n log nt cs pm eof data = some c) :
    (c.next = none ∨ (c.next = some (.force cs pm eof data) ∧ c.log = log)) ∧
    ∃ l, c.log = log ++ l ∧ takenData l = [] ∧ takenCms l = [] ∧ sentBufs l = [] ∧
      pushedCms l = [] ∧ receivedCmds l = [] ∧ (l = [] ∨ (sentCmds l = sentCmds [Obs.insert cs pm])) := by
  rcases forceCmds_cases h with ⟨-, -, h1, b, k, -, hl⟩ | ⟨-, -, h1, -, ⟨-, h3⟩ | ⟨-, h3⟩⟩
  · refine ⟨Or.inl h1, ?_⟩
    cases eof with
    | true =>
      simp only [if_true] at hl
      refine ⟨[Obs.pushEof q.pushEof.2] ++ [.insert cs pm], by rw [hl, List.append_assoc], rfl, rfl, rfl,
        rfl, rfl, Or.inr ?_⟩
      simp [sentCmds]
    | false =>
      exact ⟨[.insert cs pm], by simpa using hl, rfl, rfl, rfl, rfl, rfl, Or.inr rfl⟩
  · exact ⟨Or.inr ⟨h3, h1⟩, [], by simpa using h1, rfl, rfl, rfl, rfl, rfl, Or.inl rfl⟩
  · exact ⟨Or.inl h3, [], by simpa using h1, rfl, rfl, rfl, rfl, rfl, Or.inl rfl⟩

/-- What `force_push` adds. -/
theorem force_adds {q : Queue γ} {n : Nat} {cs : List γ} {pm : Option Pm} {eof : Bool} {data : Range}
    {c : Crit γ (WOp γ)} (h : critW q n (.force cs pm eof data) = some c) :
    takenData c.log = [] ∧ takenCms c.log = [] ∧ pushedCms c.log = [] ∧ receivedCmds c.log = [] ∧
    (sentBufs c.log).length ≤ (if data.cap = 0 then 0 else 1) ∧
    (sentCmds c.log = [] ∨ (sentCmds c.log = sentCmds [Obs.insert cs pm] ∧ c.next = none)) ∧
    (c.next = none ∨ (c.next = some (.force cs pm eof data) ∧ sentBufs c.log = []) ∨
      ∃ d, d.cap = 0 ∧ c.next = some (.force cs pm eof d)) := by
  have two : ∀ {l : List (Obs γ)}, (c.next = none ∨ ∃ d, (c.next = some (.force cs pm eof d) ∧ l = [])) →
      (l = [] ∨ (sentCmds l = sentCmds [Obs.insert cs pm])) →
      (sentCmds l = [] ∨ (sentCmds l = sentCmds [Obs.insert cs pm] ∧ c.next = none)) := by
    intro l h1 h2
    rcases h2 with rfl | h2
    · exact Or.inl rfl
    · rcases h1 with h1 | ⟨d, -, rfl⟩
      · exact Or.inr ⟨h2, h1⟩
      · exact Or.inl rfl
  rcases force_cases h with ⟨h0, h1⟩ | ⟨h5, -, h2, h0, h1⟩ | ⟨h0, h1, h2, h3, rfl⟩ | ⟨e, h5, h2, h1⟩
  · obtain ⟨hn, l, hl, a1, a2, a3, a4, a5, a6⟩ := forceCmds_adds h1
    simp only [List.nil_append] at hl
    rw [hl]
    refine ⟨a1, a2, a4, a5, by rw [a3]; simp, ?_, ?_⟩
    · refine two ?_ a6
      rcases hn with hn | ⟨hn, hn2⟩
      · exact Or.inl hn
      · exact Or.inr ⟨_, hn, by rw [← hl]; exact hn2⟩
    · rcases hn with hn | ⟨hn, -⟩
      · exact Or.inl hn
      · exact Or.inr (Or.inl ⟨hn, a3⟩)
  · obtain ⟨hn, l, hl, a1, a2, a3, a4, a5, a6⟩ := forceCmds_adds h1
    rw [hl, app_takenData, app_takenCms, app_pushedCms, app_receivedCmds, app_sentBufs, app_sentCmds,
      a1, a2, a3, a4, a5]
    have e1 : sentCmds [Obs.pushConsumed (γ := γ) data .success] = [] := rfl
    rw [e1, List.nil_append]
    refine ⟨rfl, rfl, rfl, rfl, ?_, ?_, ?_⟩
    · rw [if_neg h5]; simp [sentBufs, blocks, h5]
    · refine two ?_ a6
      rcases hn with hn | ⟨hn, hn2⟩
      · exact Or.inl hn
      · refine Or.inr ⟨_, hn, ?_⟩
        rw [hl] at hn2
        simpa using hn2
    · rcases hn with hn | ⟨hn, -⟩
      · exact Or.inl hn
      · exact Or.inr (Or.inr ⟨_, h0, hn⟩)
  · exact ⟨rfl, rfl, rfl, rfl, by simp [sentBufs], Or.inl rfl, Or.inr (Or.inl ⟨rfl, rfl⟩)⟩
  · obtain ⟨hn, l, hl, a1, a2, a3, a4, a5, a6⟩ := forceCmds_adds h1
    rw [hl, app_takenData, app_takenCms, app_pushedCms, app_receivedCmds, app_sentBufs, app_sentCmds,
      a1, a2, a3, a4, a5]
    have e1 : sentCmds [Obs.pushConsumed (γ := γ) data (.failure e), .fail e] = [] := rfl
    rw [e1, List.nil_append]
    refine ⟨rfl, rfl, rfl, rfl, ?_, ?_, ?_⟩
    · simp [sentBufs]
    · refine two ?_ a6
      rcases hn with hn | ⟨hn, hn2⟩
      · exact Or.inl hn
      · refine Or.inr ⟨_, hn, ?_⟩
        rw [hl] at hn2
        simpa using hn2
    · rcases hn with hn | ⟨hn, -⟩
      · exact Or.inl hn
      · exact Or.inr (Or.inl ⟨hn, by simp [sentBufs]⟩)

/-- Nothing in a log of the worker that belongs to main. -/
theorem critW_none {q : Queue γ} {n : Nat} {o : WOp γ} {c : Crit γ (WOp γ)} (h : critW q n o = some c) :
    pushedCms c.log = [] ∧ receivedCmds c.log = [] := by
  cases o with
  | pullData =>
    simp only [critW] at h
    split at h
    · simp only [Option.some.injEq] at h; subst h; exact ⟨rfl, rfl⟩
    · simp only [Option.some.injEq] at h; subst h; exact ⟨rfl, rfl⟩
  | pullCm =>
    simp only [critW] at h
    split at h
    · simp only [Option.some.injEq] at h; subst h; exact ⟨rfl, rfl⟩
    · simp only [Option.some.injEq] at h; subst h; exact ⟨rfl, rfl⟩
  | force cs pm eof data =>
    obtain ⟨-, -, h1, h2, -⟩ := force_adds h
    exact ⟨h1, h2⟩
  | fail e =>
    simp only [critW, Option.some.injEq] at h; subst h; exact ⟨rfl, rfl⟩

theorem mainRule_log {s t : Sys γ} {l : List (Obs γ)} (hl : t.log = s.log ++ l)
    (h1 : pushedCms l = []) (h2 : receivedCmds l = []) {o : MOp} (h : MainRule s o) : MainRule t o := by
  have e1 : (pushedCms t.log).length = (pushedCms s.log).length := by rw [hl, app_pushedCms, h1]; simp
  have e2 : modesGot t.log = modesGot s.log := by rw [hl, app_modesGot]; simp [modesGot, h2]
  cases o with
  | pushCm p => simp only [MainRule] at h ⊢; rw [e1, e2]; exact h
  | push b => trivial
  | pull => simp only [MainRule] at h ⊢; rw [e1, e2]; exact h
  | fail e => trivial

theorem workRule_log {s t : Sys γ} {l : List (Obs γ)} (hl : t.log = s.log ++ l)
    (h1 : takenData l = []) (h2 : sentBufs l = []) (h3 : sentCmds l = []) (h4 : takenCms l = [])
    {o : WOp γ} (h : WorkRule s o) : WorkRule t o := by
  have e1 : (takenData t.log).length = (takenData s.log).length := by rw [hl, app_takenData, h1]; simp
  have e2 : (sentBufs t.log).length = (sentBufs s.log).length := by rw [hl, app_sentBufs, h2]; simp
  have e3 : modesSent t.log = modesSent s.log := by rw [hl, app_modesSent]; simp [modesSent, h3]
  have e4 : (takenCms t.log).length = (takenCms s.log).length := by rw [hl, app_takenCms, h4]; simp
  cases o with
  | pullData => simp only [WorkRule] at h ⊢; rw [e1, e2]; exact h
  | pullCm => simp only [WorkRule] at h ⊢; rw [e3, e4]; exact h
  | force cs pm eof data => simp only [WorkRule] at h ⊢; rw [e1, e2, e3, e4]; exact h
  | fail e => trivial

theorem dinv_step {s t : Sys γ} (h : DInv s) (hs : Step MainRule WorkRule s t) : DInv t := by
  obtain ⟨hreal, hpr, hmt, hbd, hm, hw⟩ := h
  cases hs with
  | mStart o h1 hg =>
    refine ⟨hreal, hpr, hmt, hbd, ?_, hw⟩
    intro o' ho
    simp only [Th.call, Option.some.injEq] at ho
    subst ho
    exact hg
  | mRun h1 hc =>
    rename_i o c
    obtain ⟨k1, k2, k3, k4⟩ := critM_none hc
    have hrule : MainRule s o := hm o (by rw [h1]; rfl)
    refine ⟨?_, ?_, ?_, ?_, ?_, ?_⟩
    · intro p hp
      simp only [app_sentCmds, k3, List.append_nil] at hp
      exact hreal p hp
    · simp only [app_pushedCms, app_modesGot, List.length_append]
      rcases critM_adds hc with ⟨o', -, -, hl⟩ | ⟨-, ⟨p, rfl, h2, h3⟩ | h2⟩
      · rw [hl]; simp [pushedCms, modesGot, receivedCmds] at hpr ⊢; exact hpr
      · simp only [MainRule] at hrule; omega
      · rw [h2]; simp only [List.length_nil]; omega
    · simp only [app_modesSent, app_takenCms, k4, List.append_nil]
      have : modesSent c.log = 0 := by simp [modesSent, k3]
      omega
    · simp only [app_sentBufs, app_takenData, k1, k2, List.append_nil]; exact hbd
    · intro o' ho
      simp only [call_after] at ho
      rcases critM_adds hc with ⟨o2, h2, h3, hl⟩ | ⟨h2, -⟩
      · rw [h2] at ho
        simp only [Option.some.injEq] at ho
        subst ho h3
        exact mainRule_log (l := []) (by simp only [hl]) rfl rfl hrule
      · rw [h2] at ho; simp at ho
    · intro o' ho
      have ho' : s.work.call = some o' := by
        simp only at ho
        split at ho
        · rw [call_wake] at ho; exact ho
        · exact ho
      exact workRule_log (l := c.log) rfl k1 k2 k3 k4 (hw o' ho')
  | mAgain h1 =>
    refine ⟨hreal, hpr, hmt, hbd, ?_, hw⟩
    intro o' ho
    exact hm o' (by rw [h1]; exact ho)
  | mSpurious h1 =>
    refine ⟨hreal, hpr, hmt, hbd, ?_, hw⟩
    intro o' ho
    exact hm o' (by rw [h1]; exact ho)
  | wStart o h1 hg =>
    refine ⟨hreal, hpr, hmt, hbd, hm, ?_⟩
    intro o' ho
    simp only [Th.call, Option.some.injEq] at ho
    subst ho
    exact hg
  | wRun h1 hc =>
    rename_i o c
    obtain ⟨k1, k2⟩ := critW_none hc
    have hrule : WorkRule s o := hw o (by rw [h1]; rfl)
    have hmain : ∀ o', (if c.notify = true then s.main.wake else s.main).call = some o' →
        s.main.call = some o' := by
      intro o' ho
      split at ho
      · rw [call_wake] at ho; exact ho
      · exact ho
    have hpr' : (pushedCms (s.log ++ c.log)).length ≤ modesGot (s.log ++ c.log) := by
      rw [app_pushedCms, app_modesGot, k1, List.append_nil]; omega
    have hm' : ∀ o', (if c.notify = true then s.main.wake else s.main).call = some o' →
        MainRule ⟨c.q, count s.waiters c.next, if c.notify = true then s.main.wake else s.main,
          after c.next, s.log ++ c.log⟩ o' := fun o' ho =>
      mainRule_log (l := c.log) rfl k1 k2 (hm o' (hmain o' ho))
    cases o with
    | pullData =>
      simp only [critW] at hc
      simp only [WorkRule] at hrule
      split at hc
      · simp only [Option.some.injEq] at hc; subst hc
        refine ⟨?_, hpr', ?_, ?_, hm', by simp [after, Th.call]⟩
        · intro p hp
          simp only [app_sentCmds] at hp
          exact hreal p (by simpa [sentCmds] using hp)
        · simp only [app_modesSent, app_takenCms, List.length_append]
          have : modesSent [Obs.pullData (γ := γ) s.q.pullData.2] = 0 := rfl
          omega
        · simp only [app_sentBufs, app_takenData, List.length_append]
          have : sentBufs [Obs.pullData (γ := γ) s.q.pullData.2] = [] := rfl
          rw [this]; simp only [List.length_nil]; omega
      · simp only [Option.some.injEq] at hc; subst hc
        simp only [List.append_nil] at hpr' hm' ⊢
        refine ⟨hreal, hpr', hmt, hbd, hm', ?_⟩
        intro o' ho
        simp only [call_after, Option.some.injEq] at ho
        subst ho
        exact hrule
    | pullCm =>
      simp only [critW] at hc
      simp only [WorkRule] at hrule
      split at hc
      · simp only [Option.some.injEq] at hc; subst hc
        refine ⟨?_, hpr', ?_, ?_, hm', by simp [after, Th.call]⟩
        · intro p hp
          simp only [app_sentCmds] at hp
          exact hreal p (by simpa [sentCmds] using hp)
        · simp only [app_modesSent, app_takenCms, List.length_append]
          have : modesSent [Obs.pullCm (γ := γ) s.q.pullCm.2] = 0 := rfl
          omega
        · simp only [app_sentBufs, app_takenData, List.length_append]
          have : sentBufs [Obs.pullCm (γ := γ) s.q.pullCm.2] = [] := rfl
          rw [this]; simp only [List.length_nil]; omega
      · simp only [Option.some.injEq] at hc; subst hc
        simp only [List.append_nil] at hpr' hm' ⊢
        refine ⟨hreal, hpr', hmt, hbd, hm', ?_⟩
        intro o' ho
        simp only [call_after, Option.some.injEq] at ho
        subst ho
        exact hrule
    | force cs pm eof data =>
      obtain ⟨a1, a2, -, -, a5, a6, a7⟩ := force_adds hc
      obtain ⟨hr1, hr2, hr3⟩ := hrule
      have hM : modesSent c.log ≤ pm.toList.length := by
        rcases a6 with a6 | ⟨a6, -⟩
        · simp [modesSent, a6]
        · have := modesSent_insert cs pm
          unfold modesSent at this ⊢
          rw [a6, this]
          exact Nat.le_refl _
      refine ⟨?_, hpr', ?_, ?_, hm', ?_⟩
      · intro p hp
        simp only [app_sentCmds, List.mem_append] at hp
        rcases hp with hp | hp
        · exact hreal p hp
        · rcases a6 with a6 | ⟨a6, -⟩
          · rw [a6] at hp; simp at hp
          · rw [a6] at hp
            have hp' : p ∈ pm.toList := by
              simpa [sentCmds] using hp
            exact (hr1 p (by simpa using hp')).2
      · simp only [app_modesSent, app_takenCms, a2, List.append_nil]
        cases pm with
        | none => simp at hM; omega
        | some p =>
          have := (hr1 p rfl).1
          simp at hM
          omega
      · simp only [app_sentBufs, app_takenData, a1, List.append_nil, List.length_append]
        by_cases hd : data.cap = 0
        · rw [if_pos hd] at a5; omega
        · rw [if_neg hd] at a5
          have := hr2 hd
          omega
      · intro o' ho
        simp only [call_after] at ho
        have a6' : sentCmds c.log = [] := by
          rcases a6 with a6 | ⟨-, a6⟩
          · exact a6
          · rw [a6] at ho; simp at ho
        have e3 : modesSent (s.log ++ c.log) = modesSent s.log := by
          rw [app_modesSent]; simp [modesSent, a6']
        rcases a7 with a7 | ⟨a7, a8⟩ | ⟨d, a8, a7⟩
        · rw [a7] at ho; simp at ho
        · rw [a7] at ho
          simp only [Option.some.injEq] at ho
          subst ho
          exact workRule_log (l := c.log) rfl a1 a8 a6' a2 ⟨hr1, hr2, hr3⟩
        · rw [a7] at ho
          simp only [Option.some.injEq] at ho
          subst ho
          simp only [WorkRule]
          rw [e3, app_takenCms, a2, List.append_nil]
          exact ⟨hr1, fun h => absurd a8 h, hr3⟩
    | fail e =>
      simp only [critW, Option.some.injEq] at hc; subst hc
      refine ⟨?_, hpr', ?_, ?_, hm', by simp [after, Th.call]⟩
      · intro p hp
        simp only [app_sentCmds] at hp
        exact hreal p (by simpa [sentCmds] using hp)
      · simp only [app_modesSent, app_takenCms, List.length_append]
        have : modesSent [Obs.fail (γ := γ) e] = 0 := rfl
        omega
      · simp only [app_sentBufs, app_takenData, List.length_append]
        have : sentBufs [Obs.fail (γ := γ) e] = [] := rfl
        rw [this]; simp only [List.length_nil]; omega
  | wAgain h1 =>
    refine ⟨hreal, hpr, hmt, hbd, hm, ?_⟩
    intro o' ho
    exact hw o' (by rw [h1]; exact ho)
  | wSpurious h1 =>
    refine ⟨hreal, hpr, hmt, hbd, hm, ?_⟩
    intro o' ho
    exact hw o' (by rw [h1]; exact ho)

theorem dinv_reach {s : Sys γ} (h : Reach MainRule WorkRule s) : DInv s := by
  induction h with
  | init =>
    exact ⟨by simp [RealModes, Sys.init, sentCmds], Nat.zero_le _, Nat.zero_le _, Nat.zero_le _,
      by simp [Sys.init, Th.call], by simp [Sys.init, Th.call]⟩
  | step _ hs ih => exact dinv_step ih hs

theorem attach_modes (cs : List (Static γ)) (ps : Pm × Pm) :
    (attach cs ps).countP isMode = modes cs := by
  induction cs generalizing ps with
  | nil => rfl
  | cons x t ih => cases x <;> simp [attach, modes, List.countP_cons, isMode, ih]

/-- How the counts of a history are related to what is in the queues. -/
theorem counts {s : Sys γ} (h : Inv s) (hreal : RealModes s.log) :
    (pushedData s.log).length = (takenData s.log).length + s.q.dataLen ∧
    (pushedCms s.log).length = (takenCms s.log).length + s.q.cmLen ∧
    modesSent s.log = modesGot s.log + modes s.q.result.cmds ∧
    WPm s.q (modes s.q.result.cmds) ∧
    (s.q.r0.cap = 0 → (sentBufs s.log).length = (receivedBufs s.log).length) := by
  obtain ⟨ops, hr⟩ := h.ops
  have hd := dataInv_run hr
  have hc := cmdInv_run hr hreal
  have hm := run_inv (P := CmInv) cmInv_step (log := []) ⟨[], .zero rfl, List.Perm.refl _⟩ hr
  have hb := run_inv (P := BufInv) bufInv_step (log := []) ⟨[], .zero rfl rfl, rfl⟩ hr
  simp only [List.nil_append] at hm hb
  refine ⟨?_, ?_, ?_, hc.pms, ?_⟩
  · obtain ⟨l, hl, he⟩ := hd
    rw [he, List.length_append]
    cases hl with
    | zero a => simp [a]
    | one a _ => simp [a]
    | two a _ _ => simp [a]
  · obtain ⟨l, hl, he⟩ := hm
    rw [he.length_eq, List.length_append]
    cases hl with
    | zero a => simp [a]
    | one a => simp [a]
    | two a => simp [a]
  · unfold modesSent modesGot
    rw [hc.eq, List.countP_append, attach_modes]
  · intro h0
    obtain ⟨l, hl, he⟩ := hb
    rw [he, List.length_append]
    cases hl with
    | zero _ _ => simp
    | one a _ => exact absurd h0 a
    | two a _ => exact absurd h0 a

/-- **C46, no crash.** With the decompressor's use of the queues no assertion in them fails. -/
theorem no_panic {s : Sys γ} (h : Reach MainRule WorkRule s) :
    (∀ o, s.main = .wants o → critM s.q s.waiters o ≠ none) ∧
    ∀ o, s.work = .wants o → critW s.q s.waiters o ≠ none := by
  have hi := inv_reach h
  have hd := dinv_reach h
  obtain ⟨-, hcm, hmo, hpm, -⟩ := counts hi hd.real
  constructor
  · intro o ho
    cases o with
    | pushCm p => simp only [critM]; split <;> simp
    | push b => simp [critM]
    | pull =>
      simp only [critM]
      split
      · have : s.q.pull ⟨slots, []⟩ (.none, .none) (.empty, .empty) ≠ none := by
          unfold Queue.pull
          split
          · rename_i hc
            rw [hc.1] at hpm
            simp only [modes] at hpm
            cases hpm with
            | zero a b => simp [a, b] at hc
          · simp
        cases hp : s.q.pull ⟨slots, []⟩ (.none, .none) (.empty, .empty) with
        | none => exact absurd hp this
        | some r => simp
      · cases s.q.err <;> simp
    | fail e => simp [critM]
  · intro o ho
    have hrule : WorkRule s o := hd.w o (by rw [ho]; rfl)
    cases o with
    | pullData => simp only [critW]; split <;> simp
    | pullCm => simp only [critW]; split <;> simp
    | fail e => simp [critW]
    | force cs pm eof data =>
      obtain ⟨hr1, -⟩ := hrule
      have hp1 : ∀ p, pm = some p → s.q.p1.speeds = false := by
        intro p hp
        have h1 := (hr1 p hp).1
        have h2 := hd.pr
        have h0 : modes s.q.result.cmds = 0 := by omega
        rw [h0] at hpm
        cases hpm with
        | zero a b => exact b
      -- a queue with the same commands and the same second map
      have key : ∀ (q' : Queue γ) (log : List (Obs γ)) (nt : Bool) (d : Range),
          q'.result = s.q.result → q'.p1 = s.q.p1 →
          forceCmds q' s.waiters log nt cs pm eof d ≠ none := by
        intro q' log nt d h1 h2
        unfold forceCmds
        by_cases hs : q'.space (batch cs pm).cmds.length = true
        · rw [if_pos hs]
          obtain ⟨q1, hq1⟩ : ∃ x, x = (if eof = true then q'.setEof else q') := ⟨_, rfl⟩
          have h3 : q1.result = q'.result ∧ q1.p1 = q'.p1 := by
            obtain ⟨-, -, -, -, -, -, b1, -, -, -, b2, -⟩ := setEof_fields q'
            rw [hq1]
            split
            · exact ⟨b1, b2⟩
            · exact ⟨rfl, rfl⟩
          simp only [← hq1]
          have hsp : q1.result.cmds.length + (batch cs pm).cmds.length ≤ q1.result.cap := by
            unfold Queue.space at hs
            have hs' : (batch cs pm).cmds.length ≤ q'.result.cap - q'.result.cmds.length := by
              simpa using hs
            have := hi.q.len
            have := hi.q.cap
            rw [h3.1]
            rw [h1] at hs' ⊢
            omega
          have hins : q1.insert (batch cs pm) pm ≠ none := by
            have put : ∀ (q2 : Queue γ) (p : Pm), pm = some p → q2.p1 = q1.p1 → q2.putPm p ≠ none := by
              intro q2 p hp h4
              unfold Queue.putPm
              have : ¬ q2.p1.speeds = true := by rw [h4, h3.2, h2, hp1 p hp]; simp
              rw [if_neg this]
              split <;> simp
            unfold Queue.insert
            simp only
            split
            · cases pm with
              | none => simp
              | some p =>
                simp only [ne_eq, Option.map_eq_none_iff]
                exact put _ p rfl rfl
            · cases pm with
              | none => simp
              | some p =>
                simp only [ne_eq, Option.map_eq_none_iff]
                exact put _ p rfl rfl
          simpa using hins
        · rw [if_neg hs]
          cases q'.err <;> simp
      simp only [critW]
      split
      · obtain ⟨-, -, -, -, -, -, c1, -, c2, -⟩ := pushConsumed_fields s.q data
        split
        · exact key _ _ _ _ c1 c2
        · simp
        · exact key _ _ _ _ c1 c2
      · exact key _ _ _ _ rfl rfl

/-- **C46, the two threads wait for each other only for lack of input.** With the decompressor's use of
the queues, when both threads wait (neither notified), main waits for results and the worker for data,
and every buffer main ever handed over has been used up by the worker and is back with main: nothing is
in flight.  Main pulls only while a buffer is in flight or the file has ended
(`commands_or_data_to_receive`, /repo/src/codec/decoder.rs:118-121), so what is missing is a file that
ends before its command stream does, see `deadlock_reachable`. -/
theorem deadlock_only_without_input_partial {s : Sys γ} (h : Reach MainRule WorkRule s) {o : MOp} {o' : WOp γ}
    (ho : s.main = .asleep o) (ho' : s.work = .asleep o') :
    o = .pull ∧ o' = .pullData ∧
      (receivedBufs s.log).length = (pushedData s.log).length ∧
      receivedCmds s.log = sentCmds s.log := by
  have hi := inv_reach h
  have hd := dinv_reach h
  obtain ⟨hda, hcm, hmo, hpm, hbu⟩ := counts hi hd.real
  have hm := hi.mb o ho
  have hw := hi.wb o' ho'
  have hmr := hd.m o (by rw [ho]; rfl)
  have hwr := hd.w o' (by rw [ho']; rfl)
  have hpr := hd.pr
  have hmt := hd.mt
  cases o with
  | push b => exact absurd hm (by simp [BlockedM])
  | fail e => exact absurd hm (by simp [BlockedM])
  | pushCm p =>
    simp only [BlockedM, MainRule] at hm hmr
    omega
  | pull =>
    simp only [BlockedM, MainRule] at hm hmr
    obtain ⟨hready, herr⟩ := hm
    have hq : s.q.result.cmds = [] ∧ s.q.r0.cap = 0 := by
      unfold Queue.resultReady at hready
      split at hready
      · simpa using hready
      · simp at hready
    rw [hq.1] at hmo
    simp only [modes, Nat.add_zero] at hmo
    cases o' with
    | pullCm =>
      simp only [BlockedW, WorkRule] at hw hwr
      omega
    | fail e => exact absurd hw (by simp [BlockedW])
    | force cs pm eof data =>
      simp only [BlockedW] at hw
      obtain ⟨-, ⟨-, h1, -⟩ | ⟨-, h1⟩⟩ := hw
      · exact absurd hq.2 h1
      · -- the whole block is free, and the batch fits in a block
        exfalso
        have := hi.q.cap
        unfold Queue.space at h1
        rw [hq.1, this] at h1
        simp only [List.length_nil, Nat.sub_zero, decide_eq_false_iff_not] at h1
        exact h1 hwr.2.2
    | pullData =>
      simp only [BlockedW, WorkRule] at hw hwr
      refine ⟨rfl, rfl, ?_, ?_⟩
      · rw [← hbu hq.2]; omega
      · obtain ⟨ops, hr⟩ := hi.ops
        have := (cmdInv_run hr hd.real).eq
        rw [hq.1] at this
        simpa [attach] using this.symm

/-- With a buffer in flight the two threads do not both wait. -/
theorem no_deadlock_in_flight {s : Sys γ} (h : Reach MainRule WorkRule s)
    (hf : (receivedBufs s.log).length < (pushedData s.log).length) (o : MOp) (o' : WOp γ) :
    ¬ (s.main = .asleep o ∧ s.work = .asleep o') := by
  rintro ⟨ho, ho'⟩
  have := (deadlock_only_without_input_partial h ho ho').2.2.1
  omega

/-- From a state in which main waits for results and the worker for data, nothing ever changes. -/
theorem deadlock_forever {G G' : Sys γ → MOp → Prop} {H H' : Sys γ → WOp γ → Prop} {s t : Sys γ}
    (h : Reach G H s) (hm : s.main = .asleep .pull) (hw : s.work = .asleep .pullData)
    (hl : Later G' H' s t) :
    t.q = s.q ∧ t.log = s.log ∧ t.main.call = some .pull ∧ t.work.call = some .pullData := by
  have hi := inv_reach h
  have bm := hi.mb _ hm
  have bw := hi.wb _ hw
  have c1 : ∀ n, critM s.q n .pull = some ⟨s.q, [], false, some .pull⟩ := by
    intro n; simp only [BlockedM] at bm; simp [critM, bm.1, bm.2]
  have c2 : ∀ n, critW s.q n .pullData = some ⟨s.q, [], false, some .pullData⟩ := by
    intro n; simp only [BlockedW] at bw; simp [critW, bw]
  induction hl with
  | refl => exact ⟨rfl, rfl, by rw [hm]; rfl, by rw [hw]; rfl⟩
  | step _ hs ih =>
    obtain ⟨i1, i2, i3, i4⟩ := ih
    cases hs with
    | mStart o h1 _ => rw [h1] at i3; simp [Th.call] at i3
    | mRun h1 hc =>
      rw [h1] at i3
      simp only [Th.call, Option.some.injEq] at i3
      subst i3
      rw [i1, c1] at hc
      simp only [Option.some.injEq] at hc; subst hc
      exact ⟨rfl, by simp [i2], rfl, i4⟩
    | mAgain h1 => rw [h1] at i3; exact ⟨i1, i2, i3, i4⟩
    | mSpurious h1 => rw [h1] at i3; exact ⟨i1, i2, i3, i4⟩
    | wStart o h1 _ => rw [h1] at i4; simp [Th.call] at i4
    | wRun h1 hc =>
      rw [h1] at i4
      simp only [Th.call, Option.some.injEq] at i4
      subst i4
      rw [i1, c2] at hc
      simp only [Option.some.injEq] at hc; subst hc
      exact ⟨rfl, by simp [i2], i3, rfl⟩
    | wAgain h1 => rw [h1] at i4; exact ⟨i1, i2, i3, i4⟩
    | wSpurious h1 => rw [h1] at i4; exact ⟨i1, i2, i3, i4⟩

/-- The worker has one buffer, hands over a command and the buffer, and asks for more; main has pulled
them and pulls again, because the file has ended.  (The command stream in the file is cut short, or
damaged so that the worker reads past its end.) -/
def cutShort : Sys Nat :=
  ⟨⟨0, .data .none, .eof, 0, .empty, .empty, ⟨slots, []⟩, .none, .none, .empty, .empty, 0, .ok, none⟩, 2,
    .asleep .pull, .asleep .pullData,
    [.push ⟨9, [1, 2]⟩ true, .pullData (.data ⟨9, [1, 2]⟩), .pushConsumed ⟨9, []⟩ .success,
      .insert [7] none, .pull [.other 7] (⟨9, []⟩, .none) (.empty, .empty) .ok]⟩

/-- **C46, false in general.** The two threads can come to wait for each other forever (with
`deadlock_forever`): a file whose command stream ends before the end-of-stream command makes the
multithreaded decompressor hang instead of reporting an error. -/
theorem deadlock_reachable : Reach MainRule WorkRule cutShort := by
  have s1 := Reach.step (G := MainRule) (H := WorkRule) (Reach.init (γ := Nat))
    (.mStart (.push ⟨9, [1, 2]⟩) rfl trivial)
  have s2 := s1.step (.mRun rfl rfl)
  have s3 := s2.step (.wStart .pullData rfl rfl)
  have s4 := s3.step (.wRun rfl rfl)
  have s5 := s4.step (.wStart (.force [7] none false ⟨9, []⟩) rfl ⟨by simp, fun _ => by decide, by decide⟩)
  have s6 := s5.step (.wRun rfl rfl)
  have s7 := s6.step (.wStart .pullData rfl rfl)
  have s8 := s7.step (.wRun rfl rfl)
  have s9 := s8.step (.mStart .pull rfl rfl)
  have s10 := s9.step (.mRun rfl rfl)
  have s11 := s10.step (.wAgain rfl)
  have s12 := s11.step (.wRun rfl rfl)
  have s13 := s12.step (.mStart .pull rfl rfl)
  have s14 := s13.step (.mRun rfl rfl)
  exact s14

/-- The same with a decompressor that is dropped half way: main is idle, the worker waits for data. -/
example : Reach MainRule WorkRule (γ := Nat) ⟨Queue.new Nat, 1, .idle, .asleep .pullData, []⟩ := by
  have s1 := Reach.step (G := MainRule) (H := WorkRule) (Reach.init (γ := Nat)) (.wStart .pullData rfl rfl)
  have s2 := s1.step (.wRun rfl rfl)
  exact s2

/-- A worker that waits for data, or for a map, does not notice an error that main broadcasts: as long
as main does nothing else (`free` and `free_ref` broadcast and then wait for the worker to let go of the
codec, /repo/src/parallel_decompressor.rs:141-146, 155-158), it never returns. -/
theorem error_does_not_wake {G : Sys γ → MOp → Prop} {H H' : Sys γ → WOp γ → Prop} {s t : Sys γ}
    (h : Reach G H s) {o : WOp γ} (ho : o = .pullData ∨ o = .pullCm) (hm : s.main = .idle)
    (hw : s.work = .asleep o) (hl : Later (fun _ c => ∃ e, c = .fail e) H' s t) :
    t.work.call = some o := by
  have bw := (inv_reach h).wb _ hw
  have key : t.work.call = some o ∧ BlockedW t.q o ∧ (t.main.call = none ∨ ∃ e, t.main.call = some (.fail e)) := by
    induction hl with
    | refl => exact ⟨by rw [hw]; rfl, bw, Or.inl (by rw [hm]; rfl)⟩
    | step _ hs ih =>
      obtain ⟨i1, i2, i3⟩ := ih
      cases hs with
      | mStart o' h1 hg =>
        obtain ⟨e, rfl⟩ := hg
        exact ⟨i1, i2, Or.inr ⟨e, rfl⟩⟩
      | mRun h1 hc =>
        rw [h1] at i3
        simp only [Th.call, reduceCtorEq, false_or, Option.some.injEq] at i3
        obtain ⟨e, rfl⟩ := i3
        simp only [critM, Option.some.injEq] at hc; subst hc
        refine ⟨?_, ?_, Or.inl rfl⟩
        · simp only
          split
          · rw [call_wake]; exact i1
          · exact i1
        · rcases ho with rfl | rfl <;> exact i2
      | mAgain h1 => rw [h1] at i3; exact ⟨i1, i2, i3⟩
      | mSpurious h1 => rw [h1] at i3; exact ⟨i1, i2, i3⟩
      | wStart o' h1 _ => rw [h1] at i1; simp [Th.call] at i1
      | wRun h1 hc =>
        rw [h1] at i1
        simp only [Th.call, Option.some.injEq] at i1
        subst i1
        rcases ho with rfl | rfl
        · simp only [BlockedW] at i2
          simp only [critW, i2, ne_eq, not_true_eq_false, if_false, Option.some.injEq] at hc
          subst hc
          exact ⟨rfl, i2, i3⟩
        · simp only [BlockedW] at i2
          simp only [critW, i2, ne_eq, not_true_eq_false, if_false, Option.some.injEq] at hc
          subst hc
          exact ⟨rfl, i2, i3⟩
      | wAgain h1 => rw [h1] at i1; exact ⟨i1, i2, i3⟩
      | wSpurious h1 => rw [h1] at i1; exact ⟨i1, i2, i3⟩
  exact key.1

/-- A worker that waits for room does notice it: its next try returns. -/
theorem error_frees_force {q : Queue γ} {n : Nat} {cs : List γ} {pm : Option Pm} {eof : Bool}
    {data : Range} {c : Crit γ (WOp γ)} (he : q.err ≠ none)
    (h : critW q n (.force cs pm eof data) = some c) : c.next = none := by
  have two : ∀ {q' : Queue γ} {log nt d}, q'.err ≠ none →
      forceCmds q' n log nt cs pm eof d = some c → c.next = none := by
    intro q' log nt d h1 h2
    rcases forceCmds_cases h2 with ⟨-, -, h3, -⟩ | ⟨-, -, -, -, ⟨h3, -⟩ | ⟨-, h3⟩⟩
    · exact h3
    · exact absurd h3 h1
    · exact h3
  rcases force_cases h with ⟨h0, h1⟩ | ⟨h5, h6, -⟩ | ⟨h0, h6, -⟩ | ⟨e, h5, h2, h1⟩
  · exact two he h1
  · exact absurd h6 he
  · exact absurd h6 he
  · exact two (by simp [Queue.fail]) h1

end Divans.Threads
